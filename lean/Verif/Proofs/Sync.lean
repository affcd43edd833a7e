import Verif.Model.Sync
import Mathlib.Tactic.SplitIfs
import Mathlib.Tactic.ByContra
import Mathlib.Tactic.Set
/-
Invariant of the barrier.
-/
namespace Asagi

/-- Number of threads below `n` with property `p`. -/
def cnt (p : Nat → Prop) [DecidablePred p] : Nat → Nat
  | 0 => 0
  | n + 1 => cnt p n + if p n then 1 else 0

section
variable {p q : Nat → Prop} [DecidablePred p] [DecidablePred q]

theorem cnt_congr {n : Nat} (h : ∀ t, t < n → (p t ↔ q t)) : cnt p n = cnt q n := by
  induction n with
  | zero => rfl
  | succ n ih =>
    simp only [cnt, ih (fun t ht => h t (by omega))]
    by_cases hp : p n
    · rw [if_pos hp, if_pos ((h n (by omega)).1 hp)]
    · rw [if_neg hp, if_neg (fun hq => hp ((h n (by omega)).2 hq))]

theorem cnt_add_one {n t : Nat} (ht : t < n) (h1 : ¬ p t) (h2 : q t)
    (h : ∀ u, u < n → u ≠ t → (p u ↔ q u)) : cnt q n = cnt p n + 1 := by
  induction n with
  | zero => omega
  | succ n ih =>
    simp only [cnt]
    by_cases hn : t = n
    · subst hn
      rw [if_neg h1, if_pos h2, cnt_congr (p := p) (q := q) (fun u hu => h u (by omega) (by omega))]
    · rw [ih (by omega) (fun u hu hne => h u (by omega) hne)]
      by_cases hp : p n
      · rw [if_pos hp, if_pos ((h n (by omega) (Ne.symm hn)).1 hp)]
      · rw [if_neg hp, if_neg (fun hq => hp ((h n (by omega) (Ne.symm hn)).2 hq))]

theorem cnt_le {n : Nat} (h : ∀ t, t < n → p t → q t) : cnt p n ≤ cnt q n := by
  induction n with
  | zero => exact Nat.le_refl _
  | succ n ih =>
    simp only [cnt]
    have := ih (fun t ht => h t (by omega))
    by_cases hp : p n
    · rw [if_pos hp, if_pos (h n (by omega) hp)]; omega
    · rw [if_neg hp]; split <;> omega

theorem cnt_le_n {n : Nat} : cnt p n ≤ n := by
  induction n with
  | zero => exact Nat.le_refl _
  | succ n ih => simp only [cnt]; split <;> omega

theorem cnt_lt {n t : Nat} (ht : t < n) (h : ∀ t, t < n → p t → q t) (h1 : ¬ p t) (h2 : q t) :
    cnt p n < cnt q n := by
  induction n with
  | zero => omega
  | succ n ih =>
    simp only [cnt]
    by_cases hn : t = n
    · subst hn
      rw [if_neg h1, if_pos h2]
      have := cnt_le (p := p) (q := q) (n := t) (fun u hu => h u (by omega)); omega
    · have := ih (by omega) (fun u hu => h u (by omega))
      by_cases hp : p n
      · rw [if_pos hp, if_pos (h n (by omega) hp)]; omega
      · rw [if_neg hp]; split <;> omega

theorem cnt_all {n : Nat} (h : cnt p n = n) : ∀ t, t < n → p t := by
  intro t ht
  by_contra hp
  have h1 := cnt_lt (p := p) (q := fun _ => True) ht (fun _ _ _ => trivial) hp trivial
  have h2 := cnt_le_n (p := fun _ => True) (n := n)
  omega

theorem cnt_zero {n : Nat} (h : cnt p n = 0) : ∀ t, t < n → ¬ p t := by
  intro t ht hp
  have h1 := cnt_lt (p := fun _ => False) (q := p) ht (fun _ _ h => h.elim) (fun h => h) hp
  omega

theorem cnt_none {n : Nat} (h : ∀ t, t < n → ¬ p t) : cnt p n = 0 := by
  induction n with
  | zero => rfl
  | succ n ih =>
    simp only [cnt]
    rw [ih (fun t ht => h t (by omega)), if_neg (h n (by omega))]

theorem cnt_pos {n : Nat} (h : 0 < cnt p n) : ∃ t, t < n ∧ p t := by
  by_contra hn
  have := cnt_none (p := p) (n := n) (fun t ht hp => hn ⟨t, ht, hp⟩)
  omega

theorem cnt_full {n : Nat} (h : ∀ t, t < n → p t) : cnt p n = n := by
  induction n with
  | zero => rfl
  | succ n ih =>
    simp only [cnt]
    rw [ih (fun t ht => h t (by omega)), if_pos (h n (by omega))]

/-- A strict inclusion has a witness. -/
theorem cnt_lt_witness {n : Nat} (h : cnt p n < cnt q n) : ∃ t, t < n ∧ q t ∧ ¬ p t := by
  by_contra hn
  have := cnt_le (p := q) (q := p) (n := n) (fun t ht hq => by
    by_contra hp; exact hn ⟨t, ht, hq, hp⟩)
  omega

end

variable {α : Type}

/-- Invariant: `k` is the number of the use of the barrier the threads are in. While collecting, all
threads are before or in use `k`; while finishing, all threads have entered use `k` and some have
left it. -/
structure SyncInv (P : SyncParams α) (s : SyncState α) (k : Nat) : Prop where
  collect : s.finishing = false →
    (∀ t, t < P.n → s.rnd t = k ∧ (s.pc t = .idle ∨ s.pc t = .sigFin ∨ s.pc t = .waitCond)) ∧
    s.synced = cnt (fun t => s.pc t = .waitCond) P.n ∧ s.synced < P.n ∧
    s.last = cnt (fun t => P.root k = some t ∧ s.pc t = .waitCond) P.n ∧
    (∀ r, r < P.n → P.root k = some r → s.pc r = .waitCond → s.data = some (r, k))
  finish : s.finishing = true →
    (∀ t, t < P.n →
      (s.rnd t = k ∧ (s.pc t = .sigCond ∨
        (P.root k = some t ∧ (s.pc t = .waitLast ∨ s.pc t = .sigLast)))) ∨
      (s.rnd t = k + 1 ∧ (s.pc t = .idle ∨ s.pc t = .waitFin))) ∧
    s.synced = cnt (fun t => s.rnd t = k) P.n ∧ 0 < s.synced ∧
    s.last = cnt (fun t => P.root k = some t ∧ s.rnd t = k) P.n ∧
    (∀ r, r < P.n → P.root k = some r → s.data = some (r, k)) ∧
    (∀ r, r < P.n → P.root k = some r → s.rnd r = k) ∧
    (∀ t, t < P.n → s.pc t = .waitLast → ∃ u, u < P.n ∧ u ≠ t ∧ s.rnd u = k) ∧
    (∀ t, t < P.n → s.pc t = .sigLast → ∀ u, u < P.n → s.rnd u = k → u = t)
  got : ∀ t j r, t < P.n → j < s.rnd t → P.root j = some r → s.got t j = some (some (P.val r j))

theorem SyncInv.start {P : SyncParams α} (hn : 0 < P.n) : SyncInv P .start 0 := by
  refine ⟨fun _ => ⟨fun t _ => ⟨rfl, .inl rfl⟩, ?_, hn, ?_, ?_⟩, fun h => (by cases h), ?_⟩
  · exact (cnt_none (fun t _ h => by cases h)).symm
  · exact (cnt_none (fun t _ h => by cases h.2)).symm
  · intro r _ _ h; cases h
  · intro t j r _ h; exact absurd h (Nat.not_lt_zero _)

/-- Leaving the barrier while finishing keeps the invariant, possibly for the next use. -/
theorem SyncInv.leave {P : SyncParams α} {s : SyncState α} {k t : Nat}
    (hroot : ∀ k r, P.root k = some r → r < P.n)
    (h : SyncInv P s k) (hf : s.finishing = true) (ht : t < P.n) (hk : s.rnd t = k)
    (hl : P.root k = some t → ∀ u, u < P.n → s.rnd u = k → u = t) :
    ∃ k', SyncInv P (s.leave P t) k' := by
  obtain ⟨f1, f2, f3, f4, f5, f6, f7, f8⟩ := h.finish hf
  have hpct : ∀ u, u < P.n → u ≠ t → s.rnd u = k → s.pc u = .sigCond ∨
      (P.root k = some u ∧ (s.pc u = .waitLast ∨ s.pc u = .sigLast)) := by
    intro u hu _ hr
    rcases f1 u hu with hh | hh
    · exact hh.2
    · omega
  -- the new counts
  have hrnd : ∀ u, (upd s.rnd t (s.rnd t + 1)) u = if u = t then k + 1 else s.rnd u := by
    intro u; rw [upd_apply, hk]
  have hcs : s.synced = cnt (fun u => (upd s.rnd t (s.rnd t + 1)) u = k) P.n + 1 := by
    rw [f2]
    refine cnt_add_one ht ?_ hk ?_
    · rw [hrnd, if_pos rfl]; omega
    · intro u _ hne; rw [hrnd, if_neg hne]
  -- data and got
  have hgot : ∀ u j r, u < P.n → j < (upd s.rnd t (s.rnd t + 1)) u → P.root j = some r →
      (s.leave P t).got u j = some (some (P.val r j)) := by
    intro u j r hu hj hr
    rw [hrnd] at hj
    simp only [SyncState.leave]
    by_cases hut : u = t
    · subst hut
      rw [if_pos rfl] at hj
      by_cases hjk : j = k
      · subst hjk
        have hrn := hroot _ _ hr
        rw [hk, hr]
        simp only [Option.isSome_some, if_true, upd_self]
        simp only [SyncState.deref, f5 r hrn hr, f6 r hrn hr, if_true]
      · have := h.got u j r hu (by omega) hr
        split
        · rw [upd_self, upd_ne _ _ (by omega)]; exact this
        · exact this
    · rw [if_neg hut] at hj
      have := h.got u j r hu hj hr
      split
      · rw [upd_ne _ _ hut]; exact this
      · exact this
  by_cases h0 : s.synced - 1 = 0
  · -- the last thread: next use
    have hnone : ∀ u, u < P.n → u ≠ t → s.rnd u = k + 1 ∧ (s.pc u = .idle ∨ s.pc u = .waitFin) := by
      intro u hu hne
      rcases f1 u hu with hh | hh
      · have : (upd s.rnd t (s.rnd t + 1)) u = k := by rw [hrnd, if_neg hne]; exact hh.1
        exact absurd this (cnt_zero (p := fun u => (upd s.rnd t (s.rnd t + 1)) u = k) (by omega) u hu)
      · exact hh
    have hpc : ∀ u, u < P.n → (s.leave P t).pc u = .idle ∨ (s.leave P t).pc u = .sigFin := by
      intro u hu
      simp only [SyncState.leave, if_pos h0]
      by_cases hne : u = t
      · subst hne; rw [upd_self]; exact .inl rfl
      · rw [upd_ne _ _ hne]
        have hpu := (hnone u hu hne).2
        have key : ∀ pc : Nat → SyncPc, pc u = s.pc u →
            wake pc .waitFin .sigFin u = .idle ∨ wake pc .waitFin .sigFin u = .sigFin := by
          intro pc hpcu
          simp only [wake, hpcu]
          rcases hpu with hh | hh <;> rw [hh] <;> simp
        apply key
        have hw : wake s.pc .waitLast .sigLast u = s.pc u := by
          simp only [wake]
          rcases hpu with hh | hh <;> rw [hh] <;> simp
        split_ifs <;> first | exact hw | rfl
    have hlast : s.last ≤ s.synced := by rw [f2, f4]; exact cnt_le (fun _ _ h => h.2)
    refine ⟨k + 1, ⟨fun _ => ⟨?_, ?_, ?_, ?_, ?_⟩, ?_, hgot⟩⟩
    · intro u hu
      refine ⟨?_, ?_⟩
      · simp only [SyncState.leave]; rw [hrnd]
        by_cases hne : u = t
        · rw [if_pos hne]
        · rw [if_neg hne]; exact (hnone u hu hne).1
      · rcases hpc u hu with hh | hh
        · exact .inl hh
        · exact .inr (.inl hh)
    · rw [cnt_none]
      · exact h0
      · intro u hu hh; rcases hpc u hu with h' | h' <;> rw [h'] at hh <;> cases hh
    · change s.synced - 1 < P.n
      omega
    · rw [cnt_none]
      · change (if P.isRoot s t then s.last - 1 else s.last) = 0
        by_cases hr : P.isRoot s t
        · rw [if_pos hr]; omega
        · rw [if_neg hr]
          by_contra hl0
          obtain ⟨u, hu, hu1, hu2⟩ := cnt_pos (p := fun t => P.root k = some t ∧ s.rnd t = k)
            (n := P.n) (by omega)
          have hut : u ≠ t := by
            rintro rfl; exact hr (by simp only [SyncParams.isRoot, hk]; exact hu1)
          have := (hnone u hu hut).1
          omega
      · intro u hu hh; rcases hpc u hu with h' | h' <;> rw [h'] at hh <;> cases hh.2
    · intro r hr _ hh; rcases hpc r hr with h' | h' <;> rw [h'] at hh <;> cases hh
    · intro hh
      simp only [SyncState.leave, if_pos h0] at hh
      cases hh
  · -- others remain
    have hnr : ¬ P.isRoot s t := by
      intro hr
      simp only [SyncParams.isRoot, hk] at hr
      have hone : cnt (fun u => (upd s.rnd t (s.rnd t + 1)) u = k) P.n = 0 := by
        apply cnt_none
        intro u hu hh
        rw [hrnd] at hh
        by_cases hne : u = t
        · rw [if_pos hne] at hh; omega
        · rw [if_neg hne] at hh; exact hne (hl hr u hu hh)
      omega
    have hnr' : P.root k ≠ some t := by
      intro hh; exact hnr (by simp only [SyncParams.isRoot, hk]; exact hh)
    have hlcount : s.last = cnt (fun u => P.root k = some u ∧ (upd s.rnd t (s.rnd t + 1)) u = k) P.n := by
      rw [f4]
      apply cnt_congr
      intro u hu
      rw [hrnd]
      by_cases hne : u = t
      · subst hne; simp [hnr']
      · rw [if_neg hne]
    have hpcu : ∀ u, u < P.n → u ≠ t → (s.leave P t).pc u =
        if s.synced - 1 = s.last then (if s.pc u = .waitLast then .sigLast else s.pc u)
        else s.pc u := by
      intro u hu hne
      simp only [SyncState.leave, if_neg h0, hnr, not_false_eq_true, and_true]
      rw [upd_ne _ _ hne, if_neg (fun h => h)]
      by_cases hs : s.synced - 1 = s.last
      · rw [if_pos hs, if_pos hs]; rfl
      · rw [if_neg hs, if_neg hs]
    refine ⟨k, ⟨?_, fun _ => ⟨?_, ?_, ?_, ?_, ?_, ?_, ?_, ?_⟩, hgot⟩⟩
    · intro hh
      simp only [SyncState.leave, if_neg h0, hf] at hh
      cases hh
    · intro u hu
      by_cases hne : u = t
      · subst hne
        refine .inr ⟨?_, .inl ?_⟩
        · simp only [SyncState.leave, upd_self, hk]
        · simp only [SyncState.leave, upd_self]
      · have er : (s.leave P t).rnd u = s.rnd u := by simp only [SyncState.leave]; rw [upd_ne _ _ hne]
        rw [er, hpcu u hu hne]
        rcases f1 u hu with ⟨h1, h2⟩ | ⟨h1, h2⟩
        · refine .inl ⟨h1, ?_⟩
          rcases h2 with h2 | ⟨h2, h3 | h3⟩
          · left; rw [h2]; simp
          · right; refine ⟨h2, ?_⟩; rw [h3]; by_cases hs : s.synced - 1 = s.last <;> simp [hs]
          · right; refine ⟨h2, ?_⟩; rw [h3]; simp
        · refine .inr ⟨h1, ?_⟩
          rcases h2 with h2 | h2 <;> rw [h2] <;> simp
    · change s.synced - 1 = cnt (fun u => (upd s.rnd t (s.rnd t + 1)) u = k) P.n
      omega
    · change 0 < s.synced - 1
      omega
    · change (if P.isRoot s t then s.last - 1 else s.last) =
        cnt (fun u => P.root k = some u ∧ (upd s.rnd t (s.rnd t + 1)) u = k) P.n
      rw [if_neg hnr]; exact hlcount
    · intro r hr hrr; exact f5 r hr hrr
    · intro r hr hrr
      have hne : r ≠ t := by rintro rfl; exact hnr' hrr
      simp only [SyncState.leave]; rw [upd_ne _ _ hne]; exact f6 r hr hrr
    · -- a root still waiting: another thread is still in
      intro u hu hh
      have hne : u ≠ t := by
        rintro rfl
        simp only [SyncState.leave, upd_self] at hh
        cases hh
      rw [hpcu u hu hne] at hh
      by_cases hs : s.synced - 1 = s.last
      · rw [if_pos hs] at hh
        split at hh
        · cases hh
        · contradiction
      · -- more threads than roots remain
        rw [if_neg hs] at hh
        have hle : s.last ≤ s.synced - 1 := by
          have : cnt (fun u => P.root k = some u ∧ (upd s.rnd t (s.rnd t + 1)) u = k) P.n ≤
            cnt (fun u => (upd s.rnd t (s.rnd t + 1)) u = k) P.n := cnt_le (fun _ _ h => h.2)
          omega
        obtain ⟨v, hv, hv1, hv2⟩ := cnt_lt_witness
          (p := fun u => P.root k = some u ∧ (upd s.rnd t (s.rnd t + 1)) u = k)
          (q := fun u => (upd s.rnd t (s.rnd t + 1)) u = k) (n := P.n) (by omega)
        refine ⟨v, hv, ?_, hv1⟩
        rintro rfl
        apply hv2
        refine ⟨?_, hv1⟩
        rcases f1 v hu with ⟨_, h2⟩ | ⟨_, h2⟩
        · rcases h2 with h2 | ⟨h2, _⟩
          · rw [h2] at hh; cases hh
          · exact h2
        · rcases h2 with h2 | h2 <;> rw [h2] at hh <;> cases hh
    · -- the root has been woken: nobody else is in
      intro u hu hh v hv hrv
      have hne : u ≠ t := by
        rintro rfl
        simp only [SyncState.leave, upd_self] at hh
        cases hh
      have hvt : v ≠ t := by
        rintro rfl
        simp only [SyncState.leave, upd_self, hk] at hrv
        omega
      have hrv' : s.rnd v = k := by
        simp only [SyncState.leave] at hrv; rwa [upd_ne _ _ hvt] at hrv
      rw [hpcu u hu hne] at hh
      by_cases hw : s.pc u = .sigLast
      · exact f8 u hu hw v hv hrv'
      · have hs : s.synced - 1 = s.last := by
          by_contra hs; rw [if_neg hs] at hh; exact hw hh
        have hw2 : s.pc u = .waitLast := by
          by_contra hw2; rw [if_pos hs, if_neg hw2] at hh; exact hw hh
        have hru : P.root k = some u := by
          rcases f1 u hu with ⟨_, h2⟩ | ⟨_, h2⟩
          · rcases h2 with h2 | ⟨h2, _⟩
            · rw [h2] at hw2; cases hw2
            · exact h2
          · rcases h2 with h2 | h2 <;> rw [h2] at hw2 <;> cases hw2
        by_contra hvu
        have hvr : ¬ (P.root k = some v ∧ (upd s.rnd t (s.rnd t + 1)) v = k) := by
          rintro ⟨h1, _⟩; rw [hru] at h1; exact hvu (Option.some.inj h1).symm
        have := cnt_lt (p := fun u => P.root k = some u ∧ (upd s.rnd t (s.rnd t + 1)) u = k)
          (q := fun u => (upd s.rnd t (s.rnd t + 1)) u = k) hv (fun _ _ h => h.2) hvr
          (by rw [upd_ne _ _ hvt]; exact hrv')
        omega

/-- Waiting as the root keeps the invariant. -/
theorem SyncInv.afterCond {P : SyncParams α} {s : SyncState α} {k t : Nat}
    (hroot : ∀ k r, P.root k = some r → r < P.n)
    (h : SyncInv P s k) (hf : s.finishing = true) (ht : t < P.n) (hk : s.rnd t = k) :
    ∃ k', SyncInv P (s.afterCond P t) k' := by
  obtain ⟨f1, f2, f3, f4, f5, f6, f7, f8⟩ := h.finish hf
  unfold SyncState.afterCond
  split
  · rename_i hh
    obtain ⟨hr, hlt⟩ := hh
    simp only [SyncParams.isRoot, hk] at hr
    refine ⟨k, ⟨fun hc => (by rw [hf] at hc; cases hc), fun _ => ⟨?_, f2, f3, f4, f5, f6, ?_, ?_⟩, h.got⟩⟩
    · intro u hu
      by_cases hne : u = t
      · subst hne
        exact .inl ⟨hk, .inr ⟨hr, .inl (upd_self _ _ _)⟩⟩
      · have : upd s.pc t .waitLast u = s.pc u := upd_ne _ _ hne
        simp only [this]
        exact f1 u hu
    · intro u hu hpc
      by_cases hne : u = t
      · subst hne
        obtain ⟨v, hv, hv1, hv2⟩ := cnt_lt_witness
          (p := fun u => P.root k = some u ∧ s.rnd u = k) (q := fun u => s.rnd u = k) (n := P.n)
          (by omega)
        exact ⟨v, hv, fun he => hv2 ⟨he ▸ hr, hv1⟩, hv1⟩
      · exact f7 u hu ((upd_ne _ _ hne).symm.trans hpc)
    · intro u hu hpc v hv hv1
      by_cases hne : u = t
      · subst hne; exact absurd ((upd_self _ _ _).symm.trans hpc) (by simp)
      · exact f8 u hu ((upd_ne _ _ hne).symm.trans hpc) v hv hv1
  · rename_i hh
    refine h.leave hroot hf ht hk ?_
    intro hr u hu hru
    by_contra hne
    apply hh
    refine ⟨by simp only [SyncParams.isRoot, hk]; exact hr, ?_⟩
    rw [f2, f4]
    exact cnt_lt hu (fun _ _ h => h.2) (by
      rintro ⟨h1, _⟩; rw [hr] at h1; exact hne (Option.some.inj h1).symm) hru

theorem upd_upd {κ β : Type} [DecidableEq κ] (f : κ → β) (k : κ) (v w : β) :
    upd (upd f k v) k w = upd f k w := by
  funext x; simp only [upd_apply]; split <;> rfl

theorem wake_upd (pc : Nat → SyncPc) (t : Nat) (c a b : SyncPc) :
    wake (upd pc t c) a b = upd (wake pc a b) t (if c = a then b else c) := by
  funext u
  by_cases hu : u = t
  · subst hu; rw [upd_self]; unfold wake; rw [upd_self]
  · rw [upd_ne _ _ hu]; unfold wake; rw [upd_ne _ _ hu]

/-- Leaving does not depend on the own position. -/
theorem SyncState.leave_pc (P : SyncParams α) (t : Nat) (s : SyncState α) (c : SyncPc) :
    SyncState.leave P t { s with pc := upd s.pc t c } = s.leave P t := by
  have key : ∀ (a b : Prop) [Decidable a] [Decidable b],
      upd (if a then wake (if b then wake (upd s.pc t c) .waitLast .sigLast else upd s.pc t c)
        .waitFin .sigFin else (if b then wake (upd s.pc t c) .waitLast .sigLast else upd s.pc t c)) t
        .idle =
      upd (if a then wake (if b then wake s.pc .waitLast .sigLast else s.pc) .waitFin .sigFin
        else (if b then wake s.pc .waitLast .sigLast else s.pc)) t .idle := by
    intro a b _ _
    by_cases ha : a <;> by_cases hb : b <;>
      simp only [ha, hb, if_true, if_false, wake_upd, upd_upd]
  unfold SyncState.leave
  simp only
  exact congrArg (fun pc => SyncState.mk _ _ _ _ pc _ _) (key _ _)

theorem SyncState.afterCond_pc (P : SyncParams α) (t : Nat) (s : SyncState α) (c : SyncPc) :
    SyncState.afterCond P t { s with pc := upd s.pc t c } = s.afterCond P t := by
  unfold SyncState.afterCond
  by_cases hc : P.isRoot s t ∧ s.last < s.synced
  · rw [if_pos hc, if_pos (show P.isRoot { s with pc := upd s.pc t c } t ∧ _ from hc)]
    exact congrArg (fun pc => SyncState.mk _ _ _ _ pc _ _) (upd_upd _ _ _ _)
  · rw [if_neg hc, if_neg (show ¬ (P.isRoot { s with pc := upd s.pc t c } t ∧ _) from hc)]
    exact SyncState.leave_pc P t s c

/-- Entering the barrier keeps the invariant. -/
theorem SyncInv.arrive {P : SyncParams α} {s : SyncState α} {k t : Nat}
    (hroot : ∀ k r, P.root k = some r → r < P.n)
    (h : SyncInv P s k) (hf : s.finishing = false) (ht : t < P.n)
    (hpc : s.pc t = .idle ∨ s.pc t = .sigFin) :
    ∃ k', SyncInv P (s.arrive P t) k' := by
  obtain ⟨c1, c2, c3, c4, c5⟩ := h.collect hf
  have hk := (c1 t ht).1
  have hpcw : s.pc t ≠ .waitCond := by rcases hpc with hh | hh <;> rw [hh] <;> simp
  have hsync : s.synced + 1 = cnt (fun u => upd s.pc t .waitCond u = .waitCond) P.n := by
    rw [c2]
    refine (cnt_add_one (p := fun u => s.pc u = .waitCond) ht hpcw (upd_self s.pc t _) ?_).symm
    intro u _ hne
    rw [upd_ne _ _ hne]
  have hlast : (if P.isRoot s t then s.last + 1 else s.last) =
      cnt (fun u => P.root k = some u ∧ upd s.pc t .waitCond u = .waitCond) P.n := by
    by_cases hr : P.root k = some t
    · rw [if_pos (by simp only [SyncParams.isRoot, hk]; exact hr), c4]
      refine (cnt_add_one ht (fun hh => hpcw hh.2) ⟨hr, upd_self _ _ _⟩ ?_).symm
      intro u _ hne
      rw [upd_ne _ _ hne]
    · rw [if_neg (by simp only [SyncParams.isRoot, hk]; exact hr), c4]
      apply cnt_congr
      intro u _
      by_cases hne : u = t
      · subst hne; simp [hr]
      · rw [upd_ne _ _ hne]
  have hdata : ∀ r, r < P.n → P.root k = some r → upd s.pc t .waitCond r = .waitCond →
      (if P.isRoot s t then some (t, s.rnd t) else s.data) = some (r, k) := by
    intro r hr hrr hpr
    by_cases hrt : P.root k = some t
    · rw [if_pos (by simp only [SyncParams.isRoot, hk]; exact hrt), hk]
      rw [hrt] at hrr; rw [Option.some.inj hrr]
    · rw [if_neg (by simp only [SyncParams.isRoot, hk]; exact hrt)]
      have hne : r ≠ t := by rintro rfl; exact hrt hrr
      rw [upd_ne _ _ hne] at hpr
      exact c5 r hr hrr hpr
  unfold SyncState.arrive
  simp only
  split
  · rename_i hN
    -- everybody is in
    have hall : ∀ u, u < P.n → u ≠ t → s.pc u = .waitCond := by
      intro u hu hne
      have := cnt_all (p := fun u => upd s.pc t .waitCond u = .waitCond) (n := P.n) (by omega) u hu
      rwa [upd_ne _ _ hne] at this
    -- the finishing invariant, with `t` counted as woken
    set s2 : SyncState α := { s with
      data := if P.isRoot s t then some (t, s.rnd t) else s.data
      synced := s.synced + 1
      last := if P.isRoot s t then s.last + 1 else s.last
      finishing := true
      pc := wake s.pc .waitCond .sigCond } with hs2
    let s3 : SyncState α := { s2 with pc := upd s2.pc t .sigCond }
    have hpcs : ∀ u, u < P.n → s3.pc u = .sigCond := by
      intro u hu
      by_cases hne : u = t
      · subst hne; exact upd_self _ _ _
      · have : s3.pc u = s2.pc u := upd_ne _ _ hne
        rw [this]
        simp only [hs2, wake, hall u hu hne, if_true]
    have h3 : SyncInv P s3 k := by
      refine ⟨fun hc => (by cases hc), fun _ => ⟨?_, ?_, ?_, ?_, ?_, ?_, ?_, ?_⟩, h.got⟩
      · intro u hu; exact .inl ⟨(c1 u hu).1, .inl (hpcs u hu)⟩
      · change s.synced + 1 = cnt (fun u => s.rnd u = k) P.n
        rw [cnt_full (fun u hu => (c1 u hu).1)]; exact hN
      · exact Nat.succ_pos _
      · change (if P.isRoot s t then s.last + 1 else s.last) =
          cnt (fun u => P.root k = some u ∧ s.rnd u = k) P.n
        rw [hlast]
        apply cnt_congr
        intro u hu
        have : upd s.pc t .waitCond u = .waitCond := by
          by_cases hne : u = t
          · subst hne; exact upd_self _ _ _
          · rw [upd_ne _ _ hne]; exact hall u hu hne
        simp only [this, (c1 u hu).1]
      · intro r hr hrr
        refine hdata r hr hrr ?_
        by_cases hne : r = t
        · subst hne; exact upd_self _ _ _
        · rw [upd_ne _ _ hne]; exact hall r hr hne
      · intro r hr _; exact (c1 r hr).1
      · intro u hu hh; rw [hpcs u hu] at hh; cases hh
      · intro u hu hh; rw [hpcs u hu] at hh; cases hh
    have heq : s3.afterCond P t = s2.afterCond P t := SyncState.afterCond_pc ..
    have := h3.afterCond hroot rfl ht hk
    rw [heq] at this
    exact this
  · rename_i hN
    refine ⟨k, ⟨fun _ => ⟨?_, hsync, ?_, hlast, hdata⟩, fun hc => (by rw [hf] at hc; cases hc), h.got⟩⟩
    · intro u hu
      refine ⟨(c1 u hu).1, ?_⟩
      by_cases hne : u = t
      · subst hne; exact .inr (.inr (upd_self _ _ _))
      · have : upd s.pc t .waitCond u = s.pc u := upd_ne _ _ hne
        simp only [this]
        exact (c1 u hu).2
    · change s.synced + 1 < P.n
      omega

theorem SyncInv.step {P : SyncParams α} {s s' : SyncState α} {k : Nat}
    (hroot : ∀ k r, P.root k = some r → r < P.n)
    (h : SyncInv P s k) (hs : SyncStep P false s s') : ∃ k', SyncInv P s' k' := by
  cases hs with
  | waitFinish t ht hpc hf =>
    obtain ⟨f1, f2, f3, f4, f5, f6, f7, f8⟩ := h.finish hf
    have hk : s.rnd t = k + 1 := by
      rcases f1 t ht with ⟨_, h2⟩ | ⟨h1, _⟩
      · rcases h2 with h2 | ⟨_, h2 | h2⟩ <;> rw [hpc] at h2 <;> cases h2
      · exact h1
    refine ⟨k, ⟨fun hc => (by rw [hf] at hc; cases hc),
      fun _ => ⟨?_, f2, f3, f4, f5, f6, ?_, ?_⟩, h.got⟩⟩
    · intro u hu
      by_cases hne : u = t
      · subst hne; exact .inr ⟨hk, .inr (upd_self _ _ _)⟩
      · have : upd s.pc t .waitFin u = s.pc u := upd_ne _ _ hne
        simp only [this]; exact f1 u hu
    · intro u hu hh
      by_cases hne : u = t
      · subst hne; exact absurd ((upd_self _ _ _).symm.trans hh) (by simp)
      · exact f7 u hu ((upd_ne _ _ hne).symm.trans hh)
    · intro u hu hh
      by_cases hne : u = t
      · subst hne; exact absurd ((upd_self _ _ _).symm.trans hh) (by simp)
      · exact f8 u hu ((upd_ne _ _ hne).symm.trans hh)
  | enter t ht hpc hf => exact h.arrive hroot hf ht (.inl hpc)
  | resume t ht hpc =>
    cases hf : s.finishing with
    | false => exact h.arrive hroot hf ht (.inr hpc)
    | true =>
      obtain ⟨f1, _⟩ := h.finish hf
      rcases f1 t ht with ⟨_, h2⟩ | ⟨_, h2⟩
      · rcases h2 with h2 | ⟨_, h2 | h2⟩ <;> rw [hpc] at h2 <;> cases h2
      · rcases h2 with h2 | h2 <;> rw [hpc] at h2 <;> cases h2
  | pass t ht hpc =>
    cases hf : s.finishing with
    | false =>
      obtain ⟨c1, _⟩ := h.collect hf
      rcases (c1 t ht).2 with h2 | h2 | h2 <;> rw [hpc] at h2 <;> cases h2
    | true =>
      obtain ⟨f1, _⟩ := h.finish hf
      rcases f1 t ht with ⟨h1, _⟩ | ⟨_, h2⟩
      · exact h.afterCond hroot hf ht h1
      · rcases h2 with h2 | h2 <;> rw [hpc] at h2 <;> cases h2
  | rootPass t ht hpc =>
    cases hf : s.finishing with
    | false =>
      obtain ⟨c1, _⟩ := h.collect hf
      rcases (c1 t ht).2 with h2 | h2 | h2 <;> rw [hpc] at h2 <;> cases h2
    | true =>
      obtain ⟨f1, f2, f3, f4, f5, f6, f7, f8⟩ := h.finish hf
      rcases f1 t ht with ⟨h1, _⟩ | ⟨_, h2⟩
      · exact h.leave hroot hf ht h1 (fun _ u hu hr => f8 t ht hpc u hu hr)
      · rcases h2 with h2 | h2 <;> rw [hpc] at h2 <;> cases h2
  | spuriousFin _ h0 => cases h0
  | spuriousCond _ h0 => cases h0
  | spuriousLast _ h0 => cases h0

theorem SyncInv.reachable {P : SyncParams α} {s : SyncState α} (hn : 0 < P.n)
    (hroot : ∀ k r, P.root k = some r → r < P.n) (h : SyncReach P false s) :
    ∃ k, SyncInv P s k :=
  Reachable.invariant (I := fun s => ∃ k, SyncInv P s k)
    (fun s (h0 : s = .start) => ⟨0, by rw [h0]; exact SyncInv.start hn⟩)
    (fun _ _ ⟨_, hk⟩ hs => hk.step hroot hs) h

end Asagi
