import Verif.Model.CounterConc
import Mathlib.Algebra.BigOperators.Group.Finset.Basic
import Mathlib.Algebra.Order.BigOperators.Group.Finset
import Mathlib.Tactic.Ring
/-
C71: the counters with several threads.
-/
namespace Asagi.Props
open Asagi

def CounterType.isNative (ty : CounterType) : Prop := ty = .access ∨ ty = .numa ∨ ty = .mpi ∨ ty = .file

theorem native_put {c : Counters} {v : Nat} {ty ty' : CounterType} (h : CounterType.isNative ty) :
    (c.put v ty).native ty' = if ty' = ty then v else c.native ty' := by
  rcases h with rfl | rfl | rfl | rfl <;> cases ty' <;> rfl

/-- The increments that a thread still has to do. -/
def owes (pc : IncPc) (ty : CounterType) : Nat :=
  match pc with
  | .idle => 0
  | .want ty' k | .have ty' k | .got ty' k _ =>
    (if ty' = ty then 1 else 0) + (if k = some ty then 1 else 0)

/-- The increments of all accesses of the log. -/
def owed (log : List (Option CounterType)) (ty : CounterType) : Nat :=
  (if ty = .access then log.length else 0) + log.count (some ty)

theorem owes_after (k : Option CounterType) (ty : CounterType) :
    owes (.after k) ty = if k = some ty then 1 else 0 := by
  cases k <;> simp [IncPc.after, owes]

theorem owes_idle (ty : CounterType) : owes .idle ty = 0 := rfl
theorem owes_want (a : CounterType) (k : Option CounterType) (ty : CounterType) :
    owes (.want a k) ty = (if a = ty then 1 else 0) + (if k = some ty then 1 else 0) := rfl
theorem owes_have (a : CounterType) (k : Option CounterType) (ty : CounterType) :
    owes (.have a k) ty = (if a = ty then 1 else 0) + (if k = some ty then 1 else 0) := rfl
theorem owes_got (a : CounterType) (k : Option CounterType) (v : Nat) (ty : CounterType) :
    owes (.got a k v) ty = (if a = ty then 1 else 0) + (if k = some ty then 1 else 0) := rfl

theorem sum_upd (n : Nat) (f : Nat → IncPc) (t : Nat) (ht : t < n) (p : IncPc) (ty : CounterType) :
    (∑ u ∈ Finset.range n, owes (upd f t p u) ty) + owes (f t) ty =
      (∑ u ∈ Finset.range n, owes (f u) ty) + owes p ty := by
  have hm : t ∈ Finset.range n := Finset.mem_range.2 ht
  rw [← Finset.add_sum_erase _ _ hm, ← Finset.add_sum_erase (Finset.range n) (fun u => owes (f u) ty) hm]
  have : ∑ x ∈ (Finset.range n).erase t, owes (upd f t p x) ty =
      ∑ x ∈ (Finset.range n).erase t, owes (f x) ty := by
    apply Finset.sum_congr rfl
    intro x hx
    rw [upd_ne _ _ (Finset.ne_of_mem_erase hx)]
  rw [this, upd_self]
  omega

theorem owes_le_sum (n : Nat) (f : Nat → IncPc) (t : Nat) (ht : t < n) (ty : CounterType) :
    owes (f t) ty ≤ ∑ u ∈ Finset.range n, owes (f u) ty :=
  Finset.single_le_sum (f := fun u => owes (f u) ty) (fun _ _ => Nat.zero_le _) (Finset.mem_range.2 ht)

structure CtrInv (n : Nat) (s : CtrState) : Prop where
  holds : ∀ t ty k, (s.pc t = .have ty k ∨ ∃ v, s.pc t = .got ty k v) → s.mutex ty = some t
  seen : ∀ t ty k v, s.pc t = .got ty k v → v = s.c.native ty
  native : ∀ t ty k, (s.pc t = .want ty k ∨ s.pc t = .have ty k ∨ ∃ v, s.pc t = .got ty k v) →
    CounterType.isNative ty ∧ countable k ∧ (ty ≠ .access → k = none)
  log : ∀ k ∈ s.log, countable k
  range : ∀ ty, s.c.native ty < ulongRange
  idle : ∀ t, n ≤ t → s.pc t = .idle
  sum : ∀ ty, CounterType.isNative ty → owed s.log ty < ulongRange →
    (∑ t ∈ Finset.range n, owes (s.pc t) ty) + s.c.native ty = owed s.log ty

theorem ctr_inv {n : Nat} {s : CtrState} (h : Reachable CtrState.init (CtrStep n true) s) :
    CtrInv n s := by
  refine Reachable.invariant (I := CtrInv n) ?_ ?_ h
  · rintro s rfl
    refine ⟨by simp, by simp, by simp, by simp, ?_, by simp, ?_⟩
    · intro ty; cases ty <;> decide
    · intro ty hty _
      simp only [owes_idle, Finset.sum_const_zero, owed, List.length_nil, List.count_nil, ite_self]
      rcases hty with rfl | rfl | rfl | rfl <;> rfl
  · intro s s' I hs
    cases hs with
    | call t k ht hp hk =>
      refine ⟨?_, ?_, ?_, ?_, I.range, ?_, ?_⟩
      · intro u ty k' hu
        dsimp only at hu ⊢
        by_cases hut : u = t
        · subst hut; simp at hu
        · rw [upd_ne _ _ hut] at hu; exact I.holds u ty k' hu
      · intro u ty k' v hu
        dsimp only at hu ⊢
        by_cases hut : u = t
        · subst hut; simp at hu
        · rw [upd_ne _ _ hut] at hu; exact I.seen u ty k' v hu
      · intro u ty k' hu
        dsimp only at hu
        by_cases hut : u = t
        · subst hut; simp at hu; obtain ⟨rfl, rfl⟩ := hu; exact ⟨Or.inl rfl, hk, fun h => absurd rfl h⟩
        · rw [upd_ne _ _ hut] at hu; exact I.native u ty k' hu
      · intro k' hk'
        rcases List.mem_cons.1 hk' with rfl | hk'
        · exact hk
        · exact I.log k' hk'
      · intro u hu
        dsimp only
        rw [upd_ne _ _ (by omega)]; exact I.idle u hu
      · intro ty hty hlt
        have h2 := sum_upd n s.pc t ht (.want .access k) ty
        rw [hp] at h2
        have h3 : owed (k :: s.log) ty = owed s.log ty + owes (.want .access k) ty := by
          simp only [owed, owes_want, List.length_cons, List.count_cons]
          by_cases ha : ty = .access
          · subst ha; simp; ring
          · by_cases hb : k = some ty
            · simp [ha, hb, Ne.symm ha]
            · simp [ha, hb, Ne.symm ha]
        dsimp only at hlt ⊢
        have h1 := I.sum ty hty (by omega)
        rw [owes_idle] at h2
        omega
    | lock t ty k ht hp _ hm =>
      refine ⟨?_, ?_, ?_, I.log, I.range, ?_, ?_⟩
      · intro u ty' k' hu
        dsimp only at hu ⊢
        by_cases hut : u = t
        · subst hut; simp at hu; obtain ⟨rfl, rfl⟩ := hu; simp
        · rw [upd_ne _ _ hut] at hu
          have := I.holds u ty' k' hu
          have hne : ty' ≠ ty := by rintro rfl; rw [hm] at this; cases this
          rw [upd_ne _ _ hne]; exact this
      · intro u ty' k' v hu
        dsimp only at hu ⊢
        by_cases hut : u = t
        · subst hut; simp at hu
        · rw [upd_ne _ _ hut] at hu; exact I.seen u ty' k' v hu
      · intro u ty' k' hu
        dsimp only at hu
        by_cases hut : u = t
        · subst hut; simp at hu; obtain ⟨rfl, rfl⟩ := hu; exact I.native u _ _ (Or.inl hp)
        · rw [upd_ne _ _ hut] at hu; exact I.native u ty' k' hu
      · intro u hu
        dsimp only
        rw [upd_ne _ _ (by omega)]; exact I.idle u hu
      · intro ty' hty hlt
        have h1 := I.sum ty' hty hlt
        have h2 := sum_upd n s.pc t ht (.have ty k) ty'
        rw [hp, owes_want, owes_have] at h2
        dsimp only
        rw [show ∑ u ∈ Finset.range n, owes (upd s.pc t (.have ty k) u) ty' =
          ∑ u ∈ Finset.range n, owes (s.pc u) ty' by omega]
        exact h1
    | noLock t ty k ht hp hf => cases hf
    | read t ty k ht hp =>
      refine ⟨?_, ?_, ?_, I.log, I.range, ?_, ?_⟩
      · intro u ty' k' hu
        dsimp only at hu ⊢
        by_cases hut : u = t
        · subst hut; simp at hu; obtain ⟨rfl, rfl⟩ := hu; exact I.holds u _ _ (Or.inl hp)
        · rw [upd_ne _ _ hut] at hu; exact I.holds u ty' k' hu
      · intro u ty' k' v hu
        dsimp only at hu ⊢
        by_cases hut : u = t
        · subst hut; simp at hu; obtain ⟨rfl, rfl, rfl⟩ := hu; rfl
        · rw [upd_ne _ _ hut] at hu; exact I.seen u ty' k' v hu
      · intro u ty' k' hu
        dsimp only at hu
        by_cases hut : u = t
        · subst hut; simp at hu; obtain ⟨rfl, rfl⟩ := hu; exact I.native u _ _ (Or.inr (Or.inl hp))
        · rw [upd_ne _ _ hut] at hu; exact I.native u ty' k' hu
      · intro u hu
        dsimp only
        rw [upd_ne _ _ (by omega)]; exact I.idle u hu
      · intro ty' hty hlt
        have h1 := I.sum ty' hty hlt
        have h2 := sum_upd n s.pc t ht (.got ty k (s.c.native ty)) ty'
        rw [hp, owes_have, owes_got] at h2
        dsimp only
        rw [show ∑ u ∈ Finset.range n, owes (upd s.pc t (.got ty k (s.c.native ty)) u) ty' =
          ∑ u ∈ Finset.range n, owes (s.pc u) ty' by omega]
        exact h1
    | write t ty k v ht hp =>
      have hn := I.native t ty k (Or.inr (Or.inr ⟨v, hp⟩))
      have hv := I.seen t ty k v hp
      have hm := I.holds t ty k (Or.inr ⟨v, hp⟩)
      refine ⟨?_, ?_, ?_, I.log, ?_, ?_, ?_⟩
      · intro u ty' k' hu
        dsimp only at hu ⊢
        by_cases hut : u = t
        · subst hut; cases k <;> simp [IncPc.after] at hu
        · rw [upd_ne _ _ hut] at hu
          have := I.holds u ty' k' hu
          have hne : ty' ≠ ty := by
            rintro rfl; rw [hm] at this; cases this; exact hut rfl
          simp only [if_true]
          rw [upd_ne _ _ hne]; exact this
      · intro u ty' k' v' hu
        dsimp only at hu ⊢
        by_cases hut : u = t
        · subst hut; cases k <;> simp [IncPc.after] at hu
        · rw [upd_ne _ _ hut] at hu
          have := I.holds u ty' k' (Or.inr ⟨v', hu⟩)
          have hne : ty' ≠ ty := by
            rintro rfl; rw [hm] at this; cases this; exact hut rfl
          rw [native_put hn.1, if_neg hne]
          exact I.seen u ty' k' v' hu
      · intro u ty' k' hu
        dsimp only at hu
        by_cases hut : u = t
        · subst hut
          cases k with
          | none => simp [IncPc.after] at hu
          | some k0 =>
            simp [IncPc.after] at hu; obtain ⟨rfl, rfl⟩ := hu
            refine ⟨?_, Or.inl rfl, fun _ => rfl⟩
            rcases hn.2.1 with h | h | h | h
            · cases h
            all_goals (cases h; simp [CounterType.isNative])
        · rw [upd_ne _ _ hut] at hu; exact I.native u ty' k' hu
      · intro ty'
        dsimp only
        rw [native_put hn.1]
        split
        · exact Nat.mod_lt _ (by decide)
        · exact I.range ty'
      · intro u hu
        dsimp only
        rw [upd_ne _ _ (by omega)]; exact I.idle u hu
      · intro ty' hty hlt
        dsimp only at hlt ⊢
        have h1 := I.sum ty' hty hlt
        have h2 := sum_upd n s.pc t ht (.after k) ty'
        rw [hp, owes_after, owes_got] at h2
        have h3 := owes_le_sum n s.pc t ht ty'
        rw [hp, owes_got] at h3
        rw [native_put hn.1]
        by_cases hy : ty' = ty
        · subst hy
          rw [if_pos rfl] at h2 h3
          rw [if_pos rfl, hv, Nat.mod_eq_of_lt (by omega)]
          omega
        · rw [if_neg hy]
          rw [if_neg (Ne.symm hy)] at h2
          omega

/-- The number of accesses of the log that needed the transfer or load `k` (`none`: a hit). -/
def accessesWith (log : List (Option CounterType)) (k : Option CounterType) : Nat := log.count k

theorem count_split (log : List (Option CounterType)) (h : ∀ k ∈ log, countable k) :
    log.length = log.count none + log.count (some .numa) + log.count (some .mpi) +
      log.count (some .file) ∧ log.count (some .access) = 0 := by
  induction log with
  | nil => simp
  | cons k ks ih =>
    obtain ⟨i1, i2⟩ := ih (fun k hk => h k (by simp [hk]))
    have hk := h k (by simp)
    simp only [List.length_cons, List.count_cons]
    rcases hk with rfl | rfl | rfl | rfl <;> simp <;> omega

theorem ulongSub_of_le {a b : Nat} (h : b ≤ a) (ha : a < ulongRange) : ulongSub a b = a - b := by
  unfold ulongSub
  rw [Nat.mod_eq_of_lt (by omega : b < ulongRange)]
  have : a + (ulongRange - b) = (a - b) + ulongRange := by omega
  rw [this, Nat.add_mod_right, Nat.mod_eq_of_lt (by omega)]

/-- **C71.** In builds with THREADSAFE_COUNTER, for any number of threads and any interleaving: when no
getter is running, all counters have the exact numbers of accesses, transfers, loads, hits and misses
(for less than 2^64 accesses). -/
theorem C71_exact {n : Nat} {s : CtrState} (h : Reachable CtrState.init (CtrStep n true) s)
    (hq : ∀ t, s.pc t = .idle) (hlt : s.log.length < 2 ^ 64) :
    s.c.get .access = s.log.length ∧
    s.c.get .numa = accessesWith s.log (some .numa) ∧
    s.c.get .mpi = accessesWith s.log (some .mpi) ∧
    s.c.get .file = accessesWith s.log (some .file) ∧
    s.c.get .hit = accessesWith s.log none ∧
    s.c.get .nodeHit = accessesWith s.log none + accessesWith s.log (some .numa) ∧
    s.c.get .miss + s.c.get .hit = s.log.length := by
  have I := ctr_inv h
  obtain ⟨hs, ha⟩ := count_split s.log I.log
  have hR : ulongRange = 2 ^ 64 := rfl
  have key : ∀ ty, CounterType.isNative ty → owed s.log ty < ulongRange →
      s.c.native ty = owed s.log ty := by
    intro ty hty hlt
    have h1 := I.sum ty hty hlt
    simpa only [hq, owes_idle, Finset.sum_const_zero, Nat.zero_add] using h1
  have h1 := key .access (by simp [CounterType.isNative]) (by simp only [owed, if_true]; omega)
  have h2 := key .numa (by simp [CounterType.isNative]) (by simp [owed]; omega)
  have h3 := key .mpi (by simp [CounterType.isNative]) (by simp [owed]; omega)
  have h4 := key .file (by simp [CounterType.isNative]) (by simp [owed]; omega)
  simp only [Counters.native, owed, if_true, ha, Nat.add_zero, reduceCtorEq, if_false, Nat.zero_add]
    at h1 h2 h3 h4
  have e1 : ulongSub s.c.access s.c.numa = s.c.access - s.c.numa :=
    ulongSub_of_le (by omega) (by omega)
  have e2 : ulongSub (s.c.access - s.c.numa) s.c.mpi = s.c.access - s.c.numa - s.c.mpi :=
    ulongSub_of_le (by omega) (by omega)
  have e3 : ulongSub (s.c.access - s.c.numa - s.c.mpi) s.c.file =
      s.c.access - s.c.numa - s.c.mpi - s.c.file := ulongSub_of_le (by omega) (by omega)
  have e4 : ulongSub s.c.access s.c.mpi = s.c.access - s.c.mpi := ulongSub_of_le (by omega) (by omega)
  have e5 : ulongSub (s.c.access - s.c.mpi) s.c.file = s.c.access - s.c.mpi - s.c.file :=
    ulongSub_of_le (by omega) (by omega)
  simp only [Counters.get, accessesWith, e1, e2, e3, e4, e5]
  rw [Nat.mod_eq_of_lt (show s.c.numa + s.c.mpi + s.c.file < ulongRange by omega)]
  omega

/-- **C71 (while getters run).** Each native counter is at most one increment per thread behind the
accesses that have begun, and never ahead of them. -/
theorem C71_running {n : Nat} {s : CtrState} (h : Reachable CtrState.init (CtrStep n true) s)
    (hlt : s.log.length < 2 ^ 64) :
    s.c.get .access ≤ s.log.length ∧ s.log.length ≤ s.c.get .access + n ∧
    ∀ ty, ty = .numa ∨ ty = .mpi ∨ ty = .file →
      s.c.get ty ≤ accessesWith s.log (some ty) ∧ accessesWith s.log (some ty) ≤ s.c.get ty + n := by
  have I := ctr_inv h
  obtain ⟨hs, ha⟩ := count_split s.log I.log
  have hR : ulongRange = 2 ^ 64 := rfl
  have one : ∀ t ty, owes (s.pc t) ty ≤ 1 := by
    intro t ty
    have key : ∀ a k, CounterType.isNative a ∧ countable k ∧ (a ≠ .access → k = none) →
        (if a = ty then 1 else 0) + (if k = some ty then 1 else 0) ≤ 1 := by
      rintro a k ⟨_, h2, h3⟩
      by_cases hac : a = .access
      · subst hac
        by_cases hk : k = some ty
        · have : CounterType.access ≠ ty := by
            rintro rfl
            rcases h2 with h | h | h | h <;> rw [h] at hk <;> cases hk
          simp [this, hk]
        · simp [hk]; split <;> omega
      · rw [h3 hac]; simp; split <;> omega
    cases hp : s.pc t with
    | idle => simp [owes_idle]
    | want a k => exact key a k (I.native t a k (Or.inl hp))
    | «have» a k => exact key a k (I.native t a k (Or.inr (Or.inl hp)))
    | got a k v => exact key a k (I.native t a k (Or.inr (Or.inr ⟨v, hp⟩)))
  have bound : ∀ ty, ∑ t ∈ Finset.range n, owes (s.pc t) ty ≤ n := by
    intro ty
    have := Finset.sum_le_card_nsmul (Finset.range n) (fun t => owes (s.pc t) ty) 1
      (fun t _ => one t ty)
    simpa using this
  have h0 := I.sum .access (by simp [CounterType.isNative]) (by simp only [owed, if_true]; omega)
  have b0 := bound .access
  simp only [owed, if_true, ha, Counters.native] at h0
  refine ⟨by simp only [Counters.get]; omega, by simp only [Counters.get]; omega, ?_⟩
  intro ty hty
  have hc : s.log.count (some ty) ≤ s.log.length := List.count_le_length
  have hna : ty ≠ .access := by rcases hty with rfl | rfl | rfl <;> decide
  have h1 := I.sum ty (Or.inr hty) (by simp only [owed, if_neg hna]; omega)
  have b1 := bound ty
  simp only [owed, if_neg hna] at h1
  have hg : s.c.get ty = s.c.native ty := by rcases hty with rfl | rfl | rfl <;> rfl
  rw [hg]
  unfold accessesWith
  omega

/-- The atomic actions that a thread still has to do before its getter returns. -/
def _root_.Asagi.IncPc.left : IncPc → Nat
  | .idle => 0
  | .want _ k => 3 + (if k = none then 0 else 3)
  | .have _ k => 2 + (if k = none then 0 else 3)
  | .got _ k _ => 1 + (if k = none then 0 else 3)

structure CtrOwn (n : Nat) (s : CtrState) : Prop where
  owner : ∀ t ty, s.mutex ty = some t → (∃ k, s.pc t = .have ty k) ∨ ∃ k v, s.pc t = .got ty k v
  inside : ∀ t, s.pc t ≠ .idle → t < n

theorem ctr_own {n : Nat} {s : CtrState} (h : Reachable CtrState.init (CtrStep n true) s) :
    CtrOwn n s := by
  induction h with
  | init h => subst h; exact ⟨fun t ty h => (by cases h), fun t h => absurd rfl h⟩
  | @step s s' hr hs ih =>
    have I := ctr_inv hr
    have ins : ∀ t p, t < n → ∀ u, upd s.pc t p u ≠ .idle → u < n := by
      intro t p ht u hu
      by_cases h : u = t
      · subst h; exact ht
      · rw [upd_ne _ _ h] at hu; exact ih.inside u hu
    have oth : ∀ t p, (∀ ty, s.mutex ty ≠ some t) → ∀ u ty, s.mutex ty = some u →
        (∃ k, upd s.pc t p u = .have ty k) ∨ ∃ k v, upd s.pc t p u = .got ty k v := by
      intro t p hn u ty hm
      have : u ≠ t := by rintro rfl; exact hn ty hm
      rw [upd_ne _ _ this]; exact ih.owner u ty hm
    have out : ∀ t, (∀ ty k, s.pc t ≠ .have ty k) → (∀ ty k v, s.pc t ≠ .got ty k v) →
        ∀ ty, s.mutex ty ≠ some t := by
      intro t h1 h2 ty hm
      rcases ih.owner t ty hm with ⟨k, h⟩ | ⟨k, v, h⟩
      · exact h1 _ _ h
      · exact h2 _ _ _ h
    cases hs with
    | call t k ht hp hk =>
      exact ⟨oth t _ (out t (by simp [hp]) (by simp [hp])), ins t _ ht⟩
    | lock t ty k ht hp hl hm =>
      refine ⟨?_, ins t _ ht⟩
      intro u ty' hu
      dsimp only at hu ⊢
      by_cases h : ty' = ty
      · subst h
        rw [upd_self] at hu
        cases hu
        left; exact ⟨k, upd_self ..⟩
      · rw [upd_ne _ _ h] at hu
        exact oth t _ (out t (by simp [hp]) (by simp [hp])) u ty' hu
    | noLock t ty k ht hp hl => cases hl
    | read t ty k ht hp =>
      refine ⟨?_, ins t _ ht⟩
      intro u ty' hu
      dsimp only at hu ⊢
      by_cases h : u = t
      · subst h
        rcases ih.owner u ty' hu with ⟨k', h'⟩ | ⟨k', v, h'⟩ <;> rw [hp] at h' <;> cases h'
        right; exact ⟨_, _, upd_self ..⟩
      · rw [upd_ne _ _ h]; exact ih.owner u ty' hu
    | write t ty k v ht hp =>
      refine ⟨?_, ins t _ ht⟩
      intro u ty' hu
      dsimp only at hu ⊢
      rw [if_pos rfl] at hu
      by_cases h : ty' = ty
      · subst h; rw [upd_self] at hu; cases hu
      · rw [upd_ne _ _ h] at hu
        have : u ≠ t := by
          rintro rfl
          rcases ih.owner u ty' hu with ⟨k', h'⟩ | ⟨k', v, h'⟩ <;> rw [hp] at h' <;> cases h'
          exact h rfl
        rw [upd_ne _ _ this]; exact ih.owner u ty' hu

theorem left_upd (n : Nat) (f : Nat → IncPc) (t : Nat) (ht : t < n) (p : IncPc)
    (h : p.left < (f t).left) :
    ∑ u ∈ Finset.range n, (upd f t p u).left < ∑ u ∈ Finset.range n, (f u).left := by
  apply Finset.sum_lt_sum
  · intro u _
    by_cases hu : u = t
    · subst hu; rw [upd_self]; omega
    · rw [upd_ne _ _ hu]
  · exact ⟨t, Finset.mem_range.2 ht, by rw [upd_self]; exact h⟩

/-- **C71 (the getters return).** Counting never stops a getter for ever: while a getter is running, some
running getter can do its next action (without a new call), and every such action reduces the number of
actions left. -/
theorem C71_returns {n : Nat} {s : CtrState} (h : Reachable CtrState.init (CtrStep n true) s) :
    ((∃ t, s.pc t ≠ .idle) → ∃ s', CtrStep n true s s' ∧ s'.log = s.log) ∧
    ∀ s', CtrStep n true s s' → s'.log = s.log →
      ∑ t ∈ Finset.range n, (s'.pc t).left < ∑ t ∈ Finset.range n, (s.pc t).left := by
  have O := ctr_own h
  have I := ctr_inv h
  have go : ∀ t ty k, t < n → s.pc t = .have ty k → ∃ s', CtrStep n true s s' ∧ s'.log = s.log :=
    fun t ty k ht hp => ⟨_, .read t ty k ht hp, rfl⟩
  have go' : ∀ t ty k v, t < n → s.pc t = .got ty k v → ∃ s', CtrStep n true s s' ∧ s'.log = s.log :=
    fun t ty k v ht hp => ⟨_, .write t ty k v ht hp, rfl⟩
  constructor
  · rintro ⟨t, ht⟩
    have htn := O.inside t ht
    cases hp : s.pc t with
    | idle => exact absurd hp ht
    | «have» ty k => exact go t ty k htn hp
    | got ty k v => exact go' t ty k v htn hp
    | want ty k =>
      cases hm : s.mutex ty with
      | none => exact ⟨_, .lock t ty k htn hp rfl hm, rfl⟩
      | some u =>
        rcases O.owner u ty hm with ⟨k', h'⟩ | ⟨k', v, h'⟩
        · exact go u ty k' (O.inside u (by simp [h'])) h'
        · exact go' u ty k' v (O.inside u (by simp [h'])) h'
  · intro s' hs hlog
    cases hs with
    | call t k ht hp hk => simp at hlog
    | lock t ty k ht hp hl hm => exact left_upd _ _ t ht _ (by rw [hp]; simp [IncPc.left])
    | noLock t ty k ht hp hl => cases hl
    | read t ty k ht hp => exact left_upd _ _ t ht _ (by rw [hp]; simp [IncPc.left])
    | write t ty k v ht hp =>
      refine left_upd _ _ t ht _ ?_
      rw [hp]; cases k <;> simp [IncPc.after, IncPc.left]

/-- **C71, violated without THREADSAFE_COUNTER** (the default): two getters of two threads have returned,
`accesses` is 1. -/
theorem C71_lost_update_violated : ∃ s, Reachable CtrState.init (CtrStep 2 false) s ∧
    (∀ t, s.pc t = .idle) ∧ s.log.length = 2 ∧ s.c.get .access = 1 := by
  have s0 : Reachable CtrState.init (CtrStep 2 false) ⟨{}, fun _ => none, fun _ => .idle, []⟩ := .init rfl
  have s1 := s0.step (.call 0 none (by decide) rfl (Or.inl rfl))
  have s2 := s1.step (.call 1 none (by decide) rfl (Or.inl rfl))
  have s3 := s2.step (.noLock 0 .access none (by decide) rfl rfl)
  have s4 := s3.step (.noLock 1 .access none (by decide) rfl rfl)
  have s5 := s4.step (.read 0 .access none (by decide) rfl)
  have s6 := s5.step (.read 1 .access none (by decide) rfl)
  have s7 := s6.step (.write 0 .access none 0 (by decide) rfl)
  have s8 := s7.step (.write 1 .access none 0 (by decide) rfl)
  refine ⟨_, s8, ?_, rfl, rfl⟩
  intro t
  by_cases h0 : t = 0
  · subst h0; rfl
  · by_cases h1 : t = 1
    · subst h1; rfl
    · simp [upd, h0, h1]

/-- **C71, violated for `local_hits` while getters run**, also with THREADSAFE_COUNTER: `get` reads the
number of accesses before, the number of loads after the access of another thread, and returns
2^64 - 1. -/
theorem C71_hits_wrap_violated : ∃ s s', Reachable CtrState.init (CtrStep 1 true) s ∧
    Steps (CtrStep 1 true) s s' ∧ getHitAt s.c s.c s.c s'.c = 2 ^ 64 - 1 := by
  have s0 : Steps (CtrStep 1 true) ⟨{}, fun _ => none, fun _ => .idle, []⟩
    ⟨{}, fun _ => none, fun _ => .idle, []⟩ := .refl
  have s1 := s0.tail (.call 0 (some .file) (by decide) rfl (by simp [countable]))
  have s2 := s1.tail (.lock 0 .access (some .file) (by decide) rfl rfl rfl)
  have s3 := s2.tail (.read 0 .access (some .file) (by decide) rfl)
  have s4 := s3.tail (.write 0 .access (some .file) 0 (by decide) rfl)
  have s5 := s4.tail (.lock 0 .file none (by decide) rfl rfl rfl)
  have s6 := s5.tail (.read 0 .file none (by decide) rfl)
  have s7 := s6.tail (.write 0 .file none 0 (by decide) rfl)
  exact ⟨_, _, .init rfl, s7, by decide +kernel⟩

/-- The hypotheses of `C71_exact` and of `C71_running`: two threads, interleaved, one loads a block from
the file; afterwards both are idle. -/
example : ∃ s, Reachable CtrState.init (CtrStep 2 true) s ∧ (∀ t, s.pc t = .idle) ∧
    s.log.length = 2 ∧ s.c.get .access = 2 ∧ s.c.get .file = 1 ∧ s.c.get .hit = 1 := by
  have s0 : Reachable CtrState.init (CtrStep 2 true) ⟨{}, fun _ => none, fun _ => .idle, []⟩ := .init rfl
  have s1 := s0.step (.call 0 (some .file) (by decide) rfl (by simp [countable]))
  have s2 := s1.step (.call 1 none (by decide) rfl (Or.inl rfl))
  have s3 := s2.step (.lock 0 .access (some .file) (by decide) rfl rfl rfl)
  have s4 := s3.step (.read 0 .access (some .file) (by decide) rfl)
  have s5 := s4.step (.write 0 .access (some .file) 0 (by decide) rfl)
  have s6 := s5.step (.lock 1 .access none (by decide) rfl rfl rfl)
  have s7 := s6.step (.lock 0 .file none (by decide) rfl rfl rfl)
  have s8 := s7.step (.read 1 .access none (by decide) rfl)
  have s9 := s8.step (.read 0 .file none (by decide) rfl)
  have s10 := s9.step (.write 0 .file none 0 (by decide) rfl)
  have s11 := s10.step (.write 1 .access none 1 (by decide) rfl)
  refine ⟨_, s11, ?_, rfl, rfl, rfl, rfl⟩
  intro t
  by_cases h0 : t = 0
  · subst h0; rfl
  · by_cases h1 : t = 1
    · subst h1; rfl
    · simp [upd, h0, h1]

end Asagi.Props
