import Verif.Proofs.Sync
/-
Properties of the thread barrier and of one-time execution: C21-C24.
-/
namespace Asagi.Props
open Asagi

/-- The thread has entered the barrier (it has been counted) and not left it. -/
def Inside (pc : SyncPc) : Prop := pc = .waitCond ∨ pc = .sigCond ∨ pc = .waitLast ∨ pc = .sigLast

variable {α : Type}

/-- **C21.** If `n` threads use the barrier any number of times in any interleaving without spurious
wake-ups: when a thread has left its k-th use, every thread has entered its k-th use (and is still
in it or has left it); and two threads inside are in the same use. -/
theorem C21_barrier (P : SyncParams α) (hn : 0 < P.n)
    (hroot : ∀ k r, P.root k = some r → r < P.n) (s : SyncState α) (h : SyncReach P false s) :
    (∀ t u k, t < P.n → u < P.n → k < s.rnd t → k < s.rnd u ∨ (s.rnd u = k ∧ Inside (s.pc u))) ∧
    (∀ t u, t < P.n → u < P.n → Inside (s.pc t) → Inside (s.pc u) → s.rnd t = s.rnd u) := by
  obtain ⟨k0, hI⟩ := SyncInv.reachable hn hroot h
  cases hf : s.finishing with
  | false =>
    obtain ⟨c1, _⟩ := hI.collect hf
    refine ⟨?_, ?_⟩
    · intro t u k ht hu hk
      rw [(c1 t ht).1] at hk
      rw [(c1 u hu).1]
      exact .inl hk
    · intro t u ht hu _ _; rw [(c1 t ht).1, (c1 u hu).1]
  | true =>
    obtain ⟨f1, _⟩ := hI.finish hf
    refine ⟨?_, ?_⟩
    · intro t u k ht hu hk
      have hk' : k ≤ k0 := by rcases f1 t ht with ⟨h1, _⟩ | ⟨h1, _⟩ <;> omega
      rcases f1 u hu with ⟨h1, h2⟩ | ⟨h1, _⟩
      · by_cases hkk : k = k0
        · right
          refine ⟨by omega, ?_⟩
          rcases h2 with h2 | ⟨_, h2 | h2⟩ <;> simp [Inside, h2]
        · left; omega
      · left; omega
    · have key : ∀ t, t < P.n → Inside (s.pc t) → s.rnd t = k0 := by
        intro t ht hin
        rcases f1 t ht with ⟨h1, _⟩ | ⟨_, h2⟩
        · exact h1
        · rcases h2 with h2 | h2 <;> simp [Inside, h2] at hin
      intro t u ht hu h1 h2
      rw [key t ht h1, key u hu h2]

/-- **C21**, progress: for every thread `t` (in particular one waiting in the barrier functions): some
thread in the functions can continue, or some thread outside has not yet called its function of the
round `t` is in. -/
theorem C21_progress (P : SyncParams α) (hn : 0 < P.n)
    (hroot : ∀ k r, P.root k = some r → r < P.n) (s : SyncState α) (h : SyncReach P false s)
    (t : Nat) (ht : t < P.n) :
    (∃ u, u < P.n ∧ s.pc u ≠ .idle ∧ ∃ s', SyncStep P false s s' ∧ s'.pc u ≠ s.pc u) ∨
    (∃ u, u < P.n ∧ s.pc u = .idle ∧ s.rnd u = s.rnd t) := by
  obtain ⟨k0, hI⟩ := SyncInv.reachable hn hroot h
  have hleave : ∀ u, (SyncState.leave P u s).pc u = .idle := fun u => upd_self _ _ _
  have hafter' : ∀ (s2 : SyncState α) u, (SyncState.afterCond P u s2).pc u = .waitLast ∨
      (SyncState.afterCond P u s2).pc u = .idle := by
    intro s2 u
    unfold SyncState.afterCond
    split
    · exact .inl (upd_self _ _ _)
    · exact .inr (upd_self _ _ _)
  have hafter : ∀ u, s.pc u = .sigCond → (SyncState.afterCond P u s).pc u ≠ s.pc u := by
    intro u hpc
    rw [hpc]
    rcases hafter' s u with hh | hh <;> rw [hh] <;> simp
  cases hf : s.finishing with
  | false =>
    obtain ⟨c1, c2, c3, _⟩ := hI.collect hf
    have hex : ∃ u, u < P.n ∧ s.pc u ≠ .waitCond := by
      by_contra hcon
      have : cnt (fun t => s.pc t = .waitCond) P.n = P.n := cnt_full (fun u hu => by
        by_contra hp; exact hcon ⟨u, hu, hp⟩)
      omega
    obtain ⟨u, hu, hpu⟩ := hex
    rcases (c1 u hu).2 with h2 | h2 | h2
    · right; exact ⟨u, hu, h2, by rw [(c1 u hu).1, (c1 t ht).1]⟩
    · left
      refine ⟨u, hu, by rw [h2]; simp, _, .resume s u hu h2, ?_⟩
      rw [h2]
      unfold SyncState.arrive
      simp only
      split
      · rcases hafter' _ u with hh | hh <;> rw [hh] <;> simp
      · change upd _ u SyncPc.waitCond u ≠ _; rw [upd_self]; simp
    · exact absurd h2 hpu
  | true =>
    obtain ⟨f1, f2, f3, f4, f5, f6, f7, f8⟩ := hI.finish hf
    left
    have hsig : ∀ u, u < P.n → s.pc u = .sigCond →
        ∃ u, u < P.n ∧ s.pc u ≠ .idle ∧ ∃ s', SyncStep P false s s' ∧ s'.pc u ≠ s.pc u :=
      fun u hu h2 => ⟨u, hu, by rw [h2]; simp, _, .pass s u hu h2, hafter u h2⟩
    obtain ⟨u, hu, hru⟩ := cnt_pos (p := fun t => s.rnd t = k0) (n := P.n) (by omega)
    rcases f1 u hu with ⟨_, h2⟩ | ⟨h1, _⟩
    · rcases h2 with h2 | ⟨hr, h2 | h2⟩
      · exact hsig u hu h2
      · obtain ⟨v, hv, hvu, hrv⟩ := f7 u hu h2
        rcases f1 v hv with ⟨_, h3⟩ | ⟨h3, _⟩
        · rcases h3 with h3 | ⟨hr', _⟩
          · exact hsig v hv h3
          · rw [hr] at hr'; exact absurd (Option.some.inj hr').symm hvu
        · omega
      · exact ⟨u, hu, by rw [h2]; simp, _, .rootPass s u hu h2, by rw [hleave, h2]; simp⟩
    · omega

/-- Position of a thread: calls completed and place in the current one. -/
def syncPlace (s : SyncState α) (t : Nat) : Nat :=
  8 * s.rnd t + (match s.pc t with
    | .idle => 0 | .waitFin => 1 | .sigFin => 2 | .waitCond => 3 | .sigCond => 4 | .waitLast => 5
    | .sigLast => 6)

/-- **C21**, termination: every step moves a thread forward and none back, so each call consists of a
bounded number of steps. -/
theorem C21_advance (P : SyncParams α) (s s' : SyncState α) (sp : Bool) (h : SyncStep P sp s s') :
    (∀ t, syncPlace s t ≤ syncPlace s' t) ∧ ∃ t, syncPlace s t < syncPlace s' t := by
  have hwake : ∀ (pc : Nat → SyncPc) (a b : SyncPc) (u : Nat), wake pc a b u = pc u ∨
      (pc u = a ∧ wake pc a b u = b) := by
    intro pc a b u; unfold wake; split
    · exact .inr ⟨by assumption, rfl⟩
    · exact .inl rfl
  -- a step that changes position `t` and possibly wakes others
  have hleave : ∀ (s : SyncState α) t, (∀ u, u ≠ t → syncPlace s u ≤ syncPlace (s.leave P t) u) ∧
      syncPlace s t < syncPlace (s.leave P t) t := by
    intro s t
    constructor
    · intro u hne
      have hr : (s.leave P t).rnd u = s.rnd u := upd_ne _ _ hne
      have hp : (s.leave P t).pc u = s.pc u ∨ (s.pc u = .waitLast ∧ (s.leave P t).pc u = .sigLast) ∨
          (s.pc u = .waitFin ∧ (s.leave P t).pc u = .sigFin) := by
        have e : ∀ f : Nat → SyncPc, upd f t .idle u = f u := fun f => upd_ne _ _ hne
        have gen : ∀ (a b : Prop) [Decidable a] [Decidable b] (x : SyncPc),
            x = (if a then wake (if b then wake s.pc .waitLast .sigLast else s.pc) .waitFin .sigFin
              else (if b then wake s.pc .waitLast .sigLast else s.pc)) u →
            x = s.pc u ∨ (s.pc u = .waitLast ∧ x = .sigLast) ∨ (s.pc u = .waitFin ∧ x = .sigFin) := by
          intro a b _ _ x hx
          have h1 : ∀ y, y = (if b then wake s.pc .waitLast .sigLast else s.pc) u →
              y = s.pc u ∨ (s.pc u = .waitLast ∧ y = .sigLast) := by
            intro y hy
            by_cases hb : b
            · rw [if_pos hb] at hy
              rcases hwake s.pc .waitLast .sigLast u with h3 | ⟨h3, h4⟩
              · exact .inl (hy.trans h3)
              · exact .inr ⟨h3, hy.trans h4⟩
            · rw [if_neg hb] at hy; exact .inl hy
          by_cases ha : a
          · rw [if_pos ha] at hx
            rcases hwake (if b then wake s.pc .waitLast .sigLast else s.pc) .waitFin .sigFin u with
              h3 | ⟨h3, h4⟩
            · rcases h1 x (hx.trans h3) with h5 | h5
              · exact .inl h5
              · exact .inr (.inl h5)
            · rcases h1 .waitFin h3.symm with h5 | ⟨_, h5⟩
              · exact .inr (.inr ⟨h5.symm, hx.trans h4⟩)
              · cases h5
          · rw [if_neg ha] at hx
            rcases h1 x hx with h5 | h5
            · exact .inl h5
            · exact .inr (.inl h5)
        exact gen (s.synced - 1 = 0) (s.synced - 1 = (if P.isRoot s t then s.last - 1 else s.last) ∧
          ¬ P.isRoot s t) _ (e _)
      unfold syncPlace
      rw [hr]
      rcases hp with hp | ⟨h1, h2⟩ | ⟨h1, h2⟩
      · rw [hp]; exact Nat.le_refl _
      · rw [h1, h2]; simp
      · rw [h1, h2]; simp
    · have hr : (s.leave P t).rnd t = s.rnd t + 1 := upd_self _ _ _
      have hp : (s.leave P t).pc t = .idle := upd_self _ _ _
      unfold syncPlace
      rw [hr, hp]
      cases s.pc t <;> simp <;> omega
  have hset : ∀ (s : SyncState α) t c, (∀ u, u ≠ t → syncPlace s u =
      syncPlace ({ s with pc := upd s.pc t c } : SyncState α) u) := by
    intro s t c u hne
    unfold syncPlace
    have : ({ s with pc := upd s.pc t c } : SyncState α).pc u = s.pc u := upd_ne _ _ hne
    rw [this]
  have hafter : ∀ (s : SyncState α) t, syncPlace s t ≤ 8 * s.rnd t + 4 →
      (∀ u, u ≠ t → syncPlace s u ≤ syncPlace (s.afterCond P t) u) ∧
      syncPlace s t < syncPlace (s.afterCond P t) t := by
    intro s t hle
    unfold SyncState.afterCond
    split
    · refine ⟨fun u hne => Nat.le_of_eq (hset s t .waitLast u hne), ?_⟩
      refine Nat.lt_of_le_of_lt hle ?_
      unfold syncPlace
      have : ({ s with pc := upd s.pc t .waitLast } : SyncState α).pc t = .waitLast := upd_self _ _ _
      rw [this]; simp
    · exact hleave s t
  have harrive : ∀ (s : SyncState α) t, syncPlace s t ≤ 8 * s.rnd t + 2 →
      (∀ u, u ≠ t → syncPlace s u ≤ syncPlace (s.arrive P t) u) ∧
      syncPlace s t < syncPlace (s.arrive P t) t := by
    intro s t hle
    unfold SyncState.arrive
    simp only
    split
    · have hw : ∀ (s2 : SyncState α), s2.rnd = s.rnd → s2.pc = wake s.pc .waitCond .sigCond →
          (∀ u, syncPlace s u ≤ syncPlace s2 u) ∧ syncPlace s2 t = syncPlace s t := by
        intro s2 h1 h2
        constructor
        · intro u
          unfold syncPlace
          rw [h1, h2]
          rcases hwake s.pc .waitCond .sigCond u with h3 | ⟨h3, h4⟩
          · rw [h3]; exact Nat.le_refl _
          · rw [h3, h4]; simp
        · unfold syncPlace at hle ⊢
          rw [h1, h2]
          rcases hwake s.pc .waitCond .sigCond t with h3 | ⟨h3, h4⟩
          · rw [h3]
          · rw [h3] at hle; simp at hle
      obtain ⟨w1, w2⟩ := hw { s with
        data := if P.isRoot s t then some (t, s.rnd t) else s.data
        synced := s.synced + 1
        last := if P.isRoot s t then s.last + 1 else s.last
        finishing := true, pc := wake s.pc .waitCond .sigCond } rfl rfl
      obtain ⟨a1, a2⟩ := hafter _ t (by rw [w2]; exact Nat.le_trans hle (by simp))
      exact ⟨fun u hne => Nat.le_trans (w1 u) (a1 u hne), by rw [w2] at a2; exact a2⟩
    · refine ⟨fun u hne => Nat.le_of_eq (hset s t .waitCond u hne), ?_⟩
      refine Nat.lt_of_le_of_lt hle ?_
      unfold syncPlace
      have : upd s.pc t .waitCond t = .waitCond := upd_self _ _ _
      simp only [this]; omega
  have fin : ∀ {s' : SyncState α} (t : Nat), (∀ u, u ≠ t → syncPlace s u ≤ syncPlace s' u) ∧
      syncPlace s t < syncPlace s' t →
      (∀ t, syncPlace s t ≤ syncPlace s' t) ∧ ∃ t, syncPlace s t < syncPlace s' t := by
    intro s' t hh
    refine ⟨fun u => ?_, t, hh.2⟩
    by_cases hne : u = t
    · subst hne; exact Nat.le_of_lt hh.2
    · exact hh.1 u hne
  have hput : ∀ t a c, s.pc t = a → syncPlace s t < 8 * s.rnd t + (match c with
      | SyncPc.idle => 0 | .waitFin => 1 | .sigFin => 2 | .waitCond => 3 | .sigCond => 4 | .waitLast => 5
      | .sigLast => 6) → (∀ u, u ≠ t → syncPlace s u ≤
        syncPlace ({ s with pc := upd s.pc t c } : SyncState α) u) ∧
        syncPlace s t < syncPlace ({ s with pc := upd s.pc t c } : SyncState α) t := by
    intro t a c _ hlt
    refine ⟨fun u hne => Nat.le_of_eq (hset s t c u hne), Nat.lt_of_lt_of_le hlt ?_⟩
    unfold syncPlace
    have : ({ s with pc := upd s.pc t c } : SyncState α).pc t = c := upd_self _ _ _
    rw [this]; exact Nat.le_refl _
  cases h with
  | waitFinish t ht hpc hf => exact fin t (hput t _ _ hpc (by unfold syncPlace; rw [hpc]; simp))
  | enter t ht hpc hf => exact fin t (harrive s t (by unfold syncPlace; rw [hpc]; simp))
  | resume t ht hpc => exact fin t (harrive s t (by unfold syncPlace; rw [hpc]; simp))
  | pass t ht hpc => exact fin t (hafter s t (by unfold syncPlace; rw [hpc]; simp))
  | rootPass t ht hpc => exact fin t (hleave s t)
  | spuriousFin t _ ht hpc => exact fin t (hput t _ _ hpc (by unfold syncPlace; rw [hpc]; simp))
  | spuriousCond t _ ht hpc => exact fin t (hput t _ _ hpc (by unfold syncPlace; rw [hpc]; simp))
  | spuriousLast t _ ht hpc => exact fin t (hput t _ _ hpc (by unfold syncPlace; rw [hpc]; simp))

/-- **C22.** A thread that has left its k-th call, a broadcast with root `r`, has the value the root
passed to its k-th call; and when the root has left, all threads have left (so the root's variable is
alive whenever it is copied). -/
theorem C22_broadcast (P : SyncParams α) (hn : 0 < P.n)
    (hroot : ∀ k r, P.root k = some r → r < P.n) (s : SyncState α) (h : SyncReach P false s)
    (k r : Nat) (hr : P.root k = some r) :
    (∀ t, t < P.n → k < s.rnd t → s.got t k = some (some (P.val r k))) ∧
    (k < s.rnd r → ∀ t, t < P.n → k < s.rnd t) := by
  obtain ⟨k0, hI⟩ := SyncInv.reachable hn hroot h
  refine ⟨fun t ht hk => hI.got t k r ht hk hr, ?_⟩
  intro hk t ht
  cases hf : s.finishing with
  | false =>
    obtain ⟨c1, _⟩ := hI.collect hf
    rw [(c1 r (hroot k r hr)).1] at hk
    rw [(c1 t ht).1]; exact hk
  | true =>
    obtain ⟨f1, f2, f3, f4, f5, f6, f7, f8⟩ := hI.finish hf
    have : k < k0 := by
      by_contra hcon
      have hk0 : k = k0 := by
        rcases f1 r (hroot k r hr) with ⟨h1, _⟩ | ⟨h1, _⟩ <;> omega
      subst hk0
      have := f6 r (hroot _ r hr) hr
      omega
    rcases f1 t ht with ⟨h1, _⟩ | ⟨h1, _⟩ <;> omega

/-- Two threads, every call is a broadcast with root 0, thread `t` passes `10 * t + 7 + k`. -/
def twoThreads : SyncParams Nat := ⟨2, fun _ => some 0, fun t k => 10 * t + 7 + k⟩

/-- Non-trivial case: both threads enter, thread 1 leaves with the value of thread 0, which waits for
it. -/
example : SyncReach twoThreads false
    (((SyncState.start.arrive twoThreads 0).arrive twoThreads 1).afterCond twoThreads 0) ∧
    (((SyncState.start.arrive twoThreads 0).arrive twoThreads 1).afterCond twoThreads 0).got 1 0 =
      some (some 7) := by
  refine ⟨?_, by decide⟩
  refine .step (.step (.step (.init rfl) (.enter _ 0 (by decide) (by decide) (by decide)))
    (.enter _ 1 (by decide) (by decide) (by decide))) (.pass _ 0 (by decide) (by decide))

/-- **C23**, negation: with a spurious wake-up thread 1 leaves the barrier although thread 0 has not
entered it, and dereferences a null pointer. -/
theorem C23_spurious_violated :
    ¬ ∀ (P : SyncParams Nat) (s : SyncState Nat), 0 < P.n → (∀ k r, P.root k = some r → r < P.n) →
      SyncReach P true s → ∀ t u k, t < P.n → u < P.n → k < s.rnd t →
        k < s.rnd u ∨ (s.rnd u = k ∧ Inside (s.pc u)) := by
  intro h
  let s1 := SyncState.start.arrive twoThreads 1
  let s2 : SyncState Nat := { s1 with pc := upd s1.pc 1 .sigCond }
  have hr : SyncReach twoThreads true (s2.afterCond twoThreads 1) := by
    refine .step (.step (.step (.init rfl) (.enter _ 1 (by decide) (by decide) (by decide)))
      (.spuriousCond s1 1 rfl (by decide) (by decide))) (.pass s2 1 (by decide) (by decide))
  have hroot : ∀ k r, twoThreads.root k = some r → r < twoThreads.n := by
    intro k r hh
    have : r = 0 := (Option.some.inj hh).symm
    subst this; decide
  rcases h twoThreads _ (by decide) hroot hr 1 0 0 (by decide) (by decide) (by decide) with h1 | ⟨_, h1⟩
  · revert h1; decide
  · have : (s2.afterCond twoThreads 1).pc 0 = .idle := by decide
    rw [this] at h1
    simp [Inside] at h1

/-- **C23**, negation for the broadcast: the thread reads through the null pointer. -/
theorem C23_null_violated : ∃ s, SyncReach twoThreads true s ∧ s.got 1 0 = some none := by
  let s1 := SyncState.start.arrive twoThreads 1
  let s2 : SyncState Nat := { s1 with pc := upd s1.pc 1 .sigCond }
  refine ⟨s2.afterCond twoThreads 1, ?_, by decide⟩
  exact .step (.step (.step (.init rfl) (.enter _ 1 (by decide) (by decide) (by decide)))
      (.spuriousCond s1 1 rfl (by decide) (by decide))) (.pass s2 1 (by decide) (by decide))

/-- **C23**, partial: executions without spurious wake-ups, see `C21_barrier` and `C22_broadcast`.
Missing: spurious wake-ups, for which the property is false. -/
theorem C23_no_spurious_partial (P : SyncParams α) (hn : 0 < P.n)
    (hroot : ∀ k r, P.root k = some r → r < P.n) (s : SyncState α) (h : SyncReach P false s)
    (t u k : Nat) (ht : t < P.n) (hu : u < P.n) (hk : k < s.rnd t) :
    k < s.rnd u ∨ (s.rnd u = k ∧ Inside (s.pc u)) :=
  (C21_barrier P hn hroot s h).1 t u k ht hu hk

/-! ### C24 -/

/-- Invariant of `Once::saveExec`. -/
structure OnceInv (s : OnceState) : Prop where
  owner : ∀ t, (s.pc t = .check ∨ s.pc t = .exec ∨ s.pc t = .store) → s.mutex = some t
  before : s.state = false → ∀ t, s.pc t ≠ .done
  after : s.state = true → s.started = 1 ∧ s.completed = 1 ∧
    ∀ t, s.pc t ≠ .exec ∧ s.pc t ≠ .store
  unstarted : s.state = false → (∀ t, s.pc t ≠ .exec ∧ s.pc t ≠ .store) →
    s.started = 0 ∧ s.completed = 0
  running : ∀ t, s.pc t = .exec → s.started = 1 ∧ s.completed = 0
  ran : ∀ t, s.pc t = .store → s.started = 1 ∧ s.completed = 1
  state_false : ∀ t, (s.pc t = .exec ∨ s.pc t = .store) → s.state = false

theorem OnceInv.step {s s' : OnceState} (h : OnceInv s) (hs : OnceStep s s') : OnceInv s' := by
  have other : ∀ {t u : Nat} {c : OncePc}, u ≠ t → upd s.pc t c u = s.pc u := fun hne => upd_ne _ _ hne
  cases hs with
  | fast t hpc hst =>
    obtain ⟨a1, a2, a3⟩ := h.after hst
    constructor
    · intro u hu
      by_cases hne : u = t
      · subst hne; simp at hu
      · simp only [other hne] at hu; exact h.owner u hu
    · intro hf; simp only [hst] at hf; cases hf
    · intro _; refine ⟨a1, a2, fun u => ?_⟩
      by_cases hne : u = t
      · subst hne; simp
      · simp only [other hne]; exact a3 u
    · intro hf; simp only [hst] at hf; cases hf
    · intro u hu
      by_cases hne : u = t
      · subst hne; simp at hu
      · simp only [other hne] at hu; exact h.running u hu
    · intro u hu
      by_cases hne : u = t
      · subst hne; simp at hu
      · simp only [other hne] at hu; exact h.ran u hu
    · intro u hu
      by_cases hne : u = t
      · subst hne; simp at hu
      · simp only [other hne] at hu; exact h.state_false u hu
  | slow t hpc hst =>
    constructor
    · intro u hu
      by_cases hne : u = t
      · subst hne; simp at hu
      · simp only [other hne] at hu; exact h.owner u hu
    · intro _ u
      by_cases hne : u = t
      · subst hne; simp
      · simp only [other hne]; exact h.before hst u
    · intro hf; simp only [hst] at hf; cases hf
    · intro _ hall
      refine h.unstarted hst (fun u => ?_)
      by_cases hne : u = t
      · subst hne; rw [hpc]; simp
      · have := hall u; simp only [other hne] at this; exact this
    · intro u hu
      by_cases hne : u = t
      · subst hne; simp at hu
      · simp only [other hne] at hu; exact h.running u hu
    · intro u hu
      by_cases hne : u = t
      · subst hne; simp at hu
      · simp only [other hne] at hu; exact h.ran u hu
    · intro u hu
      by_cases hne : u = t
      · subst hne; simp at hu
      · simp only [other hne] at hu; exact h.state_false u hu
  | lock t hpc hm =>
    have hno : ∀ u, s.pc u ≠ .check ∧ s.pc u ≠ .exec ∧ s.pc u ≠ .store := by
      intro u
      refine ⟨fun hh => ?_, fun hh => ?_, fun hh => ?_⟩
      · have := h.owner u (.inl hh); rw [hm] at this; cases this
      · have := h.owner u (.inr (.inl hh)); rw [hm] at this; cases this
      · have := h.owner u (.inr (.inr hh)); rw [hm] at this; cases this
    constructor
    · intro u hu
      by_cases hne : u = t
      · subst hne; rfl
      · simp only [other hne] at hu
        rcases hu with hu | hu | hu
        · exact absurd hu (hno u).1
        · exact absurd hu (hno u).2.1
        · exact absurd hu (hno u).2.2
    · intro hf u
      by_cases hne : u = t
      · subst hne; simp
      · simp only [other hne]; exact h.before hf u
    · intro hst
      obtain ⟨a1, a2, a3⟩ := h.after hst
      refine ⟨a1, a2, fun u => ?_⟩
      by_cases hne : u = t
      · subst hne; simp
      · simp only [other hne]; exact a3 u
    · intro hf _
      exact h.unstarted hf (fun u => (hno u).2)
    · intro u hu
      by_cases hne : u = t
      · subst hne; simp at hu
      · simp only [other hne] at hu; exact h.running u hu
    · intro u hu
      by_cases hne : u = t
      · subst hne; simp at hu
      · simp only [other hne] at hu; exact h.ran u hu
    · intro u hu
      by_cases hne : u = t
      · subst hne; simp at hu
      · simp only [other hne] at hu; exact h.state_false u hu
  | again t hpc hst =>
    have hm := h.owner t (.inl hpc)
    obtain ⟨a1, a2, a3⟩ := h.after hst
    have hno : ∀ u, u ≠ t → ¬ (s.pc u = .check ∨ s.pc u = .exec ∨ s.pc u = .store) := by
      intro u hne hh
      have := h.owner u hh; rw [hm] at this; exact hne (Option.some.inj this).symm
    constructor
    · intro u hu
      by_cases hne : u = t
      · subst hne; simp at hu
      · simp only [other hne] at hu; exact absurd hu (hno u hne)
    · intro hf; simp only [hst] at hf; cases hf
    · intro _; refine ⟨a1, a2, fun u => ?_⟩
      by_cases hne : u = t
      · subst hne; simp
      · simp only [other hne]; exact a3 u
    · intro hf; simp only [hst] at hf; cases hf
    · intro u hu
      by_cases hne : u = t
      · subst hne; simp at hu
      · simp only [other hne] at hu; exact h.running u hu
    · intro u hu
      by_cases hne : u = t
      · subst hne; simp at hu
      · simp only [other hne] at hu; exact h.ran u hu
    · intro u hu
      by_cases hne : u = t
      · subst hne; simp at hu
      · simp only [other hne] at hu; exact h.state_false u hu
  | exec t hpc hst =>
    have hm := h.owner t (.inl hpc)
    have hno : ∀ u, u ≠ t → ¬ (s.pc u = .check ∨ s.pc u = .exec ∨ s.pc u = .store) := by
      intro u hne hh
      have := h.owner u hh; rw [hm] at this; exact hne (Option.some.inj this).symm
    have h0 := h.unstarted hst (fun u => by
      by_cases hne : u = t
      · subst hne; rw [hpc]; simp
      · exact ⟨fun hh => hno u hne (.inr (.inl hh)), fun hh => hno u hne (.inr (.inr hh))⟩)
    constructor
    · intro u hu
      by_cases hne : u = t
      · subst hne; exact hm
      · simp only [other hne] at hu; exact absurd hu (hno u hne)
    · intro _ u
      by_cases hne : u = t
      · subst hne; simp
      · simp only [other hne]; exact h.before hst u
    · intro hf; simp only [hst] at hf; cases hf
    · intro _ hall; have := (hall t).1; simp at this
    · intro u hu
      exact ⟨by simp only; omega, h0.2⟩
    · intro u hu
      by_cases hne : u = t
      · subst hne; simp at hu
      · simp only [other hne] at hu; exact absurd (.inr (.inr hu)) (hno u hne)
    · intro u hu; exact hst
  | «return» t hpc =>
    have hm := h.owner t (.inr (.inl hpc))
    have hst := h.state_false t (.inl hpc)
    have hc := h.running t hpc
    have hno : ∀ u, u ≠ t → ¬ (s.pc u = .check ∨ s.pc u = .exec ∨ s.pc u = .store) := by
      intro u hne hh
      have := h.owner u hh; rw [hm] at this; exact hne (Option.some.inj this).symm
    constructor
    · intro u hu
      by_cases hne : u = t
      · subst hne; exact hm
      · simp only [other hne] at hu; exact absurd hu (hno u hne)
    · intro _ u
      by_cases hne : u = t
      · subst hne; simp
      · simp only [other hne]; exact h.before hst u
    · intro hf; simp only [hst] at hf; cases hf
    · intro _ hall; have := (hall t).2; simp at this
    · intro u hu
      by_cases hne : u = t
      · subst hne; simp at hu
      · simp only [other hne] at hu; exact absurd (.inr (.inl hu)) (hno u hne)
    · intro u hu
      exact ⟨hc.1, by simp only; omega⟩
    · intro u hu; exact hst
  | store t hpc =>
    have hm := h.owner t (.inr (.inr hpc))
    have hc := h.ran t hpc
    have hno : ∀ u, u ≠ t → ¬ (s.pc u = .check ∨ s.pc u = .exec ∨ s.pc u = .store) := by
      intro u hne hh
      have := h.owner u hh; rw [hm] at this; exact hne (Option.some.inj this).symm
    constructor
    · intro u hu
      by_cases hne : u = t
      · subst hne; simp at hu
      · simp only [other hne] at hu; exact absurd hu (hno u hne)
    · intro hf; simp only at hf; cases hf
    · intro _; refine ⟨hc.1, hc.2, fun u => ?_⟩
      by_cases hne : u = t
      · subst hne; simp
      · simp only [other hne]
        exact ⟨fun hh => hno u hne (.inr (.inl hh)), fun hh => hno u hne (.inr (.inr hh))⟩
    · intro hf; simp only at hf; cases hf
    · intro u hu
      by_cases hne : u = t
      · subst hne; simp at hu
      · simp only [other hne] at hu; exact absurd (.inr (.inl hu)) (hno u hne)
    · intro u hu
      by_cases hne : u = t
      · subst hne; simp at hu
      · simp only [other hne] at hu; exact absurd (.inr (.inr hu)) (hno u hne)
    · intro u hu
      by_cases hne : u = t
      · subst hne; simp at hu
      · simp only [other hne] at hu; exact absurd (.inr hu) (hno u hne)

/-- **C24.** However many threads call it, the function is started at most once, and when any caller
has returned it has been executed completely, exactly once. -/
theorem C24_once (s : OnceState) (h : OnceReach s) :
    s.started ≤ 1 ∧ ∀ t, s.pc t = .done → s.started = 1 ∧ s.completed = 1 := by
  have hI : OnceInv s := Reachable.invariant (I := OnceInv)
    (fun s (h0 : s = .start) => by
      subst h0
      exact ⟨fun t ht => by simp [OnceState.start] at ht, fun _ t => by simp [OnceState.start],
        fun hf => (by cases hf), fun _ _ => ⟨rfl, rfl⟩, fun t ht => by simp [OnceState.start] at ht,
        fun t ht => by simp [OnceState.start] at ht, fun t ht => by simp [OnceState.start] at ht⟩)
    (fun _ _ hI hs => hI.step hs) h
  have hdone : ∀ t, s.pc t = .done → s.started = 1 ∧ s.completed = 1 := by
    intro t ht
    cases hst : s.state with
    | false => exact absurd ht (hI.before hst t)
    | true => exact ⟨(hI.after hst).1, (hI.after hst).2.1⟩
  refine ⟨?_, hdone⟩
  cases hst : s.state with
  | true => rw [(hI.after hst).1]; exact Nat.le_refl _
  | false =>
    by_cases hall : ∀ t, s.pc t ≠ .exec ∧ s.pc t ≠ .store
    · rw [(hI.unstarted hst hall).1]; exact Nat.zero_le _
    · simp only [not_forall, Classical.not_and_iff_not_or_not, Decidable.not_not] at hall
      obtain ⟨t, ht | ht⟩ := hall
      · rw [(hI.running t ht).1]; exact Nat.le_refl _
      · rw [(hI.ran t ht).1]; exact Nat.le_refl _

/-- **C24** rests on sequentially consistent memory: the double check reads `m_state` without the mutex
(once.h 73), and a thread can be right before this read while another one, which holds the mutex, is
right before the write (once.h 85). In C++ this is a data race. -/
theorem C24_race_violated : ∃ s : OnceState, OnceReach s ∧ ∃ t u, t ≠ u ∧ s.pc t = .start ∧
    s.pc u = .store ∧ s.mutex = some u ∧ s.state = false :=
  ⟨_, .step (.step (.step (.step (.init rfl) (.slow _ 0 rfl rfl)) (.lock _ 0 rfl rfl))
      (.exec _ 0 rfl rfl)) (.return _ 0 rfl), 1, 0, by decide, rfl, rfl, rfl, rfl⟩

/-- **C24**: all other accesses are ordered by the mutex: a thread that reads `m_state` for the second
time, runs the function or writes `m_state` holds it. -/
theorem C24_mutex (s : OnceState) (h : OnceReach s) (t : Nat)
    (ht : s.pc t = .check ∨ s.pc t = .exec ∨ s.pc t = .store) : s.mutex = some t := by
  have hI : OnceInv s := Reachable.invariant (I := OnceInv)
    (fun s (h0 : s = .start) => by
      subst h0
      exact ⟨fun t ht => by simp [OnceState.start] at ht, fun _ t => by simp [OnceState.start],
        fun hf => (by cases hf), fun _ _ => ⟨rfl, rfl⟩, fun t ht => by simp [OnceState.start] at ht,
        fun t ht => by simp [OnceState.start] at ht, fun t ht => by simp [OnceState.start] at ht⟩)
    (fun _ _ hI hs => hI.step hs) h
  exact hI.owner t ht

/-- **C24**, progress: a caller waiting for the mutex never waits forever: either the mutex is free, or
its owner can continue. -/
theorem C24_progress (s : OnceState) (h : OnceReach s) (t : Nat) (ht : s.pc t ≠ .done) :
    ∃ s', OnceStep s s' := by
  have hI : (∀ u, s.mutex = some u → s.pc u = .check ∨ s.pc u = .exec ∨ s.pc u = .store) :=
    Reachable.invariant
      (I := fun s : OnceState => ∀ u, s.mutex = some u → s.pc u = .check ∨ s.pc u = .exec ∨ s.pc u = .store)
      (fun s (h0 : s = OnceState.start) => by subst h0; intro u hu; cases hu)
      (fun s s' hI (hs : OnceStep s s') => by
        have keep : ∀ (t : Nat) (c : OncePc) (a : OncePc), s.pc t = a →
            (a = .start ∨ a = .lock) → ∀ u, s.mutex = some u →
            upd s.pc t c u = .check ∨ upd s.pc t c u = .exec ∨ upd s.pc t c u = .store := by
          intro t c a hpc ha u hu
          have hne : u ≠ t := by
            rintro rfl
            have := hI u hu
            rw [hpc] at this
            rcases ha with rfl | rfl <;> simp at this
          rw [upd_ne _ _ hne]; exact hI u hu
        have self : ∀ (t : Nat) (c : OncePc), (c = .check ∨ c = .exec ∨ c = .store) → ∀ u,
            s.mutex = some u →
            upd s.pc t c u = .check ∨ upd s.pc t c u = .exec ∨ upd s.pc t c u = .store := by
          intro t c hc u hu
          by_cases hne : u = t
          · subst hne; rw [upd_self]; exact hc
          · rw [upd_ne _ _ hne]; exact hI u hu
        cases hs with
        | fast t hpc _ => exact keep t _ _ hpc (.inl rfl)
        | slow t hpc _ => exact keep t _ _ hpc (.inl rfl)
        | lock t hpc hm =>
          intro u hu
          have : t = u := Option.some.inj hu
          subst this
          exact .inl (upd_self _ _ _)
        | again t hpc hst => intro u hu; cases hu
        | exec t hpc _ => exact self t _ (.inr (.inl rfl))
        | «return» t hpc => exact self t _ (.inr (.inr rfl))
        | store t hpc => intro u hu; cases hu) h
  have own : ∀ u, (s.pc u = .check ∨ s.pc u = .exec ∨ s.pc u = .store) → ∃ s', OnceStep s s' := by
    rintro u (hu | hu | hu)
    · cases hst : s.state
      · exact ⟨_, .exec s u hu hst⟩
      · exact ⟨_, .again s u hu hst⟩
    · exact ⟨_, .return s u hu⟩
    · exact ⟨_, .store s u hu⟩
  cases hpc : s.pc t with
  | start =>
    cases hst : s.state
    · exact ⟨_, .slow s t hpc hst⟩
    · exact ⟨_, .fast s t hpc hst⟩
  | lock =>
    cases hm : s.mutex with
    | none => exact ⟨_, .lock s t hpc hm⟩
    | some u => exact own u (hI u hm)
  | check => exact own t (.inl hpc)
  | exec => exact own t (.inr (.inl hpc))
  | store => exact own t (.inr (.inr hpc))
  | done => exact absurd hpc ht

end Asagi.Props
