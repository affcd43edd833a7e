import Verif.Spec.Collective
import Mathlib.Algebra.Order.BigOperators.Group.Finset
import Mathlib.Tactic.SplitIfs
/-
C67: closing a grid. C68: opening and closing several grids.
-/
namespace Asagi.Props
open Asagi Spec

/-! ### C67 -/

theorem close_inv {n : Nat} {s : CloseState} (h : Reachable CloseState.init (CloseStep n) s) :
    s.lost = [] ∧ (∀ p t q, (p, t, q) ∈ s.pend → p < n ∧ q < n ∧ s.closing p = false) ∧
      (∀ p, s.closed p = true → ∀ q, q < n → s.closing q = true) := by
  induction h with
  | init h => cases h; simp
  | step _ hs ih =>
    rename_i s _ _
    obtain ⟨h1, h2, h3⟩ := ih
    cases hs with
    | request p t q hp hq hc _ =>
      refine ⟨h1, ?_, h3⟩
      intro p' t' q' hm
      rcases List.mem_cons.1 hm with e | e
      · cases e; exact ⟨hp, hq, hc⟩
      · exact h2 _ _ _ e
    | handle a b p t q he =>
      have hpq := h2 p t q (by rw [he]; simp)
      have hq : s.closed q = false := by
        cases hc : s.closed q with
        | false => rfl
        | true =>
          have := h3 q hc p hpq.1
          rw [hpq.2.2] at this
          cases this
      refine ⟨by simp [hq, h1], ?_, h3⟩
      intro p' t' q' hm
      refine h2 p' t' q' ?_
      rw [he]
      rcases List.mem_append.1 hm with e | e
      · exact List.mem_append_left _ e
      · exact List.mem_append_right _ (List.mem_cons_of_mem _ e)
    | callClose p hp hc hn =>
      refine ⟨h1, ?_, ?_⟩
      · intro p' t' q' hm
        have := h2 p' t' q' hm
        refine ⟨this.1, this.2.1, ?_⟩
        have hne : p' ≠ p := by rintro rfl; exact hn _ _ hm
        simp only [upd_ne _ _ hne]
        exact this.2.2
      · intro x hx q hq
        simp only [upd_apply]
        split
        · rfl
        · exact h3 x hx q hq
    | leave p hp hc hcl hall => exact ⟨h1, h2, fun x hx q hq => hall q hq⟩

/-- C67: a process may call `close` as soon as it needs no more values: no request of another
process is ever lost, ... -/
theorem C67_no_request_lost (n : Nat) (s : CloseState)
    (h : Reachable CloseState.init (CloseStep n) s) : s.lost = [] := (close_inv h).1

/-- C67: ... every request can be answered at any time, ... -/
theorem C67_answered (n : Nat) (s : CloseState) (h : Reachable CloseState.init (CloseStep n) s)
    (p t q : Nat) (hm : (p, t, q) ∈ s.pend) :
    ∃ s', CloseStep n s s' ∧ (p, t, q) ∈ s'.answered := by
  obtain ⟨a, b, e⟩ := List.append_of_mem hm
  refine ⟨_, .handle a b p t q e, ?_⟩
  obtain ⟨_, h2, h3⟩ := close_inv h
  have hpq := h2 p t q hm
  have hq : s.closed q = false := by
    cases hc : s.closed q with
    | false => rfl
    | true =>
      have := h3 q hc p hpq.1
      rw [hpq.2.2] at this
      cases this
  simp [hq]

/-- C67: ... and when all processes have called `close`, it returns on all of them. Nothing but a
process that has not called it can keep `close` from returning. -/
theorem C67_close_returns (n : Nat) (s : CloseState) (hall : ∀ q, q < n → s.closing q = true)
    (p : Nat) (hp : p < n) : s.closed p = true ∨ ∃ s', CloseStep n s s' ∧ s'.closed p = true := by
  cases hc : s.closed p with
  | true => exact .inl rfl
  | false => exact .inr ⟨_, .leave p hp (hall p hp) hc hall, by simp⟩

/-- C67: `close` returns only after all processes have called it: a grid that is still in use on some
process is closed on none. -/
theorem C67_close_waits (n : Nat) (s : CloseState) (h : Reachable CloseState.init (CloseStep n) s)
    (p : Nat) (hp : s.closed p = true) (q : Nat) (hq : q < n) :
    s.closing q = true ∧ ∀ t x, (q, t, x) ∉ s.pend := by
  obtain ⟨_, h2, h3⟩ := close_inv h
  refine ⟨h3 p hp q hq, fun t x hm => ?_⟩
  have := (h2 q t x hm).2.2
  rw [h3 p hp q hq] at this
  cases this

/-- Process 0 waits in `close`, while process 1 asks it for a block. -/
example : ∃ s, Reachable CloseState.init (CloseStep 2) s ∧ s.closing 0 = true ∧
    (1, 5, 0) ∈ s.pend :=
  ⟨_, .step (.step (.init rfl) (.callClose 0 (by omega) rfl (by simp)))
    (.request 1 5 0 (by omega) (by omega) rfl (by simp)), rfl, by simp⟩

/-- Both processes have called `close`, process 0 has left it. -/
example : ∃ s, Reachable CloseState.init (CloseStep 2) s ∧ s.closed 0 = true ∧
    s.closing 1 = true ∧ s.closed 1 = false := by
  have h1 := Reachable.step (.init (init := CloseState.init) (step := CloseStep 2) rfl)
    (.callClose 0 (by omega) rfl (by simp))
  have h2 := Reachable.step h1 (.callClose 1 (by omega) rfl (by simp))
  exact ⟨_, .step h2 (.leave 0 (by omega) rfl rfl (by
    intro q hq
    have : q = 0 ∨ q = 1 := by omega
    rcases this with rfl | rfl <;> rfl)), rfl, rfl, rfl⟩

/-! ### C68 -/

structure CollInv (P : CollParams) (prog : Nat → List Nat) (s : CollState) : Prop where
  /-- what is left is the end of the program -/
  suffix : ∀ t, s.prog t <:+ prog t
  /-- a call is left for all members or for none -/
  left : ∀ c t t', t ∈ P.members c → t' ∈ P.members c → c ∈ s.prog t → c ∈ s.prog t'
  lock : ∀ r t, s.lock r = some t → s.inside t = true ∧ P.rank t = r ∧ t < P.threads ∧
    ∃ c rest, s.prog t = c :: rest ∧ P.locked c = true
  inside : ∀ t, s.inside t = true → t < P.threads ∧ s.prog t ≠ []

theorem coll_inv {P : CollParams} {prog : Nat → List Nat} (ok : CollOk P prog) {s : CollState}
    (h : Reachable (CollState.init prog) (CollStep P) s) : CollInv P prog s := by
  induction h with
  | init h =>
    cases h
    refine ⟨fun t => List.suffix_refl _, ?_, ?_, ?_⟩
    · intro c t t' _ ht' _
      exact ((ok.members c t').1 ht').2
    · intro r t h; cases h
    · intro t h; cases h
  | step _ hs ih =>
    rename_i s _ _
    cases hs with
    | enterLocked t c rest ht hp hi hl hk =>
      refine ⟨ih.suffix, ih.left, ?_, ?_⟩
      · intro r t' h'
        simp only [upd_apply] at h' ⊢
        split at h'
        · rename_i e
          cases h'
          exact ⟨by simp, e.symm, ht, c, rest, hp, hl⟩
        · obtain ⟨a, b⟩ := ih.lock r t' h'
          refine ⟨?_, b⟩
          split
          · rfl
          · exact a
      · intro t' h'
        simp only [upd_apply] at h'
        split at h'
        · rename_i e; subst e; exact ⟨ht, by simp [hp]⟩
        · exact ih.inside t' h'
    | enter t c rest ht hp hi hl =>
      refine ⟨ih.suffix, ih.left, ?_, ?_⟩
      · intro r t' h'
        obtain ⟨a, b⟩ := ih.lock r t' h'
        refine ⟨?_, b⟩
        simp only [upd_apply]
        split
        · rfl
        · exact a
      · intro t' h'
        simp only [upd_apply] at h'
        split at h'
        · rename_i e; subst e; exact ⟨ht, by simp [hp]⟩
        · exact ih.inside t' h'
    | complete c hne hall =>
      have hmem : ∀ t ∈ P.members c, ∀ x, x ∈ (s.prog t).tail ↔ x ∈ s.prog t ∧ x ≠ c := by
        intro t ht x
        obtain ⟨_, rest, e⟩ := hall t ht
        have hnd : (s.prog t).Nodup := (ih.suffix t).nodup (ok.nodup t)
        rw [e] at hnd ⊢
        have := (List.nodup_cons.1 hnd).1
        simp only [List.tail_cons, List.mem_cons]
        constructor
        · intro hx
          exact ⟨.inr hx, fun e => this (e ▸ hx)⟩
        · rintro ⟨h1 | h1, h2⟩
          · exact absurd h1 h2
          · exact h1
      refine ⟨?_, ?_, ?_, ?_⟩
      · intro t
        simp only []
        split
        · exact (List.tail_suffix _).trans (ih.suffix t)
        · exact ih.suffix t
      · intro x t t' ht ht' hx
        simp only [] at hx ⊢
        have hx1 : x ∈ s.prog t := by
          split at hx
          · rename_i h; exact ((hmem t h x).1 hx).1
          · exact hx
        have hx2 := ih.left x t t' ht ht' hx1
        split
        · rename_i h
          refine (hmem t' h x).2 ⟨hx2, ?_⟩
          rintro rfl
          rw [if_pos ht] at hx
          exact ((hmem t ht x).1 hx).2 rfl
        · exact hx2
      · intro r t h
        simp only [] at h ⊢
        cases hr : s.lock r with
        | none => simp [hr] at h
        | some t' =>
          simp only [hr] at h
          split at h
          · cases h
          · rename_i hn
            cases h
            simp only [hn, if_false]
            exact ih.lock r t hr
      · intro t h
        simp only [] at h ⊢
        split at h
        · cases h
        · rename_i hn
          simp only [hn, if_false]
          exact ih.inside t h

/-- C68 (partial: see `C68_concurrent_open_violated` and `C68_close_order_violated`): if all threads
open and close grids in the same order, and on each process one thread only opens grids that use the
communication thread, no execution is stuck before all these calls have returned. -/
theorem C68_no_deadlock_partial (P : CollParams) (prog : Nat → List Nat) (ok : CollOk P prog)
    (ho : SameOrder prog) (h1 : OneOpener P prog) (s : CollState)
    (h : Reachable (CollState.init prog) (CollStep P) s) :
    (∀ t, t < P.threads → s.prog t = []) ∨ ∃ s', CollStep P s s' := by
  have inv := coll_inv ok h
  obtain ⟨key, hkey⟩ := ho
  by_cases hdone : ∀ t, t < P.threads → s.prog t = []
  · exact .inl hdone
  refine .inr ?_
  -- the next call in the common order
  have hex : ∃ k c t, key c = k ∧ t < P.threads ∧ c ∈ s.prog t := by
    simp only [Classical.not_forall] at hdone
    obtain ⟨t, ht, hp⟩ := hdone
    obtain ⟨c, hc⟩ := List.exists_mem_of_ne_nil _ hp
    exact ⟨key c, c, t, rfl, ht, hc⟩
  classical
  obtain ⟨c, t0, hk, ht0, hc0⟩ := Nat.find_spec hex
  have hmin : ∀ c' t', t' < P.threads → c' ∈ s.prog t' → key c ≤ key c' := by
    intro c' t' ht' hc'
    rw [hk]
    exact Nat.find_min' hex ⟨c', t', rfl, ht', hc'⟩
  have hm0 : t0 ∈ P.members c := (ok.members c t0).2 ⟨ht0, (inv.suffix t0).subset hc0⟩
  have hhead : ∀ t ∈ P.members c, ∃ rest, s.prog t = c :: rest := by
    intro t ht
    have hct := inv.left c t0 t hm0 ht hc0
    have htt := ((ok.members c t).1 ht).1
    cases hp : s.prog t with
    | nil => rw [hp] at hct; cases hct
    | cons x rest =>
      rw [hp] at hct
      rcases List.mem_cons.1 hct with e | e
      · exact ⟨rest, by rw [e]⟩
      · have hpw : (s.prog t).Pairwise fun a b => key a < key b :=
          (hkey t).sublist (inv.suffix t).sublist
        rw [hp] at hpw
        have := (List.pairwise_cons.1 hpw).1 c e
        have := hmin x t htt (by rw [hp]; exact List.mem_cons_self)
        omega
  by_cases hall : ∀ t ∈ P.members c, s.inside t = true
  · exact ⟨_, .complete c (List.ne_nil_of_mem hm0) fun t ht => ⟨hall t ht, hhead t ht⟩⟩
  · simp only [Classical.not_forall] at hall
    obtain ⟨t, ht, hi⟩ := hall
    have hi : s.inside t = false := by simpa using hi
    obtain ⟨rest, hp⟩ := hhead t ht
    obtain ⟨htt, hcp⟩ := (ok.members c t).1 ht
    cases hl : P.locked c with
    | false => exact ⟨_, .enter t c rest htt hp hi hl⟩
    | true =>
      refine ⟨_, .enterLocked t c rest htt hp hi hl ?_⟩
      cases hlk : s.lock (P.rank t) with
      | none => rfl
      | some t' =>
        obtain ⟨hin, hr, ht', c', rest', hp', hl'⟩ := inv.lock _ _ hlk
        have : t' = t := h1 t' t ht' htt hr
          ⟨c', (inv.suffix t').subset (by rw [hp']; exact List.mem_cons_self), hl'⟩ ⟨c, hcp, hl⟩
        subst this
        rw [hi] at hin
        cases hin

/-- The steps that are left. -/
def collLeft (P : CollParams) (s : CollState) : Nat :=
  ∑ t ∈ Finset.range P.threads, (2 * (s.prog t).length - if s.inside t then 1 else 0)

/-- C68: every execution ends: each step leaves fewer steps to do. With `C68_no_deadlock_partial`, all
calls return on all threads, whatever the schedule. -/
theorem C68_ends (P : CollParams) (prog : Nat → List Nat) (ok : CollOk P prog) (s s' : CollState)
    (h : Reachable (CollState.init prog) (CollStep P) s) (hs : CollStep P s s') :
    collLeft P s' < collLeft P s := by
  have inv := coll_inv ok h
  cases hs with
  | enterLocked t c rest ht hp hi hl hk =>
    refine Finset.sum_lt_sum (fun x _ => ?_) ⟨t, Finset.mem_range.2 ht, ?_⟩
    · simp only [upd_apply]
      by_cases e : x = t
      · subst e; simp [hi]
      · simp [e]
    · simp only [upd_self, hi, hp]
      simp
      omega
  | enter t c rest ht hp hi hl =>
    refine Finset.sum_lt_sum (fun x _ => ?_) ⟨t, Finset.mem_range.2 ht, ?_⟩
    · simp only [upd_apply]
      by_cases e : x = t
      · subst e; simp [hi]
      · simp [e]
    · simp only [upd_self, hi, hp]
      simp
      omega
  | complete c hne hall =>
    obtain ⟨t, ht⟩ := List.exists_mem_of_ne_nil _ hne
    have hlt : ∀ x ∈ P.members c,
        2 * (s.prog x).tail.length < 2 * (s.prog x).length - 1 := by
      intro x hx
      obtain ⟨_, rest, e⟩ := hall x hx
      rw [e]
      simp
      omega
    refine Finset.sum_lt_sum (fun x _ => ?_)
      ⟨t, Finset.mem_range.2 ((ok.members c t).1 ht).1, ?_⟩
    · simp only []
      by_cases hx : x ∈ P.members c
      · have := hlt x hx
        simp only [hx, if_true, (hall x hx).1]
        simp only [Bool.false_eq_true, if_false]
        omega
      · simp [hx]
    · have := hlt t ht
      simp only [ht, if_true, (hall t ht).1]
      simp only [Bool.false_eq_true, if_false]
      omega

/-- Two processes; threads 0 and 1 belong to process 0, threads 2 and 3 to process 1. The grids 0 and 1
are opened by the threads 0, 2 and 1, 3. -/
def exTwoOpeners : CollParams :=
  { threads := 4, rank := fun t => t / 2, members := fun c => if c < 2 then [c, c + 2] else [],
    locked := fun _ => true }

def exTwoProgs (t : Nat) : List Nat := if t < 4 then [t % 2] else []

/-- C68 is violated for threads that open different grids at the same time: process 0 holds its lock for
grid 0, process 1 for grid 1, and none of the calls ever returns. All threads make one call only, so
the order is the same everywhere. -/
theorem C68_concurrent_open_violated : CollOk exTwoOpeners exTwoProgs ∧ SameOrder exTwoProgs ∧
    ∃ s, Reachable (CollState.init exTwoProgs) (CollStep exTwoOpeners) s ∧
      (∀ t, t < 4 → s.prog t ≠ []) ∧ ∀ s', ¬ CollStep exTwoOpeners s s' := by
  refine ⟨⟨?_, ?_⟩, ⟨id, ?_⟩, ?_⟩
  · intro c t
    simp only [exTwoOpeners, exTwoProgs]
    by_cases ht : t < 4
    · have : t = 0 ∨ t = 1 ∨ t = 2 ∨ t = 3 := by omega
      by_cases hc : c < 2
      · have : c = 0 ∨ c = 1 := by omega
        rcases this with rfl | rfl <;> rcases ‹t = 0 ∨ _› with rfl | rfl | rfl | rfl <;> simp
      · simp [hc, ht]
        omega
    · by_cases hc : c < 2
      · simp [hc, ht]; omega
      · simp [hc, ht]
  · intro t; simp only [exTwoProgs]; split <;> simp
  · intro t; simp only [exTwoProgs]; split <;> simp
  · have h0 : Reachable (CollState.init exTwoProgs) (CollStep exTwoOpeners) _ := .init rfl
    have h1 := Reachable.step h0 (.enterLocked 0 0 [] (by decide) rfl rfl rfl rfl)
    have h2 := Reachable.step h1 (.enterLocked 3 1 [] (by decide) rfl rfl rfl rfl)
    refine ⟨_, h2, ?_, ?_⟩
    · intro t ht; simp [exTwoProgs, ht]
    · intro s' hs
      cases hs with
      | enterLocked t c rest ht hp hi hl hk =>
        have : t = 0 ∨ t = 1 ∨ t = 2 ∨ t = 3 := by
          have : t < 4 := ht
          omega
        rcases this with rfl | rfl | rfl | rfl
        · cases hi
        · exact absurd hk (by decide)
        · exact absurd hk (by decide)
        · cases hi
      | enter t c rest ht hp hi hl => cases hl
      | complete c hne hall =>
        by_cases hc : c < 2
        · have : c = 0 ∨ c = 1 := by omega
          rcases this with rfl | rfl
          · exact absurd (hall 2 (by decide)).1 (by decide)
          · exact absurd (hall 1 (by decide)).1 (by decide)
        · exact hne (by simp [exTwoOpeners, hc])

/-- Two processes with one thread each that close the grids 0 and 1 in different orders. -/
def exCloseOrder : CollParams :=
  { threads := 2, rank := id, members := fun c => if c < 2 then [0, 1] else [],
    locked := fun _ => false }

def exCloseProgs (t : Nat) : List Nat := if t = 0 then [0, 1] else if t = 1 then [1, 0] else []

/-- C68 is violated for processes that close two grids in different orders: `close` returns on none of
them (grid.cpp 181). -/
theorem C68_close_order_violated : CollOk exCloseOrder exCloseProgs ∧
    OneOpener exCloseOrder exCloseProgs ∧
    ∃ s, Reachable (CollState.init exCloseProgs) (CollStep exCloseOrder) s ∧
      (∀ t, t < 2 → s.prog t ≠ []) ∧ ∀ s', ¬ CollStep exCloseOrder s s' := by
  refine ⟨⟨?_, ?_⟩, ?_, ?_⟩
  · intro c t
    simp only [exCloseOrder, exCloseProgs]
    by_cases hc : c < 2
    · have : c = 0 ∨ c = 1 := by omega
      by_cases ht : t < 2
      · have ht : t = 0 ∨ t = 1 := by omega
        rcases this with rfl | rfl <;> rcases ht with rfl | rfl <;> simp
      · have h0 : t ≠ 0 := by omega
        have h1 : t ≠ 1 := by omega
        simp [hc, h0, h1]
    · have h0 : c ≠ 0 := by omega
      have h1 : c ≠ 1 := by omega
      simp only [hc, if_false, List.not_mem_nil, false_iff, not_and]
      intro _
      split_ifs <;> simp [h0, h1]
  · intro t; simp only [exCloseProgs]; split_ifs <;> simp
  · intro t t' _ _ _ ⟨c, _, hc⟩; cases hc
  · have h0 : Reachable (CollState.init exCloseProgs) (CollStep exCloseOrder) _ := .init rfl
    have h1 := Reachable.step h0 (.enter 0 0 [1] (by decide) rfl rfl rfl)
    have h2 := Reachable.step h1 (.enter 1 1 [0] (by decide) rfl rfl rfl)
    refine ⟨_, h2, ?_, ?_⟩
    · intro t ht
      have : t = 0 ∨ t = 1 := by omega
      rcases this with rfl | rfl <;> simp [exCloseProgs]
    · intro s' hs
      cases hs with
      | enterLocked t c rest ht hp hi hl hk => cases hl
      | enter t c rest ht hp hi hl =>
        have : t = 0 ∨ t = 1 := by
          have : t < 2 := ht
          omega
        rcases this with rfl | rfl <;> cases hi
      | complete c hne hall =>
        by_cases hc : c < 2
        · obtain ⟨_, r0, e0⟩ := hall 0 (by simp [exCloseOrder, hc])
          obtain ⟨_, r1, e1⟩ := hall 1 (by simp [exCloseOrder, hc])
          simp [exCloseProgs] at e0 e1
          omega
        · exact hne (by simp [exCloseOrder, hc])

/-- Two processes that open grid 0 and grid 1 in this order and close grid 1 (call 2) in another thread
than grid 0 (call 3). -/
def exColl : CollParams :=
  { threads := 4, rank := fun t => t / 2
    members := fun c => if c < 3 then [0, 2] else if c = 3 then [1, 3] else []
    locked := fun c => decide (c < 2) }

def exCollProgs (t : Nat) : List Nat :=
  if t = 0 ∨ t = 2 then [0, 1, 2] else if t = 1 ∨ t = 3 then [3] else []

/-- The hypotheses of the theorems can be met. -/
example : CollOk exColl exCollProgs ∧ SameOrder exCollProgs ∧ OneOpener exColl exCollProgs := by
  refine ⟨⟨?_, ?_⟩, ⟨id, ?_⟩, ?_⟩
  · intro c t
    simp only [exColl, exCollProgs]
    by_cases ht : t < 4
    · have : t = 0 ∨ t = 1 ∨ t = 2 ∨ t = 3 := by omega
      by_cases hc : c < 4
      · have : c = 0 ∨ c = 1 ∨ c = 2 ∨ c = 3 := by omega
        rcases this with rfl | rfl | rfl | rfl <;>
          rcases ‹t = 0 ∨ _› with rfl | rfl | rfl | rfl <;> simp
      · have h3 : ¬ c < 3 := by omega
        have h3' : c ≠ 3 := by omega
        simp only [h3, h3', if_false, List.not_mem_nil, false_iff, not_and]
        intro _
        split_ifs <;> simp <;> omega
    · have e1 : ¬ (t = 0 ∨ t = 2) := by omega
      have e2 : ¬ (t = 1 ∨ t = 3) := by omega
      simp only [e1, e2, if_false, List.not_mem_nil, and_false, iff_false]
      split_ifs <;> simp <;> omega
  · intro t; simp only [exCollProgs]; split_ifs <;> simp
  · intro t; simp only [exCollProgs]; split_ifs <;> simp
  · have key : ∀ t, t < 4 → (∃ c ∈ exCollProgs t, exColl.locked c = true) → t = 0 ∨ t = 2 := by
      intro t ht ⟨c, hc, hl⟩
      have : t = 0 ∨ t = 1 ∨ t = 2 ∨ t = 3 := by omega
      rcases this with rfl | rfl | rfl | rfl
      · exact .inl rfl
      · simp [exCollProgs] at hc; subst hc; cases hl
      · exact .inr rfl
      · simp [exCollProgs] at hc; subst hc; cases hl
    intro t t' ht ht' hr h1 h2
    have a := key t ht h1
    have b := key t' ht' h2
    have : t / 2 = t' / 2 := hr
    omega

end Asagi.Props
