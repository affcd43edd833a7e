import Verif.Model.Races
import Mathlib.Data.List.Basic
import Mathlib.Tactic.SplitIfs
/-
Properties of opening grids on several processes and NUMA domains: C52, C54, C56.
-/
namespace Asagi.Props
open Asagi

/-! ### C52 -/

/-- **C52 (own process).** When open has returned on a process all blocks of this process are
loaded, and domain 0 of every process has loaded its blocks. -/
theorem C52_own_process (n doms : Nat) {s : FullOpenState}
    (h : Reachable FullOpenState.init (FullOpenStep n doms) s) (p : Nat) (hr : s.returned p) :
    (∀ d, d < doms → s.loaded p d) ∧ (∀ q, q < n → s.loaded q 0) := by
  have inv : (∀ p, s.returned p → (∀ d, d < doms → s.loaded p d) ∧ ∀ q, q < n → s.entered q) ∧
      (∀ q, s.entered q → s.loaded q 0) := by
    refine Reachable.invariant (I := fun s : FullOpenState =>
      (∀ p, s.returned p → (∀ d, d < doms → s.loaded p d) ∧ ∀ q, q < n → s.entered q) ∧
      (∀ q, s.entered q → s.loaded q 0)) ?_ ?_ h
    · rintro s ⟨h1, h2, h3⟩
      exact ⟨fun p hp => absurd hp (h3 p), fun q hq => absurd hq (h2 q)⟩
    · rintro s t ⟨h1, h2⟩ st
      cases st with
      | load p d hp hd =>
        exact ⟨fun p hp => ⟨fun d hd => Or.inr ((h1 p hp).1 d hd), (h1 p hp).2⟩,
          fun q hq => Or.inr (h2 q hq)⟩
      | enter p hp hl =>
        refine ⟨fun p hp => ⟨(h1 p hp).1, fun q hq => Or.inr ((h1 p hp).2 q hq)⟩, ?_⟩
        rintro q (rfl | hq)
        · exact hl
        · exact h2 q hq
      | ret p hp hl he =>
        refine ⟨?_, h2⟩
        rintro p' (rfl | hp')
        · exact ⟨hl, he⟩
        · exact h1 p' hp'
  exact ⟨(inv.1 p hr).1, fun q hq => inv.2 q ((inv.1 p hr).2 q hq)⟩

/-- **C52, partial.** With one NUMA domain per process all blocks of all processes are loaded when
open has returned on any process. Missing (and false): several NUMA domains. -/
theorem C52_one_domain_partial (n : Nat) {s : FullOpenState}
    (h : Reachable FullOpenState.init (FullOpenStep n 1) s) (p : Nat) (hr : s.returned p)
    (q d : Nat) (hq : q < n) (hd : d < 1) : s.loaded q d := by
  obtain rfl : d = 0 := by omega
  exact (C52_own_process n 1 h p hr).2 q hq

/-- **C52, partial (several domains).** When open has returned on all processes, all blocks of all
processes are loaded: an application that waits for the others after open (for example with a barrier)
is safe. Missing (and false): lookups before open has returned everywhere. -/
theorem C52_all_returned_partial (n doms : Nat) {s : FullOpenState}
    (h : Reachable FullOpenState.init (FullOpenStep n doms) s) (hr : ∀ p, p < n → s.returned p)
    (q d : Nat) (hq : q < n) (hd : d < doms) : s.loaded q d :=
  (C52_own_process n doms h q (hr q hq)).1 d hd

example : ∃ s : FullOpenState, Reachable FullOpenState.init (FullOpenStep 2 1) s ∧
    ∀ p, p < 2 → s.returned p := by
  let s0 : FullOpenState := ⟨fun _ _ => False, fun _ => False, fun _ => False⟩
  have h0 : Reachable FullOpenState.init (FullOpenStep 2 1) s0 := .init ⟨by simp [s0], by simp [s0], by simp [s0]⟩
  have h1 := Reachable.step h0 (.load 0 0 (by omega) (by omega))
  have h2 := Reachable.step h1 (.load 1 0 (by omega) (by omega))
  have h3 := Reachable.step h2 (.enter 0 (by omega) (by simp))
  have h4 := Reachable.step h3 (.enter 1 (by omega) (by simp))
  have h5 := Reachable.step h4 (.ret 0 (by omega)
    (by intro d hd; have : d = 0 := by omega
        simp [this]) (by intro q hq; simp; omega))
  have h6 := Reachable.step h5 (.ret 1 (by omega)
    (by intro d hd; have : d = 0 := by omega
        simp [this]) (by intro q hq; simp; omega))
  exact ⟨_, h6, by intro p hp; simp; omega⟩

/-- **C52, violated.** With two domains open can return on process 0 while domain 1 of process 1
has not loaded its blocks. -/
theorem C52_unloaded_violated : ∃ s : FullOpenState,
    Reachable FullOpenState.init (FullOpenStep 2 2) s ∧ s.returned 0 ∧ ¬ s.loaded 1 1 := by
  let s0 : FullOpenState := ⟨fun _ _ => False, fun _ => False, fun _ => False⟩
  have h0 : Reachable FullOpenState.init (FullOpenStep 2 2) s0 := .init ⟨by simp [s0], by simp [s0], by simp [s0]⟩
  have h1 := Reachable.step h0 (.load 0 0 (by omega) (by omega))
  have h2 := Reachable.step h1 (.load 0 1 (by omega) (by omega))
  have h3 := Reachable.step h2 (.load 1 0 (by omega) (by omega))
  have h4 := Reachable.step h3 (.enter 0 (by omega) (by simp))
  have h5 := Reachable.step h4 (.enter 1 (by omega) (by simp))
  have h6 := Reachable.step h5 (.ret 0 (by omega)
    (by intro d hd; have : d = 0 ∨ d = 1 := by omega
        rcases this with rfl | rfl <;> simp)
    (by intro q hq; have : q = 0 ∨ q = 1 := by omega
        rcases this with rfl | rfl <;> simp))
  exact ⟨_, h6, by simp, by simp [s0]⟩

/-! ### C54 -/

/-- Invariant of the registration. -/
theorem reg_inv (n : Nat) {s : RegState} (h : Reachable RegState.init (RegStep n) s) :
    (∀ p q, p < n → q < n → s.inserted p ≤ s.entered q) ∧
    (∀ p, s.inserted p ≤ s.entered p ∧ s.entered p ≤ s.inserted p + 1) := by
  refine Reachable.invariant (I := fun s : RegState =>
    (∀ p q, p < n → q < n → s.inserted p ≤ s.entered q) ∧
    (∀ p, s.inserted p ≤ s.entered p ∧ s.entered p ≤ s.inserted p + 1)) ?_ ?_ h
  · rintro s ⟨h1, h2, -⟩
    exact ⟨fun p q _ _ => by rw [h1, h2]; omega, fun p => by rw [h1, h2]; omega⟩
  · rintro s t ⟨h1, h2⟩ st
    cases st with
    | enter p hp he =>
      refine ⟨fun a b ha hb => ?_, fun a => ?_⟩
      · have := h1 a b ha hb
        simp only [upd_apply]; split_ifs with hc
        · subst hc; omega
        · exact this
      · have := h2 a
        simp only [upd_apply]; split_ifs with hc
        · subst hc; omega
        · exact this
    | insert p hp hlt hall =>
      refine ⟨fun a b ha hb => ?_, fun a => ?_⟩
      · have h3 := h1 a b ha hb
        have h4 := hall b hb
        simp only [upd_apply]; split_ifs with hc
        · subst hc; omega
        · exact h3
      · have := h2 a
        simp only [upd_apply]; split_ifs with hc
        · subst hc; omega
        · exact this
    | send => exact ⟨h1, h2⟩
    | handle => exact ⟨h1, h2⟩

/-- **C54, partial.** Requests to a receiver which are only sent by processes that have finished at
least one later registration are never lost. For a CACHE level (four receivers: directory, block
transfer, adder, deleter, mpithreadcache.h 376-399) this covers everything but messages to the
deleter, because lookups begin after the fourth registration. Missing (and false): the receiver
registered last, in particular the only receiver of a FULL level. -/
theorem C54_earlier_receivers_partial (n : Nat) {s : RegState}
    (h : Reachable RegState.init (RegStep n) s) (p q k : Nat) (hp : p < n) (hq : q < n)
    (hlater : k + 1 ≤ s.inserted p) : k ≤ s.inserted q := by
  obtain ⟨h1, h2⟩ := reg_inv n h
  have := h1 p q hp hq
  have := (h2 q).2
  omega

/-- The same about messages: if every request in a run is sent to a receiver followed by another
completed registration of the sender, no request is ever lost. -/
theorem C54_no_loss_partial (n : Nat) {s : RegState}
    (h : Reachable RegState.init
      (fun s t => RegStep n s t ∧
        ∀ p q k, t.msgs = s.msgs ++ [(p, q, k)] → k + 1 ≤ s.inserted p ∧ p < n ∧ q < n) s) :
    s.lost = [] := by
  have hreach : ∀ s, Reachable RegState.init
      (fun s t => RegStep n s t ∧
        ∀ p q k, t.msgs = s.msgs ++ [(p, q, k)] → k + 1 ≤ s.inserted p ∧ p < n ∧ q < n) s →
      Reachable RegState.init (RegStep n) s := by
    intro s hs
    induction hs with
    | init h => exact .init h
    | step _ h ih => exact .step ih h.1
  have inv : s.lost = [] ∧ ∀ m ∈ s.msgs, m.2.2 ≤ s.inserted m.2.1 := by
    induction h with
    | init h => exact ⟨h.2.2.2.2, by rw [h.2.2.1]; simp⟩
    | step hs st ih =>
      rename_i s t
      have hr := hreach _ hs
      obtain ⟨st, hsend⟩ := st
      cases st with
      | enter p hp he => exact ih
      | insert p hp hlt hall =>
        refine ⟨ih.1, fun m hm => ?_⟩
        have := ih.2 m hm
        simp only [upd_apply]; split_ifs with hc
        · rw [hc] at this; omega
        · exact this
      | send p q k hp hq hk hi =>
        refine ⟨ih.1, fun m hm => ?_⟩
        simp only [List.mem_append, List.mem_singleton] at hm
        rcases hm with hm | rfl
        · exact ih.2 m hm
        · obtain ⟨ha, hb, hc⟩ := hsend p q k rfl
          exact C54_earlier_receivers_partial n hr p q k hb hc ha
      | handle m1 m2 p q k hm =>
        have hk : k ≤ s.inserted q := ih.2 (p, q, k) (by rw [hm]; simp)
        refine ⟨?_, fun m hm' => ih.2 m ?_⟩
        · simp only [hk, if_true]; exact ih.1
        · rw [hm]
          simp only [List.mem_append, List.mem_cons] at hm' ⊢
          tauto
  exact inv.1

/-- **C54, partial (all processes have registered).** If requests to a receiver are sent only after the
asked process has registered it, as in applications that wait for the others after open, no request is
ever lost, whatever the receiver. -/
theorem C54_registered_partial (n : Nat) {s : RegState}
    (h : Reachable RegState.init
      (fun s t => RegStep n s t ∧ ∀ p q k, t.msgs = s.msgs ++ [(p, q, k)] → k ≤ s.inserted q) s) :
    s.lost = [] := by
  have inv : s.lost = [] ∧ ∀ m ∈ s.msgs, m.2.2 ≤ s.inserted m.2.1 := by
    induction h with
    | init h => exact ⟨h.2.2.2.2, by rw [h.2.2.1]; simp⟩
    | step _ hst ih =>
      obtain ⟨st, hk⟩ := hst
      cases st with
      | enter => exact ih
      | insert p hp h hall =>
        refine ⟨ih.1, fun m hm => ?_⟩
        have := ih.2 m hm
        simp only [upd_apply]; split_ifs with hc
        · rw [hc] at this; omega
        · exact this
      | send p q k hp hq hk1 h =>
        refine ⟨ih.1, fun m hm => ?_⟩
        rcases List.mem_append.1 hm with hm | hm
        · exact ih.2 m hm
        · rw [List.mem_singleton] at hm; subst hm; exact hk p q k rfl
      | handle m1 m2 p q k hm =>
        have hkq : k ≤ _ := ih.2 (p, q, k) (by rw [hm]; simp)
        refine ⟨by simp only [hkq, if_true]; exact ih.1, fun m hm' => ih.2 m ?_⟩
        rw [hm]
        simp only [List.mem_append, List.mem_cons] at hm' ⊢
        tauto
  exact inv.1

/-- Two processes register a receiver and one of them sends a request, which is delivered. -/
example : ∃ s : RegState, Reachable RegState.init
    (fun s t => RegStep 2 s t ∧ ∀ p q k, t.msgs = s.msgs ++ [(p, q, k)] → k ≤ s.inserted q) s ∧
    s.delivered = [(0, 1, 1)] := by
  let s0 : RegState := ⟨fun _ => 0, fun _ => 0, [], [], []⟩
  have h0 : Reachable RegState.init
      (fun s t => RegStep 2 s t ∧ ∀ p q k, t.msgs = s.msgs ++ [(p, q, k)] → k ≤ s.inserted q) s0 :=
    .init ⟨fun _ => rfl, fun _ => rfl, rfl, rfl, rfl⟩
  have h1 := Reachable.step h0 ⟨.enter 0 (by omega) rfl, by simp⟩
  have h2 := Reachable.step h1 ⟨.enter 1 (by omega) rfl, by simp⟩
  have h3 := Reachable.step h2 ⟨.insert 0 (by omega) (by simp [upd, s0])
    (by intro q hq; have : q = 0 ∨ q = 1 := by omega
        rcases this with rfl | rfl <;> simp [upd, s0]), by simp⟩
  have h4 := Reachable.step h3 ⟨.insert 1 (by omega) (by simp [upd, s0])
    (by intro q hq; have : q = 0 ∨ q = 1 := by omega
        rcases this with rfl | rfl <;> simp [upd, s0]), by simp⟩
  have h5 := Reachable.step h4 ⟨.send 0 1 1 (by omega) (by omega) (by omega) (by simp [upd, s0]),
    by simp [upd, s0]⟩
  have h6 := Reachable.step h5 ⟨.handle [] [] 0 1 1 rfl, by simp [s0]⟩
  exact ⟨_, h6, by simp [upd, s0]⟩

/-- **C54, violated.** A request to the receiver registered last can be lost (and its sender waits
for a reply forever): process 0 has finished the registration and sends, process 1 has not
yet inserted its receiver. -/
theorem C54_request_lost_violated : ∃ s : RegState,
    Reachable RegState.init (RegStep 2) s ∧ s.lost = [(0, 1, 1)] := by
  let s0 : RegState := ⟨fun _ => 0, fun _ => 0, [], [], []⟩
  have h0 : Reachable RegState.init (RegStep 2) s0 :=
    .init ⟨fun _ => rfl, fun _ => rfl, rfl, rfl, rfl⟩
  have h1 := Reachable.step h0 (.enter 0 (by omega) rfl)
  have h2 := Reachable.step h1 (.enter 1 (by omega) rfl)
  have h3 := Reachable.step h2 (.insert 0 (by omega) (by simp [upd, s0])
    (by intro q hq; have : q = 0 ∨ q = 1 := by omega
        rcases this with rfl | rfl <;> simp [upd, s0]))
  have h4 := Reachable.step h3 (.send 0 1 1 (by omega) (by omega) (by omega) (by simp [upd, s0]))
  have h5 := Reachable.step h4 (.handle [] [] 0 1 1 rfl)
  exact ⟨_, h5, by simp [upd, s0]⟩

/-! ### C56 -/

/-- **C56.** In every schedule of the NUMA domains, no domain reads the communication data type of
the grid before it was created, although the lock is released before the creation: the domains meet
in the allocation of the memory first. -/
theorem C56_type_complete (doms : Nat) {s : TypeState}
    (h : Reachable TypeState.init (TypeStep doms) s) :
    s.bad = false ∧ ∀ d, s.pc d = .passed ∨ s.pc d = .used → s.created = true := by
  have inv : (∀ d, s.pc d ≠ .start → d < doms ∧ s.size = true) ∧
      (s.size = true → s.created = true ∨ ∃ d, s.pc d = .creating) ∧
      (∀ d, s.pc d = .passed ∨ s.pc d = .used → s.created = true) ∧ s.bad = false := by
    refine Reachable.invariant (I := fun s : TypeState =>
      (∀ d, s.pc d ≠ .start → d < doms ∧ s.size = true) ∧
      (s.size = true → s.created = true ∨ ∃ d, s.pc d = .creating) ∧
      (∀ d, s.pc d = .passed ∨ s.pc d = .used → s.created = true) ∧ s.bad = false) ?_ ?_ h
    · rintro s ⟨h1, h2, h3⟩
      refine ⟨fun d hd => absurd (h1 d) hd, fun h => Or.inl (h2 ▸ h), fun d hd => ?_, h3⟩
      rw [h1 d] at hd; simp at hd
    · rintro s t ⟨h1, h2, h3, h4⟩ st
      cases st with
      | first d hd hp hs =>
        refine ⟨fun e he => ?_, fun _ => Or.inr ⟨d, by simp⟩, fun e he => ?_, h4⟩
        · simp only [upd_apply] at he
          split_ifs at he with hc
          · subst hc; exact ⟨hd, rfl⟩
          · exact ⟨(h1 e he).1, rfl⟩
        · simp only [upd_apply] at he
          split_ifs at he with hc
          · simp at he
          · exact h3 e he
      | other d hd hp hs =>
        refine ⟨fun e he => ?_, fun h => ?_, fun e he => ?_, h4⟩
        · simp only [upd_apply] at he
          split_ifs at he with hc
          · subst hc; exact ⟨hd, hs⟩
          · exact h1 e he
        · rcases h2 h with h | ⟨e, he⟩
          · exact Or.inl h
          · refine Or.inr ⟨e, ?_⟩
            have : e ≠ d := fun hh => by rw [hh, hp] at he; simp at he
            simp [upd_ne _ _ this, he]
        · simp only [upd_apply] at he
          split_ifs at he with hc
          · simp at he
          · exact h3 e he
      | create d hp =>
        refine ⟨fun e he => ?_, fun h => Or.inl rfl, fun e he => rfl, h4⟩
        simp only [upd_apply] at he
        split_ifs at he with hc
        · subst hc; exact h1 e (by rw [hp]; simp)
        · exact h1 e he
      | enter d hp =>
        refine ⟨fun e he => ?_, fun h => ?_, fun e he => ?_, h4⟩
        · simp only [upd_apply] at he
          split_ifs at he with hc
          · subst hc; exact h1 e (by rw [hp]; simp)
          · exact h1 e he
        · rcases h2 h with h | ⟨e, he⟩
          · exact Or.inl h
          · refine Or.inr ⟨e, ?_⟩
            have : e ≠ d := fun hh => by rw [hh, hp] at he; simp at he
            simp [upd_ne _ _ this, he]
        · simp only [upd_apply] at he
          split_ifs at he with hc
          · simp at he
          · exact h3 e he
      | pass d hp hall =>
        have hcre : s.created = true := by
          rcases h2 (h1 d (by rw [hp]; simp)).2 with h | ⟨e, he⟩
          · exact h
          · have hlt := (h1 e (by rw [he]; simp)).1
            rcases hall e hlt with h | h | h <;> rw [he] at h <;> simp at h
        refine ⟨fun e he => ?_, fun _ => Or.inl hcre, fun _ _ => hcre, h4⟩
        simp only [upd_apply] at he
        split_ifs at he with hc
        · subst hc; exact h1 e (by rw [hp]; simp)
        · exact h1 e he
      | use d hp =>
        have hcre := h3 d (Or.inl hp)
        refine ⟨fun e he => ?_, fun _ => Or.inl hcre, fun _ _ => hcre, by simp [h4, hcre]⟩
        simp only [upd_apply] at he
        split_ifs at he with hc
        · subst hc; exact h1 e (by rw [hp]; simp)
        · exact h1 e he
  exact ⟨inv.2.2.2, inv.2.2.1⟩

/-- Non-trivial case: the second domain passes the check before the type exists, and the first
domain then uses the type. -/
example : ∃ s : TypeState, Reachable TypeState.init (TypeStep 2) s ∧
    s.pc 1 = .barrier ∧ s.created = false ∧
    ∃ t, Steps (TypeStep 2) s t ∧ t.pc 1 = .used := by
  let s0 : TypeState := ⟨fun _ => .start, false, false, false⟩
  have h0 : Reachable TypeState.init (TypeStep 2) s0 := .init ⟨fun _ => rfl, rfl, rfl⟩
  have h1 := Reachable.step h0 (.first 0 (by omega) rfl rfl)
  have h2 := Reachable.step h1 (.other 1 (by omega) rfl rfl)
  have h3 := Reachable.step h2 (.enter 1 rfl)
  refine ⟨_, h3, by simp, rfl, ?_⟩
  refine ⟨_, .tail (.tail (.tail (.tail .refl (.create 0 rfl)) (.enter 0 rfl))
    (.pass 1 rfl ?_)) (.use 1 rfl), rfl⟩
  intro e he
  have : e = 0 ∨ e = 1 := by omega
  rcases this with rfl | rfl <;> exact Or.inl rfl

end Asagi.Props
