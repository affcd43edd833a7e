import Verif.Proofs.RecvTable
import Mathlib.Algebra.Order.BigOperators.Group.Finset
/-
C91. Threads open, use and close grids that use the communication thread, and stop the thread, in any order and at
the same time, while other processes send any messages.
-/
namespace Asagi.Props
open Asagi Asagi.Spec

variable {n : Nat} {s : TabState}

/-- **C91** Grids that are opened and closed at the same time do not disturb each other: at most one thread (the communication
thread, too) changes the table. -/
theorem C91_one_changes (h : TabReach true n s) (a b : Option Nat) (ha : ChangesTable s a) (hb : ChangesTable s b) :
    a = b := by
  have I := tab_inv h
  have hold : ∀ t, ChangesTable s (some t) → (s.pos t).holds = true := by
    rintro t (⟨o, tag, e⟩ | e) <;> rw [e] <;> rfl
  have no : ∀ t tag, s.comm = .erase tag → ¬ ChangesTable s (some t) := by
    intro t tag e hc
    obtain ⟨u, h1, h2⟩ := I.handed tag e
    have h3 := I.own t (hold t hc)
    rw [h1, Option.some.injEq] at h3
    rw [h3, hold t hc] at h2
    cases h2
  cases a with
  | none =>
    cases b with
    | none => rfl
    | some u => obtain ⟨tag, e⟩ := ha; exact absurd hb (no u tag e)
  | some t =>
    cases b with
    | none => obtain ⟨tag, e⟩ := hb; exact absurd ha (no t tag e)
    | some u => exact (I.own t (hold t ha)).symm.trans (I.own u (hold u hb))

/-- **C91** Between the return of `open` and the call of `close`, a message for the grid is delivered to the grid. -/
theorem C91_delivered (h : TabReach true n s) (o tag : Nat) (ho : s.tag o = some tag) (hc : s.comm = .find tag)
    (s' : TabState) (hs : TabRun true s s') : s'.comm = .find tag ∨ s'.comm = .call o := by
  have I := (tab_inv h).opened o tag ho
  cases hs with
  | found tag' hc' =>
    rw [hc] at hc'
    cases hc'
    rw [I]
    exact .inr rfl
  | recvUnreg t o' tag' _ e => rw [hc] at e; cases e
  | recvExit t _ e => rw [hc] at e; cases e
  | erased tag' e => rw [hc] at e; cases e
  | called o' e => rw [hc] at e; cases e
  | _ => exact .inl hc

/-- **C91** ... and a request of a getter is sent. -/
theorem C91_request_sent (h : TabReach true n s) (t o tag : Nat) (hp : s.pos t = .find o tag) (s' : TabState)
    (hs : TabRun true s s') : s'.pos t = .find o tag ∨ s'.pos t = .post := by
  have I := (tab_inv h).opened o tag ((tab_inv h).find t o tag hp)
  have other : ∀ u p, s.pos u = p → p ≠ .find o tag → ∀ q, upd s.pos u q t = .find o tag := by
    intro u p e hne q
    rw [upd_ne _ _ (by rintro rfl; exact hne (e.symm.trans hp)), hp]
  cases hs with
  | looked u o' tag' e =>
    by_cases hu : t = u
    · subst hu
      rw [hp] at e
      cases e
      right
      simp only [upd_self, I]
      rfl
    · exact .inl ((upd_ne _ _ hu).trans hp)
  | erased tag' e => exact .inl hp
  | found tag' e => exact .inl hp
  | called o' e => exact .inl hp
  | lockReg u o' e _ => exact .inl (other u _ e nofun _)
  | reduced u o' tag' e _ => exact .inl (other u _ e nofun _)
  | inserted u o' tag' e => exact .inl (other u _ e nofun _)
  | lockUnreg u o' tag' e _ => exact .inl (other u _ e nofun _)
  | recvUnreg u o' tag' e _ => exact .inl (other u _ e nofun _)
  | returned u o' e => exact .inl (other u _ e nofun _)
  | posted u e => exact .inl (other u _ e nofun _)
  | lockStop u e _ => exact .inl (other u _ e nofun _)
  | recvExit u e _ => exact .inl (other u _ e nofun _)
  | joined u e => exact .inl (other u _ e nofun _)

/-- **C91** After `close` has returned, the communication thread does not call the grid any more (nor while
`unregisterReceiver` is about to return): the memory of a grid that it calls is not freed. -/
theorem C91_no_call_after_close (h : TabReach true n s) (o : Nat) (hc : s.comm = .call o) :
    s.obj o = .live ∧ ∀ t, s.pos t ≠ .unregDone o := by
  obtain ⟨tag, ht⟩ := (tab_inv h).called o hc
  rcases (tab_inv h).mem tag o ht with e | e
  · exact e
  · rw [hc] at e; cases e

/-- **C91** If all grids were closed before, `stopCommThread` finds no receiver in the table (commthread.h 201). -/
theorem C91_stop_empty (h : TabReach true n s) (t : Nat) (hp : s.pos t = .join) (tag : Nat) : s.table tag = none :=
  Option.eq_none_iff_forall_ne_some.2 fun o => (tab_inv h).empty ((tab_inv h).joined t hp) tag o

/-- **C91** Every call returns, unless other processes send messages for ever: without new calls and messages there are
at most 4 n + 2 steps, for n threads, and if there is no further step, then no thread is inside of a call. -/
theorem C91_returns (h : TabReach true n s) (k : Nat) (u : TabState) (hk : RunsFor true k s u) :
    k ≤ 4 * n + 2 ∧ ((∀ v, ¬ TabRun true u v) → ∀ t, ¬ InCall u t) := by
  constructor
  · have h1 := runs_left h hk
    have h2 : ∑ t ∈ Finset.range n, (s.pos t).left ≤ ∑ _t ∈ Finset.range n, 4 :=
      Finset.sum_le_sum fun t _ => by cases s.pos t <;> simp [TabPos.left]
    have h3 : s.comm.left ≤ 2 := by cases s.comm <;> simp [TabComm.left]
    have h4 : ∀ m : Nat, ∑ _t ∈ Finset.range m, 4 = 4 * m := fun m => by
      induction m with
      | zero => rfl
      | succ m ih => rw [Finset.sum_range_succ, ih]; omega
    rw [h4] at h2
    simp only [TabState.left] at h1
    omega
  · intro hv t ht
    obtain ⟨v, hs⟩ := tab_progress (tab_inv (runs_reach h hk)) ht
    exact hv v hs

/-- **C91** The full claim, that the table is not read while it is changed, is false (below). It is read while it is changed
only if a grid is being opened, or if the communication thread removes a grid that is closed and another thread is
inside of a getter. -/
theorem C91_race_partial (h : TabReach true n s) (hr : TableRace s) :
    (∃ t o tag, s.pos t = .insert o tag ∧ ((∃ tag', s.comm = .find tag') ∨ ∃ u o' tag', u ≠ t ∧ s.pos u = .find o' tag')) ∨
    ∃ tag t o tag', s.comm = .erase tag ∧ s.pos t = .find o tag' := by
  obtain ⟨a, b, hne, ha, hb⟩ := hr
  have hb : ReadsTable s b := hb.resolve_right fun hb => hne (C91_one_changes h a b ha hb)
  have I := tab_inv h
  cases a with
  | none =>
    obtain ⟨tag, e⟩ := ha
    cases b with
    | none => exact absurd rfl hne
    | some t => obtain ⟨o, tag', e'⟩ := hb; exact .inr ⟨tag, t, o, tag', e, e'⟩
  | some t =>
    rcases ha with ⟨o, tag, e⟩ | e
    · left
      refine ⟨t, o, tag, e, ?_⟩
      cases b with
      | none => exact .inl hb
      | some u => obtain ⟨o', tag', e'⟩ := hb; exact .inr ⟨u, o', tag', fun e => hne (by rw [e]), e'⟩
    · exfalso
      cases b with
      | none => obtain ⟨tag, e'⟩ := hb; rw [I.joined t e] at e'; cases e'
      | some u =>
        obtain ⟨o, tag, e'⟩ := hb
        rw [(I.stop t (by rw [e]; rfl)).1 u fun e => hne (by rw [e])] at e'
        cases e'

/-! ### Cases -/

/-- While no thread is inside of the library, thread `t` opens a grid. -/
theorem tab_open {real : Bool} {t o : Nat} (h : TabReach real n s) (ht : t < n) (hp : s.pos = fun _ => .out)
    (hc : s.comm = .idle) (hl : s.lock = none) (ho : s.obj o = .fresh) :
    TabReach real n { s with pos := upd s.pos t (.insert o s.nextTag), lock := some t, nextTag := s.nextTag + 1
                             obj := upd s.obj o .live } ∧
    TabReach real n { s with nextTag := s.nextTag + 1, table := upd s.table s.nextTag (some o), obj := upd s.obj o .live
                             tag := upd s.tag o (some s.nextTag) } := by
  have e : ∀ f : Nat → TabPos, ∀ p q, upd (upd f t p) t q = upd f t q := by
    intro f p q
    funext x
    simp only [upd_apply]
    split <;> rfl
  have h1 := h.step (.call (.register s t o ht (by rw [hp]) (by rw [hc]; nofun) (fun u => by rw [hp]; rfl) ho))
  have h2 := h1.step (.run (.lockReg _ t o (upd_self ..) fun _ => hl))
  have h3 := h2.step (.run (.reduced _ t o s.nextTag (upd_self ..) (Nat.le_refl s.nextTag)))
  have h4 := h3.step (.run (.inserted _ t o s.nextTag (upd_self ..)))
  simp only [e] at h3 h4
  refine ⟨h3, ?_⟩
  have e2 : upd s.pos t .out = s.pos := by
    rw [hp]
    funext x
    simp only [upd_apply]
    split <;> rfl
  rw [e2, ← hl] at h4
  exact h4

/-- ... and closes it; the communication thread has not yet removed the entry. -/
theorem tab_close {real : Bool} {t o tag : Nat} (h : TabReach real n s) (ht : t < n) (hp : s.pos = fun _ => .out)
    (hc : s.comm = .idle) (hl : s.lock = none) (ho : s.tag o = some tag) :
    TabReach real n { s with comm := .erase tag, lock := some t, obj := upd s.obj o .dead, tag := upd s.tag o none } := by
  have e : ∀ f : Nat → TabPos, ∀ p q, upd (upd f t p) t q = upd f t q := by
    intro f p q
    funext x
    simp only [upd_apply]
    split <;> rfl
  have h1 := h.step (.call (.unregister s t o tag ht (by rw [hp]) ho fun u => by rw [hp]; nofun))
  have h2 := h1.step (.run (.lockUnreg _ t o tag (upd_self ..) fun _ => hl))
  have h3 := h2.step (.run (.recvUnreg _ t o tag (upd_self ..) hc))
  have h4 := h3.step (.run (.returned _ t o (upd_self ..)))
  simp only [e] at h4
  have e2 : upd s.pos t .out = s.pos := by
    rw [hp]
    funext x
    simp only [upd_apply]
    split <;> rfl
  rw [e2] at h4
  exact h4

/-- A process with an open grid (object 0, tag 0). -/
def exTabOne : TabState :=
  { TabState.init with
    comm := .idle
    nextTag := 1
    table := upd (fun _ => none) 0 (some 0)
    obj := upd (fun _ => .fresh) 0 .live
    tag := upd (fun _ => none) 0 (some 0) }

theorem exTabOne_reach (real : Bool) (n : Nat) : TabReach real (n + 1) exTabOne := by
  have h := Reachable.init (init := (· = TabState.init)) (step := TabStep real (n + 1)) rfl
  have h := h.step (.call (.start _ (fun _ => rfl) rfl))
  exact (tab_open h (Nat.zero_lt_succ n) rfl rfl rfl rfl).2

/-- ... with two open grids. -/
def exTabTwo : TabState :=
  { exTabOne with
    nextTag := 2
    table := upd exTabOne.table 1 (some 1)
    obj := upd exTabOne.obj 1 .live
    tag := upd exTabOne.tag 1 (some 1) }

theorem exTabTwo_reach (real : Bool) (n : Nat) : TabReach real (n + 1) exTabTwo :=
  (tab_open (exTabOne_reach real n) (Nat.zero_lt_succ n) rfl rfl rfl (by decide)).2

/-- **C91 is violated** by a program with one thread: it closes a grid and then reads another one. `close` has returned, but the
communication thread is still inside of `erase` while `send` searches the table. -/
theorem C91_read_while_erased_violated : ∃ s, TabReach true 1 s ∧ ChangesTable s none ∧ ReadsTable s (some 0) := by
  have h := tab_close (o := 0) (tag := 0) (exTabTwo_reach true 0) (Nat.zero_lt_succ 0) rfl rfl rfl (by decide)
  have h := h.step (.call (.send _ 0 1 1 (Nat.zero_lt_succ 0) rfl (by decide)))
  exact ⟨_, h, ⟨0, rfl⟩, ⟨1, 1, rfl⟩⟩

/-- **C91 is violated**: a message for an open grid arrives while a grid is opened. -/
theorem C91_read_while_inserted_violated : ∃ s, TabReach true 1 s ∧ ChangesTable s (some 0) ∧ ReadsTable s none := by
  have h := (tab_open (o := 1) (exTabOne_reach true 0) (Nat.zero_lt_succ 0) rfl rfl rfl (by decide)).1
  have h := h.step (.call (.message _ 0 rfl))
  exact ⟨_, h, .inl ⟨1, 1, rfl⟩, ⟨0, rfl⟩⟩

/-- **C91 is violated**: `m_lock` is unlocked by the communication thread, which has not locked it (undefined for both
mutex classes). -/
theorem C91_foreign_unlock_violated : ∃ s s', TabReach true 1 s ∧ TabRun true s s' ∧ s.lock = some 0 ∧ s'.lock = none ∧
    s'.pos = s.pos ∧ s.comm = .erase 0 := by
  have h := tab_close (o := 0) (tag := 0) (exTabOne_reach true 0) (Nat.zero_lt_succ 0) rfl rfl rfl (by decide)
  exact ⟨_, _, h, .erased _ 0 rfl, rfl, rfl, rfl, rfl⟩

/-- **C91 is violated** without THREADSAFE (these builds do not compile at this commit, deviation 43): one thread closes a grid and opens another one. -/
theorem C91_noop_violated : ∃ s, TabReach false 1 s ∧ ChangesTable s none ∧ ChangesTable s (some 0) := by
  have h := tab_close (o := 0) (tag := 0) (exTabOne_reach false 0) (Nat.zero_lt_succ 0) rfl rfl rfl (by decide)
  have h := h.step (.call (.register _ 0 1 (Nat.zero_lt_succ 0) rfl nofun (fun _ => rfl) (by decide)))
  have h := h.step (.run (.lockReg _ 0 1 rfl nofun))
  have h := h.step (.run (.reduced _ 0 1 1 rfl (by decide)))
  exact ⟨_, h, ⟨0, rfl⟩, .inl ⟨1, 1, rfl⟩⟩

/-- The hypotheses are met: a message for the first grid is delivered while the second one is closed by thread 0 and thread 1
uses the first one; and the thread is stopped. -/
example : ∃ s, TabReach true 2 s ∧ s.comm = .call 0 ∧ s.pos 0 = .wantUnreg 1 1 ∧ s.pos 1 = .find 0 0 ∧ s.tag 0 = some 0 := by
  have h := (exTabTwo_reach true 1).step (.call (.send _ 1 0 0 (Nat.lt_succ_self 1) rfl (by decide)))
  have h := h.step (.call (.unregister _ 0 1 1 (Nat.zero_lt_succ 1) rfl (by decide) (by
    intro u
    simp only [upd_apply]
    split <;> nofun)))
  have h := h.step (.call (.message _ 0 rfl))
  have h := h.step (.run (.found _ 0 rfl))
  exact ⟨_, h, rfl, rfl, rfl, rfl⟩

example : ∃ s, TabReach true 1 s ∧ s.pos 0 = .join ∧ s.obj 0 = .dead := by
  have h := tab_close (o := 0) (tag := 0) (exTabOne_reach true 0) (Nat.zero_lt_succ 0) rfl rfl rfl (by decide)
  have h := h.step (.run (.erased _ 0 rfl))
  have h := h.step (.call (.stop _ 0 (Nat.zero_lt_succ 0) (fun _ => rfl) nofun (by
    intro o
    by_cases e : o = 0 <;> simp [upd_apply, exTabOne, e])))
  have h := h.step (.run (.lockStop _ 0 rfl fun _ => rfl))
  have h := h.step (.run (.recvExit _ 0 rfl rfl))
  exact ⟨_, h, rfl, rfl⟩

end Asagi.Props
