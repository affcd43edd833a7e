import Verif.Spec.RecvTable
import Mathlib.Algebra.BigOperators.Group.Finset.Basic
import Mathlib.Tactic.ByContra
namespace Asagi
open Spec

/-- The thread has locked m_lock and unlocks it itself, or has not yet handed it over. -/
def TabPos.holds : TabPos → Bool
  | .reduce _ | .insert .. | .unreg .. | .stop | .join => true
  | _ => false

/-- The object that is opened or closed. -/
def TabPos.life : TabPos → Option Nat
  | .wantReg o | .reduce o | .insert o _ | .wantUnreg o _ | .unreg o _ | .unregDone o => some o
  | _ => none

/-- The object is opened. -/
def TabPos.opening : TabPos → Option Nat
  | .wantReg o | .reduce o | .insert o _ => some o
  | _ => none

/-- The entry that is removed. -/
def TabPos.closing : TabPos → Option (Nat × Nat)
  | .wantUnreg o tag | .unreg o tag => some (o, tag)
  | _ => none

theorem opening_life (p : TabPos) (o : Nat) (h : p.opening = some o) : p.life = some o := by cases p <;> cases h <;> rfl

theorem closing_life (p : TabPos) (o tag : Nat) (h : p.closing = some (o, tag)) : p.life = some o := by
  cases p <;> cases h <;> rfl

structure TabInv (n : Nat) (s : TabState) : Prop where
  bound : ∀ t, n ≤ t → s.pos t = .out
  own : ∀ u, (s.pos u).holds = true → s.lock = some u
  owner : ∀ u, s.lock = some u → (s.pos u).holds = true ∨ ∃ tag, s.comm = .erase tag
  handed : ∀ tag, s.comm = .erase tag → ∃ u, s.lock = some u ∧ (s.pos u).holds = false
  mem : ∀ tag o, s.table tag = some o → s.obj o = .live ∧ (∀ u, s.pos u ≠ .unregDone o) ∨ s.comm = .erase tag
  called : ∀ o, s.comm = .call o → ∃ tag, s.table tag = some o
  tags : ∀ tag o, s.table tag = some o → tag < s.nextTag
  ins : ∀ u o tag, s.pos u = .insert o tag → tag < s.nextTag ∧ ∀ o, s.table tag ≠ some o
  opened : ∀ o tag, s.tag o = some tag → s.table tag = some o
  find : ∀ u o tag, s.pos u = .find o tag → s.tag o = some tag
  opening : ∀ u o, (s.pos u).opening = some o → ∀ tag, s.table tag ≠ some o
  closing : ∀ u o tag, (s.pos u).closing = some (o, tag) → s.table tag = some o
  life : ∀ u o, (s.pos u).life = some o → s.obj o = .live ∧ s.tag o = none
  one : ∀ u v o, (s.pos u).life = some o → (s.pos v).life = some o → u = v
  inj : ∀ a b o, s.table a = some o → s.table b = some o → a = b
  stop : ∀ u, (s.pos u).stopping = true → (∀ v, v ≠ u → s.pos v = .out) ∧ ∀ o, s.tag o = none
  exited : s.comm = .exited → ∀ u, s.pos u = .out ∨ s.pos u = .join
  joined : ∀ u, s.pos u = .join → s.comm = .exited
  kept : ∀ tag o, s.table tag = some o →
    s.tag o = some tag ∨ (∃ u, (s.pos u).closing = some (o, tag)) ∨ s.comm = .erase tag
  fresh : ∀ o, s.obj o = .fresh → (∀ tag, s.table tag ≠ some o) ∧ s.tag o = none
  empty : s.comm = .exited → ∀ tag o, s.table tag ≠ some o
  erasing : ∀ tag, s.comm = .erase tag → (∀ o, s.tag o ≠ some tag) ∧ ∀ u o, (s.pos u).closing ≠ some (o, tag)

theorem tab_init (n : Nat) : TabInv n TabState.init := by
  constructor <;> simp [TabState.init, TabPos.holds, TabPos.life, TabPos.opening, TabPos.closing, TabPos.stopping]

/-! ### The invariant -/

theorem tab_bound {n : Nat} {s s' : TabState} (h : TabInv n s) (hs : TabStep true n s s') :
    ∀ t, n ≤ t → s'.pos t = .out := by
  have h_bound := h.bound
  clear h
  have h_ol := opening_life
  have h_cl := closing_life
  rcases hs with hs | hs <;> cases hs <;> simp only [upd_apply] <;>
    grind [TabPos.holds, TabPos.life, TabPos.opening, TabPos.closing, TabPos.stopping, TabState.free]

theorem tab_own {n : Nat} {s s' : TabState} (h : TabInv n s) (hs : TabStep true n s s') :
    ∀ u, (s'.pos u).holds = true → s'.lock = some u := by
  have h_own := h.own
  have h_owner := h.owner
  have h_handed := h.handed
  clear h
  have h_ol := opening_life
  have h_cl := closing_life
  rcases hs with hs | hs <;> cases hs <;> simp only [upd_apply] <;>
    grind [TabPos.holds, TabPos.life, TabPos.opening, TabPos.closing, TabPos.stopping, TabState.free]

theorem tab_owner {n : Nat} {s s' : TabState} (h : TabInv n s) (hs : TabStep true n s s') :
    ∀ u, s'.lock = some u → (s'.pos u).holds = true ∨ ∃ tag, s'.comm = .erase tag := by
  have h_own := h.own
  have h_owner := h.owner
  have h_handed := h.handed
  clear h
  have h_ol := opening_life
  have h_cl := closing_life
  rcases hs with hs | hs <;> cases hs <;> simp only [upd_apply] <;>
    grind [TabPos.holds, TabPos.life, TabPos.opening, TabPos.closing, TabPos.stopping, TabState.free]

theorem tab_handed {n : Nat} {s s' : TabState} (h : TabInv n s) (hs : TabStep true n s s') :
    ∀ tag, s'.comm = .erase tag → ∃ u, s'.lock = some u ∧ (s'.pos u).holds = false := by
  have h_own := h.own
  have h_owner := h.owner
  have h_handed := h.handed
  clear h
  have h_ol := opening_life
  have h_cl := closing_life
  rcases hs with hs | hs <;> cases hs <;> simp only [upd_apply] <;>
    grind [TabPos.holds, TabPos.life, TabPos.opening, TabPos.closing, TabPos.stopping, TabState.free]

theorem tab_mem {n : Nat} {s s' : TabState} (h : TabInv n s) (hs : TabStep true n s s') :
    ∀ tag o, s'.table tag = some o → s'.obj o = .live ∧ (∀ u, s'.pos u ≠ .unregDone o) ∨ s'.comm = .erase tag := by
  have h_mem := h.mem
  have h_opening := h.opening
  have h_closing := h.closing
  have h_life := h.life
  have h_one := h.one
  have h_inj := h.inj
  have h_erasing := h.erasing
  have h_opened := h.opened
  clear h
  have h_ol := opening_life
  have h_cl := closing_life
  rcases hs with hs | hs <;> cases hs <;> simp only [upd_apply] <;>
    grind [TabPos.holds, TabPos.life, TabPos.opening, TabPos.closing, TabPos.stopping, TabState.free]

theorem tab_called {n : Nat} {s s' : TabState} (h : TabInv n s) (hs : TabStep true n s s') :
    ∀ o, s'.comm = .call o → ∃ tag, s'.table tag = some o := by
  have h_called := h.called
  have h_ins := h.ins
  have h_erasing := h.erasing
  have h_joined := h.joined
  clear h
  have h_ol := opening_life
  have h_cl := closing_life
  rcases hs with hs | hs <;> cases hs <;> simp only [upd_apply] <;>
    grind [TabPos.holds, TabPos.life, TabPos.opening, TabPos.closing, TabPos.stopping, TabState.free]

theorem tab_tags {n : Nat} {s s' : TabState} (h : TabInv n s) (hs : TabStep true n s s') :
    ∀ tag o, s'.table tag = some o → tag < s'.nextTag := by
  have h_tags := h.tags
  have h_ins := h.ins
  clear h
  have h_ol := opening_life
  have h_cl := closing_life
  rcases hs with hs | hs <;> cases hs <;> simp only [upd_apply] <;>
    grind [TabPos.holds, TabPos.life, TabPos.opening, TabPos.closing, TabPos.stopping, TabState.free]

theorem tab_ins {n : Nat} {s s' : TabState} (h : TabInv n s) (hs : TabStep true n s s') :
    ∀ u o tag, s'.pos u = .insert o tag → tag < s'.nextTag ∧ ∀ o, s'.table tag ≠ some o := by
  have h_ins := h.ins
  have h_tags := h.tags
  have h_own := h.own
  clear h
  have h_ol := opening_life
  have h_cl := closing_life
  rcases hs with hs | hs <;> cases hs <;> simp only [upd_apply] <;>
    grind [TabPos.holds, TabPos.life, TabPos.opening, TabPos.closing, TabPos.stopping, TabState.free]

theorem tab_opened {n : Nat} {s s' : TabState} (h : TabInv n s) (hs : TabStep true n s s') :
    ∀ o tag, s'.tag o = some tag → s'.table tag = some o := by
  have h_opened := h.opened
  have h_stop := h.stop
  have h_ins := h.ins
  have h_erasing := h.erasing
  have h_inj := h.inj
  have h_closing := h.closing
  have h_life := h.life
  have h_one := h.one
  clear h
  have h_ol := opening_life
  have h_cl := closing_life
  rcases hs with hs | hs <;> cases hs <;> simp only [upd_apply] <;>
    grind [TabPos.holds, TabPos.life, TabPos.opening, TabPos.closing, TabPos.stopping, TabState.free]

theorem tab_find {n : Nat} {s s' : TabState} (h : TabInv n s) (hs : TabStep true n s s') :
    ∀ u o tag, s'.pos u = .find o tag → s'.tag o = some tag := by
  have h_find := h.find
  have h_bound := h.bound
  have h_life := h.life
  have h_opened := h.opened
  clear h
  have h_ol := opening_life
  have h_cl := closing_life
  rcases hs with hs | hs <;> cases hs <;> simp only [upd_apply] <;>
    grind [TabPos.holds, TabPos.life, TabPos.opening, TabPos.closing, TabPos.stopping, TabState.free]

theorem tab_opening {n : Nat} {s s' : TabState} (h : TabInv n s) (hs : TabStep true n s s') :
    ∀ u o, (s'.pos u).opening = some o → ∀ tag, s'.table tag ≠ some o := by
  have h_opening := h.opening
  have h_fresh := h.fresh
  have h_one := h.one
  have h_life := h.life
  have h_opened := h.opened
  clear h
  have h_ol := opening_life
  have h_cl := closing_life
  rcases hs with hs | hs <;> cases hs <;> simp only [upd_apply] <;>
    grind [TabPos.holds, TabPos.life, TabPos.opening, TabPos.closing, TabPos.stopping, TabState.free]

theorem tab_closing {n : Nat} {s s' : TabState} (h : TabInv n s) (hs : TabStep true n s s') :
    ∀ u o tag, (s'.pos u).closing = some (o, tag) → s'.table tag = some o := by
  have h_closing := h.closing
  have h_stop := h.stop
  have h_opened := h.opened
  have h_ins := h.ins
  have h_one := h.one
  have h_erasing := h.erasing
  have h_inj := h.inj
  have h_life := h.life
  have h_bound := h.bound
  clear h
  have h_ol := opening_life
  have h_cl := closing_life
  rcases hs with hs | hs <;> cases hs <;> simp only [upd_apply] <;>
    grind [TabPos.holds, TabPos.life, TabPos.opening, TabPos.closing, TabPos.stopping, TabState.free]

theorem tab_life {n : Nat} {s s' : TabState} (h : TabInv n s) (hs : TabStep true n s s') :
    ∀ u o, (s'.pos u).life = some o → s'.obj o = .live ∧ s'.tag o = none := by
  have h_life := h.life
  have h_one := h.one
  have h_opened := h.opened
  have h_mem := h.mem
  have h_erasing := h.erasing
  have h_fresh := h.fresh
  have h_opening := h.opening
  clear h
  have h_ol := opening_life
  have h_cl := closing_life
  rcases hs with hs | hs <;> cases hs <;> simp only [upd_apply] <;>
    grind [TabPos.holds, TabPos.life, TabPos.opening, TabPos.closing, TabPos.stopping, TabState.free]

theorem tab_one {n : Nat} {s s' : TabState} (h : TabInv n s) (hs : TabStep true n s s') :
    ∀ u v o, (s'.pos u).life = some o → (s'.pos v).life = some o → u = v := by
  have h_one := h.one
  have h_life := h.life
  have h_opened := h.opened
  have h_fresh := h.fresh
  clear h
  have h_ol := opening_life
  have h_cl := closing_life
  rcases hs with hs | hs <;> cases hs <;> simp only [upd_apply] <;>
    grind [TabPos.holds, TabPos.life, TabPos.opening, TabPos.closing, TabPos.stopping, TabState.free]

theorem tab_inj {n : Nat} {s s' : TabState} (h : TabInv n s) (hs : TabStep true n s s') :
    ∀ a b o, s'.table a = some o → s'.table b = some o → a = b := by
  have h_inj := h.inj
  have h_opening := h.opening
  clear h
  have h_ol := opening_life
  have h_cl := closing_life
  rcases hs with hs | hs <;> cases hs <;> simp only [upd_apply] <;>
    grind [TabPos.holds, TabPos.life, TabPos.opening, TabPos.closing, TabPos.stopping, TabState.free]

theorem tab_stop {n : Nat} {s s' : TabState} (h : TabInv n s) (hs : TabStep true n s s') :
    ∀ u, (s'.pos u).stopping = true → (∀ v, v ≠ u → s'.pos v = .out) ∧ ∀ o, s'.tag o = none := by
  have h_stop := h.stop
  have h_exited := h.exited
  have h_joined := h.joined
  have h_bound := h.bound
  clear h
  have h_ol := opening_life
  have h_cl := closing_life
  rcases hs with hs | hs <;> cases hs <;> simp only [upd_apply] <;>
    grind [TabPos.holds, TabPos.life, TabPos.opening, TabPos.closing, TabPos.stopping, TabState.free]

theorem tab_exited {n : Nat} {s s' : TabState} (h : TabInv n s) (hs : TabStep true n s s') :
    s'.comm = .exited → ∀ u, s'.pos u = .out ∨ s'.pos u = .join := by
  have h_exited := h.exited
  have h_stop := h.stop
  have h_empty := h.empty
  have h_opened := h.opened
  clear h
  have h_ol := opening_life
  have h_cl := closing_life
  rcases hs with hs | hs <;> cases hs <;> simp only [upd_apply] <;>
    grind [TabPos.holds, TabPos.life, TabPos.opening, TabPos.closing, TabPos.stopping, TabState.free]

theorem tab_joined {n : Nat} {s s' : TabState} (h : TabInv n s) (hs : TabStep true n s s') :
    ∀ u, s'.pos u = .join → s'.comm = .exited := by
  have h_joined := h.joined
  have h_exited := h.exited
  have h_stop := h.stop
  clear h
  have h_ol := opening_life
  have h_cl := closing_life
  rcases hs with hs | hs <;> cases hs <;> simp only [upd_apply] <;>
    grind [TabPos.holds, TabPos.life, TabPos.opening, TabPos.closing, TabPos.stopping, TabState.free]

theorem tab_kept {n : Nat} {s s' : TabState} (h : TabInv n s) (hs : TabStep true n s s') :
    ∀ tag o, s'.table tag = some o →
    s'.tag o = some tag ∨ (∃ u, (s'.pos u).closing = some (o, tag)) ∨ s'.comm = .erase tag := by
  have h_kept := h.kept
  have h_opened := h.opened
  have h_closing := h.closing
  have h_life := h.life
  clear h
  have h_ol := opening_life
  have h_cl := closing_life
  rcases hs with hs | hs <;> cases hs <;> simp only [upd_apply] <;>
    grind [TabPos.holds, TabPos.life, TabPos.opening, TabPos.closing, TabPos.stopping, TabState.free]

theorem tab_fresh {n : Nat} {s s' : TabState} (h : TabInv n s) (hs : TabStep true n s s') :
    ∀ o, s'.obj o = .fresh → (∀ tag, s'.table tag ≠ some o) ∧ s'.tag o = none := by
  have h_fresh := h.fresh
  have h_life := h.life
  have h_opening := h.opening
  clear h
  have h_ol := opening_life
  have h_cl := closing_life
  rcases hs with hs | hs <;> cases hs <;> simp only [upd_apply] <;>
    grind [TabPos.holds, TabPos.life, TabPos.opening, TabPos.closing, TabPos.stopping, TabState.free]

theorem tab_empty {n : Nat} {s s' : TabState} (h : TabInv n s) (hs : TabStep true n s s') :
    s'.comm = .exited → ∀ tag o, s'.table tag ≠ some o := by
  have h_empty := h.empty
  have h_kept := h.kept
  have h_stop := h.stop
  have h_exited := h.exited
  have h_joined := h.joined
  have h_opened := h.opened
  have h_closing := h.closing
  have h_own := h.own
  clear h
  have h_ol := opening_life
  have h_cl := closing_life
  rcases hs with hs | hs <;> cases hs <;> simp only [upd_apply] <;>
    grind [TabPos.holds, TabPos.life, TabPos.opening, TabPos.closing, TabPos.stopping, TabState.free]

theorem tab_erasing {n : Nat} {s s' : TabState} (h : TabInv n s) (hs : TabStep true n s s') :
    ∀ tag, s'.comm = .erase tag → (∀ o, s'.tag o ≠ some tag) ∧ ∀ u o, (s'.pos u).closing ≠ some (o, tag) := by
  have h_erasing := h.erasing
  have h_own := h.own
  have h_handed := h.handed
  have h_opened := h.opened
  have h_closing := h.closing
  have h_life := h.life
  have h_one := h.one
  have h_inj := h.inj
  have h_ins := h.ins
  clear h
  have h_ol := opening_life
  have h_cl := closing_life
  rcases hs with hs | hs <;> cases hs
  case call.unregister t o tag ht hp htag hf =>
    refine fun a ha => ⟨fun b hb => ?_, fun u b hu => ?_⟩
    · simp only [upd_apply] at hb
      split at hb
      · cases hb
      · exact (h_erasing a ha).1 b hb
    · simp only [upd_apply] at hu
      split at hu
      · cases hu
        exact (h_erasing _ ha).1 o htag
      · exact (h_erasing a ha).2 u b hu
  all_goals
    simp only [upd_apply]
    grind [TabPos.holds, TabPos.life, TabPos.opening, TabPos.closing, TabPos.stopping, TabState.free]

theorem tab_step {n : Nat} {s s' : TabState} (h : TabInv n s) (hs : TabStep true n s s') : TabInv n s' :=
  ⟨tab_bound h hs, tab_own h hs, tab_owner h hs, tab_handed h hs, tab_mem h hs, tab_called h hs, tab_tags h hs, tab_ins h hs, tab_opened h hs, tab_find h hs, tab_opening h hs, tab_closing h hs, tab_life h hs, tab_one h hs, tab_inj h hs, tab_stop h hs, tab_exited h hs, tab_joined h hs, tab_kept h hs, tab_fresh h hs, tab_empty h hs, tab_erasing h hs⟩

theorem tab_inv {n : Nat} {s : TabState} (h : TabReach true n s) : TabInv n s := by
  induction h with
  | init h => subst h; exact tab_init n
  | step _ hs ih => exact tab_step ih hs

/-! ### Every call returns -/

/-- Steps of a thread until it has returned. -/
def TabPos.left : TabPos → Nat
  | .out => 0
  | .wantReg _ => 3
  | .reduce _ => 2
  | .insert .. => 1
  | .wantUnreg .. => 4
  | .unreg .. => 3
  | .unregDone _ => 1
  | .find .. => 2
  | .post => 1
  | .wantStop => 4
  | .stop => 3
  | .join => 1

def TabComm.left : TabComm → Nat
  | .find _ => 2
  | .call _ => 1
  | .erase _ => 1
  | .idle => 0
  | .exited => 0

def TabState.left (n : Nat) (s : TabState) : Nat := (∑ u ∈ Finset.range n, (s.pos u).left) + s.comm.left

theorem left_upd (n : Nat) (f : Nat → TabPos) (t : Nat) (ht : t < n) (p : TabPos) :
    (∑ u ∈ Finset.range n, (upd f t p u).left) + (f t).left = (∑ u ∈ Finset.range n, (f u).left) + p.left := by
  have hm : t ∈ Finset.range n := Finset.mem_range.2 ht
  rw [← Finset.add_sum_erase _ _ hm, ← Finset.add_sum_erase (Finset.range n) (fun u => (f u).left) hm]
  have : ∑ x ∈ (Finset.range n).erase t, (upd f t p x).left = ∑ x ∈ (Finset.range n).erase t, (f x).left := by
    apply Finset.sum_congr rfl
    intro x hx
    rw [upd_ne _ _ (Finset.ne_of_mem_erase hx)]
  rw [this, upd_self]
  omega

theorem run_left {n : Nat} {s s' : TabState} (h : TabInv n s) (hs : TabRun true s s') : s'.left n + 1 ≤ s.left n := by
  have lt : ∀ t, s.pos t ≠ .out → t < n := fun t ht => by
    by_contra hn
    exact ht (h.bound t (by omega))
  cases hs with
  | erased tag hc => simp only [TabState.left, hc, TabComm.left]; omega
  | found tag hc =>
    simp only [TabState.left, hc]
    cases s.table tag <;> simp only [TabComm.left] <;> omega
  | called o hc => simp only [TabState.left, hc, TabComm.left]; omega
  | looked t o tag hp =>
    have := left_upd n s.pos t (lt t (by rw [hp]; nofun)) (if s.table tag = none then .out else .post)
    rw [hp] at this
    simp only [TabState.left]
    split at this <;> simp only [TabPos.left, *, if_true, if_false] at this ⊢ <;> omega
  | lockReg t o hp _ =>
    have := left_upd n s.pos t (lt t (by rw [hp]; nofun)) (.reduce o)
    rw [hp] at this
    simp only [TabState.left, TabPos.left] at this ⊢
    omega
  | reduced t o tag hp _ =>
    have := left_upd n s.pos t (lt t (by rw [hp]; nofun)) (.insert o tag)
    rw [hp] at this
    simp only [TabState.left, TabPos.left] at this ⊢
    omega
  | inserted t o tag hp =>
    have := left_upd n s.pos t (lt t (by rw [hp]; nofun)) .out
    rw [hp] at this
    simp only [TabState.left, TabPos.left] at this ⊢
    omega
  | lockUnreg t o tag hp _ =>
    have := left_upd n s.pos t (lt t (by rw [hp]; nofun)) (.unreg o tag)
    rw [hp] at this
    simp only [TabState.left, TabPos.left] at this ⊢
    omega
  | recvUnreg t o tag hp hc =>
    have := left_upd n s.pos t (lt t (by rw [hp]; nofun)) (.unregDone o)
    rw [hp] at this
    simp only [TabState.left, TabPos.left, hc, TabComm.left] at this ⊢
    omega
  | returned t o hp =>
    have := left_upd n s.pos t (lt t (by rw [hp]; nofun)) .out
    rw [hp] at this
    simp only [TabState.left, TabPos.left] at this ⊢
    omega
  | posted t hp =>
    have := left_upd n s.pos t (lt t (by rw [hp]; nofun)) .out
    rw [hp] at this
    simp only [TabState.left, TabPos.left] at this ⊢
    omega
  | lockStop t hp _ =>
    have := left_upd n s.pos t (lt t (by rw [hp]; nofun)) .stop
    rw [hp] at this
    simp only [TabState.left, TabPos.left] at this ⊢
    omega
  | recvExit t hp hc =>
    have := left_upd n s.pos t (lt t (by rw [hp]; nofun)) .join
    rw [hp] at this
    simp only [TabState.left, TabPos.left, hc, TabComm.left] at this ⊢
    omega
  | joined t hp =>
    have := left_upd n s.pos t (lt t (by rw [hp]; nofun)) .out
    rw [hp] at this
    simp only [TabState.left, TabPos.left] at this ⊢
    omega

/-- If a thread has not returned, somebody can continue. -/
theorem tab_progress {n : Nat} {s : TabState} (h : TabInv n s) {t : Nat} (ht : s.pos t ≠ .out) : ∃ s', TabRun true s s' := by
  by_cases hc : s.comm = .idle ∨ s.comm = .exited
  · have ne : ∀ tag, s.comm ≠ .erase tag := by rintro tag e; rw [e] at hc; rcases hc with hc | hc <;> cases hc
    have idle : ∀ u, s.pos u ≠ .out → s.pos u ≠ .join → s.comm = .idle := by
      intro u h1 h2
      rcases hc with hc | hc
      · exact hc
      · rcases h.exited hc u with e | e
        · exact absurd e h1
        · exact absurd e h2
    have holder : ∀ u, (s.pos u).holds = true → ∃ s', TabRun true s s' := by
      intro u hu
      cases hp : s.pos u with
      | reduce o => exact ⟨_, .reduced s u o s.nextTag hp le_rfl⟩
      | insert o tag => exact ⟨_, .inserted s u o tag hp⟩
      | unreg o tag => exact ⟨_, .recvUnreg s u o tag hp (idle u (by rw [hp]; nofun) (by rw [hp]; nofun))⟩
      | stop => exact ⟨_, .recvExit s u hp (idle u (by rw [hp]; nofun) (by rw [hp]; nofun))⟩
      | join => exact ⟨_, .joined s u hp⟩
      | _ => rw [hp] at hu; cases hu
    have locked : (s.lock = none → ∃ s', TabRun true s s') → ∃ s', TabRun true s s' := by
      intro hl
      cases e : s.lock with
      | none => exact hl e
      | some u =>
        rcases h.owner u e with hu | ⟨tag, hu⟩
        · exact holder u hu
        · exact absurd hu (ne tag)
    cases hp : s.pos t with
    | out => exact absurd hp ht
    | wantReg o => exact locked fun e => ⟨_, .lockReg s t o hp fun _ => e⟩
    | wantUnreg o tag => exact locked fun e => ⟨_, .lockUnreg s t o tag hp fun _ => e⟩
    | wantStop => exact locked fun e => ⟨_, .lockStop s t hp fun _ => e⟩
    | unregDone o => exact ⟨_, .returned s t o hp⟩
    | find o tag => exact ⟨_, .looked s t o tag hp⟩
    | post => exact ⟨_, .posted s t hp⟩
    | _ => exact holder t (by rw [hp]; rfl)
  · cases e : s.comm with
    | idle => exact absurd (.inl e) hc
    | exited => exact absurd (.inr e) hc
    | find tag => exact ⟨_, .found s tag e⟩
    | call o => exact ⟨_, .called s o e⟩
    | erase tag => exact ⟨_, .erased s tag e⟩

theorem runs_reach {n k : Nat} {s u : TabState} (h : TabReach true n s) (hk : RunsFor true k s u) : TabReach true n u := by
  induction hk with
  | zero => exact h
  | succ _ hs ih => exact .step (ih h) (.run hs)

theorem runs_left {n k : Nat} {s u : TabState} (h : TabReach true n s) (hk : RunsFor true k s u) :
    u.left n + k ≤ s.left n := by
  induction hk with
  | zero => exact le_rfl
  | succ hr hs ih =>
    have := run_left (tab_inv (runs_reach h hr)) hs
    have := ih h
    omega

end Asagi
