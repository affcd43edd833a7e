import Verif.Model.OpenSync
import Verif.Spec.OpenThreads
/-
Vocabulary for the statements about threads that open a grid together, with the implemented barriers.
-/
namespace Asagi.Spec

/-- Where a thread is, in terms of arrivals: a thread that is counted by the `Sync` object has arrived, a thread that
has not yet called it or still waits for the end of the previous use has not. -/
def arrivedPc (P : OpenParams) (ob : Nat → Nat → Nat) (s : OSState) (t : Nat) : OpenPc :=
  match s.pc t with
  | .start => .start
  | .quit => .quit
  | .reg => if (s.th.pc t).inside then .waitReg else .start
  | .ops i => if (P.plan (s.call t))[i]? = some .sync ∧
      ((s.obj (ob (s.call t) i)).pc (s.domainId t)).inside = true then .waitSync i else .ops i
  | .final e => if (s.th.pc t).inside then .waitFinal else .toFinal e

/-- Two states agree in everything but the means of waiting: same registrations, same numbers of completed calls with
the same results, all threads at the same place. -/
structure SameOpen (P : OpenParams) (ob : Nat → Nat → Nat) (s : OSState) (a : OpenState) : Prop where
  numa : a.numa = s.numa
  initialised : a.initialised = s.initialised
  reg : a.reg = s.reg
  call : a.call = s.call
  res : a.res = s.res
  pc : ∀ t, a.pc t = arrivedPc P ob s t

/-- The thread has returned from call `k` with the result `e`. -/
def OSReturnedWith (s : OSState) (t k : Nat) (e : Error) : Prop := s.res t k = some (some e)

/-- The thread has returned from call `k`. -/
def OSReturned (s : OSState) (t k : Nat) : Prop := (s.res t k).isSome

end Asagi.Spec
