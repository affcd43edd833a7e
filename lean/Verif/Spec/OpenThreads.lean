import Mathlib.Data.Finset.Card
import Mathlib.Data.Finset.Image
import Verif.Model.OpenThreads
/-
Vocabulary for the statements about threads that open a grid together.
-/
namespace Asagi.Spec

/-- Position of the first operation of call `k` that fails in domain `d`; the number of operations if none
fails. -/
def stopsAt (P : OpenParams) (k d : Nat) : Nat :=
  ((List.range (P.plan k).length).find? fun i => (P.opError k d i).isSome).getD (P.plan k).length

/-- The result of the initialisation of domain `d` in call `k`: the first error, SUCCESS if there is none. -/
def outcome (P : OpenParams) (k d : Nat) : Error := (P.opError k d (stopsAt P k d)).getD .SUCCESS

/-- Number of NUMA domains the threads run on (one if the detection is off). -/
def domainCount (P : OpenParams) : Nat :=
  ((Finset.range P.n).image fun t => if P.detect then P.node t else 0).card

/-- The domains agree at a broadcast if all of them take part in it or none of them, because it comes after the
first failure of each domain. -/
def Agree (P : OpenParams) (k : Nat) : Prop :=
  ∀ i, (P.plan k)[i]? = some .sync → ∀ d < domainCount P, ∀ d' < domainCount P,
    (i < stopsAt P k d ↔ i < stopsAt P k d')

/-- The thread has returned from call `k` with the result `e`. -/
def ReturnedWith (s : OpenState) (t k : Nat) (e : Error) : Prop := s.res t k = some (some e)

/-- The thread has returned from call `k`. -/
def Returned (s : OpenState) (t k : Nat) : Prop := (s.res t k).isSome

end Asagi.Spec
