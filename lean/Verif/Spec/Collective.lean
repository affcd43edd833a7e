import Verif.Model.Collective
/-
Which programs make their collective calls in a safe order.
-/
namespace Asagi.Spec
open Asagi

/-- The members of a call are the threads that have it in their program; each call is at most once
in a program. -/
structure CollOk (P : CollParams) (prog : Nat → List Nat) : Prop where
  members : ∀ c t, t ∈ P.members c ↔ t < P.threads ∧ c ∈ prog t
  nodup : ∀ t, (prog t).Nodup

/-- All threads call the collective operations in an order that is the same on all of them. -/
def SameOrder (prog : Nat → List Nat) : Prop :=
  ∃ key : Nat → Nat, ∀ t, (prog t).Pairwise fun a b => key a < key b

/-- On each process one thread only makes the calls that hold the lock. -/
def OneOpener (P : CollParams) (prog : Nat → List Nat) : Prop :=
  ∀ t t', t < P.threads → t' < P.threads → P.rank t = P.rank t' →
    (∃ c ∈ prog t, P.locked c = true) → (∃ c ∈ prog t', P.locked c = true) → t = t'

end Asagi.Spec
