import Verif.Model.CommLife
/-
What a program did so far with the communication thread, told from its calls alone.
-/
namespace Asagi.Spec
open Asagi

/-- On process `r` the thread was never started, or not again after the last stop. -/
def NotStarted (h : List LifeOp) (r : Nat) : Prop :=
  ∃ a b, h = a ++ b ∧ (a = [] ∨ ∃ a', a = a' ++ [.stop r]) ∧
    ∀ comm created, LifeOp.start comm created ∈ b → r ∉ comm

/-- Process `r` has opened the grid `g` and not closed it since. -/
def OpenOn (h : List LifeOp) (g r : Nat) : Prop :=
  ∃ a comm b, h = a ++ .open g comm :: b ∧ r ∈ comm ∧ LifeOp.close g r ∉ b

/-- A process stops its thread only after it has closed all its grids (02_usage.h 189-191). -/
def Orderly (h : List LifeOp) : Prop :=
  ∀ a r b, h = a ++ .stop r :: b → ∀ g, ¬ OpenOn a g r

/-- The number of receivers that were registered. -/
def opens (h : List LifeOp) : Nat :=
  h.countP fun op => match op with
    | .open _ _ => true
    | _ => false

end Asagi.Spec
