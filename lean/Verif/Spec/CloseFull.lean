import Verif.Model.CloseFull
/-
Specification vocabulary for closing a distributed FULL grid.
-/
namespace Asagi.Spec
open Asagi
variable {α : Type}

/-- `n` steps. -/
inductive CloseFullRun (c : LevelCfg α) (X : XferCfg α) (data : Nat → Mem α) (procs : Nat)
    (early : Bool) : Nat → CloseFullSt α → CloseFullSt α → Prop
  | zero (s) : CloseFullRun c X data procs early 0 s s
  | more {n s s1 s2} : CloseFullRun c X data procs early n s s1 →
      CloseFullStep c X data procs early s1 s2 → CloseFullRun c X data procs early (n + 1) s s2

end Asagi.Spec
