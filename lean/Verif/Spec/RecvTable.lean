import Verif.Model.RecvTable
/-
What is said about the table of receivers of the communication thread (C91). `none` is the communication thread, `some t` a
thread of the program.
-/
namespace Asagi.Spec
open Asagi

/-- The thread is changing the table. -/
def ChangesTable (s : TabState) : Option Nat → Prop
  | none => ∃ tag, s.comm = .erase tag
  | some t => (∃ o tag, s.pos t = .insert o tag) ∨ s.pos t = .join

/-- The thread is reading the table. -/
def ReadsTable (s : TabState) : Option Nat → Prop
  | none => ∃ tag, s.comm = .find tag
  | some t => ∃ o tag, s.pos t = .find o tag

/-- Two threads use the table at the same time and one of them changes it. -/
def TableRace (s : TabState) : Prop :=
  ∃ a b, a ≠ b ∧ ChangesTable s a ∧ (ReadsTable s b ∨ ChangesTable s b)

/-- The thread is inside of a function of the library. -/
def InCall (s : TabState) (t : Nat) : Prop := s.pos t ≠ .out

/-- `k` steps without new calls and messages. -/
inductive RunsFor (real : Bool) : Nat → TabState → TabState → Prop
  | zero {s} : RunsFor real 0 s s
  | succ {k s u v} : RunsFor real k s u → TabRun real u v → RunsFor real (k + 1) s v

end Asagi.Spec
