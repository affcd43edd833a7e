import Verif.Model.WinCache
import Verif.Spec.SharedLib
/-
Specification vocabulary for the caches with MPI windows and the implemented lock.
-/
namespace Asagi.Spec
open Asagi
variable {β : Type}

/-- A legal configuration with MPI windows: legal caches, and different threads of a process have
different numbers. -/
structure LegalWin (C : WinParams β) : Prop where
  legal : Legal C.P
  window : C.P.mode = .window
  distinct : ∀ t u, C.tid t < C.total → C.P.rankT t = C.P.rankT u → C.tid t = C.tid u → t = u

/-- A step without a new call of a getter. -/
def WinQuiet (C : WinParams β) (ws ws' : WinState β) : Prop :=
  WinStep C ws ws' ∧ ∀ t, ws.st.pc (.user t) = .idle → ws'.st.pc (.user t) = .idle

/-- `n` steps without new calls. -/
inductive WinQuietRun (C : WinParams β) : Nat → WinState β → WinState β → Prop
  | zero (ws : WinState β) : WinQuietRun C 0 ws ws
  | succ {n : Nat} {ws ws1 ws2 : WinState β} : WinQuietRun C n ws ws1 → WinQuiet C ws1 ws2 →
      WinQuietRun C (n + 1) ws ws2

/-- From `ws` to `ws'` by any steps of any thread, while thread `t` stays inside of one call of a
getter. -/
inductive WinDuring (C : WinParams β) (t : Nat) : WinState β → WinState β → Prop
  | refl (ws) : WinDuring C t ws ws
  | tail {ws ws1 ws2} : WinDuring C t ws ws1 → WinStep C ws1 ws2 → ws2.st.pc (.user t) ≠ .idle →
      WinDuring C t ws ws2

end Asagi.Spec
