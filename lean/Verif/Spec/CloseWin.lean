import Verif.Model.CloseWin
import Verif.Spec.WinCache
/-
Specification vocabulary for closing a cached grid with MPI windows.
-/
namespace Asagi.Spec
open Asagi
variable {β : Type}

/-- No thread of any process uses the windows or the locks of the grid: all getters have returned, no
thread has or waits for a window, the mutex of a process or the lock of a directory entry. -/
structure WindowsUnused (C : WinParams β) (ws : WinState β) : Prop where
  getters : ∀ t, ws.st.pc (.user t) = .idle
  threads : ∀ T, ws.mtx.pc T = .idle
  windows : ∀ r, ws.mtx.win r = none
  mutexes : ∀ r, ws.mtx.proc r = none
  entries : ∀ l, ws.mtx.mem l = -1

/-- `n` steps. -/
inductive CloseWinRun (C : WinParams β) (procs : Nat) : Nat → CloseWinSt β → CloseWinSt β → Prop
  | zero (s) : CloseWinRun C procs 0 s s
  | more {n s s1 s2} : CloseWinRun C procs n s s1 → CloseWinStep C procs s1 s2 →
      CloseWinRun C procs (n + 1) s s2

end Asagi.Spec
