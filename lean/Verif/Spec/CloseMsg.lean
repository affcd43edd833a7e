import Verif.Model.CloseMsg
import Verif.Spec.MsgCache
/-
Specification vocabulary for closing a cached grid with the communication thread.
-/
namespace Asagi.Spec
open Asagi
variable {β : Type}

/-- The communication thread of process `r` serves a request for a block: it uses the list of the
caches of the process, or a cache and the type of the values. -/
def Serving (ms : MsgSt β) (r : Nat) : Prop :=
  ∃ src b i, ms.st.pc (.comm r) = .tryDom src b i ∨ ms.st.pc (.comm r) = .tryCm src b i ∨
    ∃ s k buf, ms.st.pc (.comm r) = .send src b i s k buf

/-- The communication thread of process `r` is inside of a function of the grid. -/
def CommInside (ms : MsgSt β) (r : Nat) : Prop := ms.st.pc (.comm r) ≠ .idle ∨ ms.wait r ≠ none

/-- The communication thread of process `r` takes message `m` of process `src` in this step. -/
def Takes (s s' : CloseSt β) (src r : Nat) (m : Msg) : Prop :=
  ∃ rest, s.ms.wire src r = m :: rest ∧ s'.ms.wire src r = rest

/-- `n` steps. -/
inductive CloseRun (C : MsgParams β) (procs : Nat) (early : Bool) :
    Nat → CloseSt β → CloseSt β → Prop
  | zero (s) : CloseRun C procs early 0 s s
  | more {n s s1 s2} : CloseRun C procs early n s s1 → CloseMsgStep C procs early s1 s2 →
      CloseRun C procs early (n + 1) s s2

end Asagi.Spec
