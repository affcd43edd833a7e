import Verif.Model.ManyClose
import Verif.Model.CommSessions
/-
Several grids, each from its `setParam` calls to `close`, with and without the communication thread
(`Verif.Model.ManyClose`, `Verif.Model.CommSessions`). A grid is closed by the processes that have opened it.
-/
namespace Asagi
variable {α : Type}

/-- A level in which some accesses are only a read of memory that nobody writes (`CommSys.withLocal`), fulldist.h
159-163. `rank t` is the process of thread `t`. A process calls `close` after these accesses too have returned
(grid.cpp 177-191), and does not begin one after that. -/
def CloseSys.withLocal (W : CloseSys α) (rank : Nat → Nat) (read : Nat → List Dbl → Option α) : CloseSys α :=
  { W.toCommSys.withLocal read with
    step := fun s s' =>
      (W.step s.1 s'.1 ∧ s'.2 = s.2 ∧ (∀ t, W.busy s'.1 t → s.2 t = none) ∧
        ∀ t, s.2 t ≠ none → W.stage s'.1 (rank t) = 0) ∨
      (s'.1 = s.1 ∧ ∃ t, (¬ W.busy s.1 t ∧ s.2 t = none ∧ W.stage s.1 (rank t) = 0 ∧ ∃ pos v, read t pos = some v ∧
          s'.2 = upd s.2 t (some v)) ∨
        (s.2 t ≠ none ∧ s'.2 = upd s.2 t none))
    sync := fun s s' =>
      (W.sync s.1 s'.1 ∧ s'.2 = s.2 ∧ (∀ t, W.busy s'.1 t → s.2 t = none) ∧
        ∀ t, s.2 t ≠ none → W.stage s'.1 (rank t) = 0) ∨
      (s'.1 = s.1 ∧ ∃ t, (¬ W.busy s.1 t ∧ s.2 t = none ∧ W.stage s.1 (rank t) = 0 ∧ ∃ pos v, read t pos = some v ∧
          s'.2 = upd s.2 t (some v)) ∨
        (s.2 t ≠ none ∧ s'.2 = upd s.2 t none))
    stage := fun s => W.stage s.1
    closed := W.closed
    unreg := W.unreg }

/-- A level whose getters are called by some threads only (`CommSys.only`).
`threadId()` is defined only after numa.cpp 150. -/
def CloseSys.only (W : CloseSys α) (team : Nat → Prop) : CloseSys α :=
  { W.toCommSys.only team with
    stage := W.stage
    closed := W.closed
    unreg := W.unreg }

/-- A level whose communicator has some of the processes only (`CommSys.translate`), commthread.h 266-272, 304-310. The
others have nothing to close: the barrier is on the communicator of the grid, grid.cpp 180-181. -/
def CloseSys.translate (W : CloseSys α) (R : Ranks) : CloseSys α :=
  { W.toCommSys.translate R with
    stage := fun s P => match R.rank P with
      | some r => W.stage s r
      | none => 0
    closed := W.closed
    unreg := W.unreg }

/-- The rank of the process of a thread in the communicator of the level, mpicomm.h 104-119. -/
def OpenLevel.loc (V : OpenLevel α) (t : Nat) : Nat := V.S.dom t / V.S.domains

/-- The processes of the communicator of the level: all of them call `close`, grid.cpp 177-191. -/
def OpenLevel.member (V : OpenLevel α) (P : Nat) : Prop := ∃ r, r < V.sel.ranks ∧ V.group.rank P = some r

end Asagi
