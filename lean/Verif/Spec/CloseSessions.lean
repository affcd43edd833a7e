import Verif.Spec.CommSessions
import Verif.Spec.ManyClose
/-
A program that opens several grids, uses them and closes them.
-/
namespace Asagi.Spec
open Asagi Asagi.Props
variable {α : Type}

/-- The level, with `close`, as the implementation that was selected by the parameters, grid.cpp 177-191, 330-457. If the
level does not communicate, there is a level for each process (`Verif.Model.ManySessions`); all processes of the
communicator close each of them, since the barrier of `close` is for all of them. -/
inductive CloseImpl (V : OpenLevel α) : CloseSys α → Prop
  /-- all but those with the communication thread -/
  | other (L : LevelSys α) : V.sel.type.mpi ≠ .thread → LevelImpl V L →
      CloseImpl V ((L.closeSys V.loc V.sel.ranks).translate V.group)
  /-- FULL with the communication thread -/
  | full (s0 : FullDist α) : V.sel.type.kind = .full → V.sel.type.mpi = .thread →
      FullOpened V.c (V.S.full V.sel) s0 →
      CloseImpl V (((((V.S.xfer V.K V.sel).closeSys V.c s0.data V.sel.ranks).withLocal V.loc
        (V.localRead s0)).only V.team).translate V.group)
  /-- CACHE with the communication thread -/
  | cache : V.sel.type.kind = .cache → V.sel.type.mpi = .thread →
      CloseImpl V ((((V.S.msg V.K V.sel V.c).closeSys V.c V.sel.ranks).only V.team).translate V.group)

/-- All threads and communication threads in all levels, and the processes that close them. -/
structure Program.RunsClose (Q : Program α) (G : ManyClose α) : Prop where
  n : G.n = Q.n
  rank : G.rank = Q.rank
  sys : ∀ i, i < Q.n → CloseImpl (Q.V i) (G.L i)
  /-- the communication thread of a process that has opened the grid knows the level of each registered tag -/
  owner : ∀ i, i < Q.n → ∀ P, (Q.V i).group.rank P ≠ none → ∀ tag, LevelTag (Q.V i) tag → G.owner P tag = some i

/-- As `ProperCommProgram`; also the thread of a grid that was opened by one process only belongs to this process. -/
structure ProperCloseProgram (Q : Program α) (x : Nat → LevelVar α) : Prop extends ProperCommProgram Q x where
  place : ∀ i, i < Q.n → ∀ t, (Q.V i).team t → (Q.V i).group.global ((Q.V i).loc t) = Q.rank t

/-- The grids that a process closes before another grid have smaller numbers, in all processes, and the process has opened
them: the processes can close the grids in one order. -/
def OneOrderFor (Q : Program α) (G : ManyClose α) : Prop :=
  ∀ r j i, G.before r j i → (Q.V i).member r → j < i ∧ G.closes j ∧ (Q.V j).member r

end Asagi.Spec
