import Verif.Model.CommSessions
import Verif.Spec.ManySessions
import Verif.Spec.ManyComm
/-
A program that uses several levels at the same time, with and without the communication thread.
-/
namespace Asagi.Spec
open Asagi Asagi.Props
variable {α : Type}

/-- The level as the implementation that was selected by the parameters, grid.cpp 330-457. -/
inductive CommImpl (V : OpenLevel α) : CommSys α → Prop
  /-- all but those with the communication thread -/
  | other (L : LevelSys α) : V.sel.type.mpi ≠ .thread → LevelImpl V L → CommImpl V L.noComm
  /-- FULL with the communication thread -/
  | full (s0 : FullDist α) : V.sel.type.kind = .full → V.sel.type.mpi = .thread →
      FullOpened V.c (V.S.full V.sel) s0 →
      CommImpl V (((((V.S.xfer V.K V.sel).commSys V.c s0.data).withLocal (V.localRead s0)).translate V.group).only V.team)
  /-- CACHE with the communication thread -/
  | cache : V.sel.type.kind = .cache → V.sel.type.mpi = .thread →
      CommImpl V ((((V.S.msg V.K V.sel V.c).commSys V.c).translate V.group).only V.team)

/-- The tags that a level has registered for its messages to the communication thread. -/
inductive LevelTag (V : OpenLevel α) : Nat → Prop
  | full : V.sel.type.kind = .full → V.sel.type.mpi = .thread → LevelTag V V.K.fullTag
  | info : V.sel.type.kind = .cache → V.sel.type.mpi = .thread → LevelTag V V.K.infoTag
  | xfer : V.sel.type.kind = .cache → V.sel.type.mpi = .thread → LevelTag V V.K.xferTag
  | add : V.sel.type.kind = .cache → V.sel.type.mpi = .thread → LevelTag V V.K.addTag
  | del : V.sel.type.kind = .cache → V.sel.type.mpi = .thread → LevelTag V V.K.delTag

/-- All threads and communication threads in all levels. -/
structure Program.RunsComm (Q : Program α) (G : ManyComm α) : Prop where
  n : G.n = Q.n
  rank : G.rank = Q.rank
  sys : ∀ i, i < Q.n → CommImpl (Q.V i) (G.L i)
  /-- the communication thread of a process that has opened the grid knows the level of each registered tag -/
  owner : ∀ i, i < Q.n → ∀ P, (Q.V i).group.rank P ≠ none → ∀ tag, LevelTag (Q.V i) tag → G.owner P tag = some i

/-- Each level was configured and opened for a variable, by some of the processes; different levels of a process have
registered different tags (C40). -/
structure ProperCommProgram (Q : Program α) (x : Nat → LevelVar α) : Prop where
  level : ∀ i, i < Q.n → ProperSession Q.rank (Q.V i) (x i)
  tags : ∀ i j, i < Q.n → j < Q.n → ∀ P, (Q.V i).group.rank P ≠ none → (Q.V j).group.rank P ≠ none →
    ∀ tag, LevelTag (Q.V i) tag → LevelTag (Q.V j) tag → i = j
  axes : ∀ i, i < Q.n → (x i).nc ≠ []
  sizes : ∀ i, i < Q.n → SizesExact (x i).fp ((x i).nc.map NcAxis.size)

end Asagi.Spec
