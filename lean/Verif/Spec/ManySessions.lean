import Verif.Model.ManySessions
import Verif.Spec.SessionComm
import Verif.Spec.ManyLevels
/-
A program that uses several levels at the same time.
-/
namespace Asagi.Spec
open Asagi Asagi.Props
variable {α : Type}

/-- The level as the implementation that was selected by the parameters, grid.cpp 330-457; `mem0`, `s0`, `buf0`
are the memory that `open` has allocated. -/
inductive LevelImpl (V : OpenLevel α) : LevelSys α → Prop
  /-- FULL on one process and domain -/
  | full (mem0 m : Mem α) : V.sel.type = .FULL →
      mem0.length = domainSize V.c (V.S.dist V.sel) * (V.S.dist V.sel).domains →
      fullOpen V.c (V.S.dist V.sel) 0 mem0 = some m →
      LevelImpl V ((LevelSys.none.withLocal fun _ pos => fullGetAt V.c (V.S.dist V.sel) m 0 pos).only V.team)
  /-- other FULL grids -/
  | fullDist (s0 : FullDist α) : V.sel.type.kind = .full → V.sel.type ≠ .FULL →
      FullOpened V.c (V.S.full V.sel) s0 →
      LevelImpl V ((((V.S.xfer V.K V.sel).sys V.c s0.data
        (decide (V.sel.type.mpi = .window) && V.S.build.threadsafeMpi)).withLocal (V.localRead s0)).only V.team)
  /-- CACHE without communication between processes -/
  | cache : V.sel.type.kind = .cache → V.sel.type.mpi = .no →
      LevelImpl V (((V.c.shared (V.S.cache V.sel V.c)).sys V.c).only V.team)
  /-- CACHE with MPI windows -/
  | cacheWindow : V.sel.type.kind = .cache → V.sel.type.mpi = .window →
      LevelImpl V (((V.S.win V.K V.sel V.c).sys V.c).only V.team)
  /-- PASS_THROUGH: one value for each thread of the process -/
  | passThrough (buf0 : Mem α) : V.sel.type.kind = .passThrough → buf0.length = V.K.total →
      LevelImpl V ((passSys V.c V.K.tid V.team buf0).only V.team)

/-- `n` opened levels that are used at the same time; `rank t` is the process of thread `t`. -/
structure Program (α : Type) where
  n : Nat
  rank : Nat → Nat
  V : Nat → OpenLevel α

/-- All threads in all levels. -/
structure Program.Runs (Q : Program α) (G : Many α) : Prop where
  n : G.n = Q.n
  rank : G.rank = Q.rank
  sys : ∀ i, i < Q.n → LevelImpl (Q.V i) (G.L i)

/-- The variable of a level, and the arithmetic of the machine. -/
structure LevelVar (α : Type) where
  fp : Fp
  file : VarFile α
  name : List Char
  nc : List NcAxis
  val : List Nat → α

/-- The level was configured by calls of `setParam` and opened for the variable, with numbers that the library can
give. `rank t` is the process of thread `t`. -/
structure ProperSession (rank : Nat → Nat) (V : OpenLevel α) (x : LevelVar α) : Prop where
  possible : Possible V.S V.sel
  numbers : ProperNumbers V.S V.K V.sel
  reads : ReadsVariable V.S x.name
  file : x.file x.name = some (x.nc, x.val)
  opened : V.S.open x.fp x.file = some (V.sel, V.c)
  /-- the threads that call getters have taken part in `open` -/
  team : ∀ t, V.team t → V.K.tid t < V.K.total
  /-- with a communicator: the process of a thread has the rank that the library uses -/
  group : ProperRanks V.group
  place : 1 < V.sel.ranks → ∀ t, V.team t → V.group.global (V.S.dom t / V.S.domains) = rank t
  /-- without communication each process has its own level object -/
  alone : V.sel.type.mpi = .no → ∀ t u, V.team t → V.team u → rank t = rank u

/-- Each level was configured and opened for a variable, without the communication thread. -/
structure ProperProgram (Q : Program α) (x : Nat → LevelVar α) : Prop where
  level : ∀ i, i < Q.n → ProperSession Q.rank (Q.V i) (x i)
  noThread : ∀ i, i < Q.n → (Q.V i).sel.type.mpi ≠ .thread
  axes : ∀ i, i < Q.n → (x i).nc ≠ []
  sizes : ∀ i, i < Q.n → SizesExact (x i).fp ((x i).nc.map NcAxis.size)

end Asagi.Spec
