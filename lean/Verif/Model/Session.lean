import Verif.Model.OpenArgs
import Verif.Model.FullDistConc
/-
One level of a grid from the first `setParam` to the getters: the parameters (`Verif.Model.Params`),
the selection of the implementation (grid.cpp 278-457), `open` (`Verif.Model.OpenArgs`) and the getters
of the selected implementation, executed by any number of threads.
-/
namespace Asagi
variable {α : Type}

/-- Everything that can differ between two programs that read the same variable: the calls of
`setParam`, the build, the machine, the threads and the contents of uninitialised memory.
grid.cpp 193-249, CMakeLists.txt 48-57. -/
structure Session (α : Type) where
  build : Build
  /-- build without THREADSAFE: threads/noopmutex.h -/
  noop : Bool
  /-- ROUND_ROBIN, CMakeLists.txt -/
  roundRobin : Bool
  /-- the calls of `setParam` before `open`: name, value, level -/
  calls : List (Str × Str × Nat)
  /-- the size of the communicator, `m_comm.size()` -/
  commSize : Nat
  /-- `m_numa.totalDomains()` -/
  domains : Nat
  /-- the domain of each thread (global number) -/
  dom : Nat → Nat
  /-- basic or compound type -/
  basic : Bool
  level : Nat
  junk : BlockedState
  zero : α

/-- The parameters of the grid. grid.cpp 193-212. -/
def Session.params (S : Session α) : Params := setParams S.calls

/-- `Grid::open` for the file with the arguments of grid.cpp 226-240: the implementation and the level.
`none`: an error (the variable does not exist, the cache size is 0, grid.cpp 233-234, see
`initContainers`), or undefined. The storage of the level is opened in `Session.Returns`. -/
def Session.open (S : Session α) (fp : Fp) (file : VarFile α) : Option (Selection × LevelCfg α) := do
  let args := openArgs S.params S.level
  let sel ← initContainers S.build S.params S.commSize S.domains
  if args.cacheSize = 0 then none
  else
    let (nc, val) ← file args.varName
    let cfg ← openLevel fp (cellCentered S.params) nc val S.basic args.blockSizes
      (timeDimension S.params) S.junk
    pure (sel, cfg)

/-- The distribution of the blocks. With MPI communication switched off each process is on its own.
blocked.h 182-290, grid.cpp 278-457. -/
def Session.dist (S : Session α) (sel : Selection) : Dist := ⟨sel.ranks, S.domains, S.roundRobin⟩

/-- The distributed FULL level, fulldist.h 202-228. -/
def Session.full (S : Session α) (sel : Selection) : FullCfg α :=
  { ds := S.dist sel, trans := sel.type.numa, hasMpi := decide (sel.type.mpi ≠ .no),
    cacheSize := (openArgs S.params S.level).cacheSize,
    handDiff := (openArgs S.params S.level).handSpread, zero := S.zero, dom := S.dom, noop := S.noop }

/-- The MPI part of a CACHE level, cachedist.h 217-239. -/
def MpiTrans.mode : MpiTrans → DistMode
  | .no => .none
  | .thread => .thread
  | .window => .window

/-- The CACHE level, cachedist.h 217-239, cache.h 193. -/
def Session.cache (S : Session α) (sel : Selection) (c : LevelCfg α) : SharedCfg α :=
  { domains := S.domains, cacheSize := (openArgs S.params S.level).cacheSize,
    handDiff := (openArgs S.params S.level).handSpread, zero := S.zero, dom := S.dom,
    home := fun b => (S.dist sel).blockRank c.totalBlocks b, mode := sel.type.mpi.mode,
    numa := decide (sel.type.numa ≠ .no), noop := S.noop }

end Asagi
