import Verif.Model.ManyLevels
/-
Grids are opened and closed by some threads while other threads of the same processes use other grids. The
functions that open and close a grid call MPI, with `mpiLock` (mpi/mpicomm.h 180) or without; some of these calls are
collective. Builds with THREADSAFE_MPI and without (`mpiLock` is a no-op then, mpicomm.h 59-63). Grids without the
communication thread.

Simplifications. A collective operation of MPI returns after all processes have called it (this is the case for
MPI_Barrier; the others may return earlier, which is only better). What `open` does to the level and the barriers of the
threads of one process are not repeated here (C05, C08, C79): one thread of a process makes the MPI calls
of an `open`, the others wait for it outside of MPI.
-/
namespace Asagi
variable {α : Type}

/-- The parts of the functions that open and close grids in which MPI is called.
mpicomm.h 95-180, mpiwinfull.h 95-152, mpiwincache.h 120-228; lines as indicated. -/
inductive MpiSection where
  /-- `MPIComm::init`, mpicomm.h 104-119, called by `setComm` -/
  | dup
  /-- `MPIAlloc::allocate`, mpialloc.h 66-75 -/
  | alloc
  /-- `ArrayType::check`, arraytype.h 105-112, `StructType::check`, structtype.h 156-174 -/
  | makeType
  /-- `MPIWinFull::init`, mpiwinfull.h 131-141 -/
  | createFull
  /-- `MPIWinCache::init`, mpiwincache.h 172-200 -/
  | createCache
  /-- `Grid::~Grid`, grid.cpp 179-181, mpicomm.h 148-151 -/
  | barrier
  /-- `ArrayType::~ArrayType`, arraytype.h 81-84, `StructType::~StructType`, structtype.h 130-133 -/
  | freeType
  /-- `MPIWinFull::~MPIWinFull`, mpiwinfull.h 100-101 -/
  | freeFull
  /-- `MPIWinCache::~MPIWinCache`, mpiwincache.h 122-133 -/
  | freeCache
  /-- `MPIAlloc::free`, mpialloc.h 80-87 -/
  | freeMem
  /-- `MPIComm::~MPIComm`, mpicomm.h 95-99 -/
  | freeComm
deriving DecidableEq, Repr

/-- `mpiLock` is locked for the whole section (see the lines there); the barrier and the types do not lock it.
mpicomm.h 148-151, arraytype.h 79-121 (not locked). -/
def MpiSection.locked : MpiSection → Bool
  | .barrier | .makeType | .freeType => false
  | _ => true

/-- The number of collective operations in the section: MPI_Comm_dup, MPI_Win_create, MPI_Barrier, MPI_Win_free,
MPI_Comm_free. mpicomm.h 95-180, mpiwinfull.h 95-152, mpiwincache.h 120-228. -/
def MpiSection.rounds : MpiSection → Nat
  | .alloc | .makeType | .freeType | .freeMem => 0
  | .createCache | .freeCache => 2
  | _ => 1

/-- What happens besides the getters. The sections have numbers. grid.cpp 177-191, 214-249. -/
structure MixParams where
  /-- THREADSAFE_MPI, mpicomm.h 59-63 -/
  lib : Bool
  kind : Nat → MpiSection
  /-- the threads that execute the section -/
  members : Nat → List Nat
  /-- the section after which level `i` can be used -/
  opens : Nat → Nat
  /-- the barrier at the beginning of closing the grid of level `i` -/
  closes : Nat → Nat

/-- `lv`: the levels. `prog t`: the sections that thread `t` still has to complete, in its order. `at_ t`: the thread is
in the first of them and has returned from this number of collective operations. grid.cpp 177-191, 214-249. -/
structure MixState (G : Many α) where
  lv : G.St
  prog : Nat → List Nat
  at_ : Nat → Option Nat

/-- Thread `u` has called the `j`-th collective operation (from 0) of section `c`.
mpicomm.h 95-180, mpiwinfull.h 95-152, mpiwincache.h 120-228. -/
def MixState.arrived {G : Many α} (s : MixState G) (c u j : Nat) : Prop :=
  c ∉ s.prog u ∨ ∃ rest i, s.prog u = c :: rest ∧ s.at_ u = some i ∧ j ≤ i

/-- Thread `t` has `mpiLock` in a section. mpicomm.h 180. -/
def MixState.hasLock {G : Many α} (s : MixState G) (P : MixParams) (t : Nat) : Prop :=
  ∃ c rest i, s.prog t = c :: rest ∧ s.at_ t = some i ∧ P.lib = true ∧ (P.kind c).locked = true

/-- Level `i` may be used in process `r`: `open` has returned and `close` was not called.
grid.cpp 177-191, 214-249. -/
def MixState.usable {G : Many α} (s : MixState G) (P : MixParams) (i r : Nat) : Prop :=
  (∀ u, G.rank u = r → u ∈ P.members (P.opens i) → P.opens i ∉ s.prog u) ∧
  ∀ w, G.rank w = r → w ∈ P.members (P.closes i) → ¬ s.arrived (P.closes i) w 0

/-- Steps of getters, of openings and of closings: fulldist.h 150-199, cachedist.h 135-214, grid.cpp 177-191,
214-249. -/
inductive MixStep (G : Many α) (P : MixParams) : MixState G → MixState G → Prop
  /-- A step of a getter. Threads that open or close a grid do not call getters at the same time, and levels are used
  after `open` and before `close`. `mpiLock` is also needed by the sections. -/
  | level (s : MixState G) (x : G.St) : ManyStep G s.lv x →
      (∀ i t, i < G.n → (G.L i).busy (x i) t → ¬ (G.L i).busy (s.lv i) t → s.at_ t = none ∧ s.usable P i (G.rank t)) →
      (∀ i t, i < G.n → (G.L i).uses .mpi (x i) t → ¬ (G.L i).uses .mpi (s.lv i) t →
        ∀ u, G.rank u = G.rank t → ¬ s.hasLock P u) →
      MixStep G P s { s with lv := x }
  /-- A thread enters its next section and calls the first operation. `close` is called when no thread of the process uses
  the grid. -/
  | enter (s : MixState G) (t c : Nat) (rest : List Nat) : s.prog t = c :: rest → s.at_ t = none →
      (∀ i, i < G.n → ¬ (G.L i).busy (s.lv i) t) →
      (∀ i u, i < G.n → P.closes i = c → G.rank u = G.rank t → ¬ (G.L i).busy (s.lv i) u) →
      (P.lib = true → (P.kind c).locked = true → ∀ u, G.rank u = G.rank t →
        ¬ s.hasLock P u ∧ ∀ i, i < G.n → ¬ (G.L i).uses .mpi (s.lv i) u) →
      MixStep G P s { s with at_ := upd s.at_ t (some 0) }
  /-- A collective operation returns, and the next one is called. -/
  | ret (s : MixState G) (t c j : Nat) (rest : List Nat) : s.prog t = c :: rest → s.at_ t = some j →
      j < (P.kind c).rounds → (∀ u ∈ P.members c, s.arrived c u j) →
      MixStep G P s { s with at_ := upd s.at_ t (some (j + 1)) }
  /-- The end of the section; `mpiLock` is unlocked. -/
  | leave (s : MixState G) (t c : Nat) (rest : List Nat) : s.prog t = c :: rest →
      s.at_ t = some (P.kind c).rounds →
      MixStep G P s { s with prog := upd s.prog t rest, at_ := upd s.at_ t none }

/-- Reachable states for the programs `prog`. Any steps of grid.cpp 177-191, 214-249 and of getters. -/
def MixReach (G : Many α) (P : MixParams) (prog : Nat → List Nat) : MixState G → Prop :=
  Reachable (fun s => (∀ i, (G.L i).start (s.lv i)) ∧ s.prog = prog ∧ s.at_ = fun _ => none) (MixStep G P)

/-! ### The sections of the calls -/

/-- How a level communicates, and the number of domains. Without MPI windows nothing is created (PASS_THROUGH).
Classes of cachedist.h 217-239, fulldist.h 202-228, passthrough.h 55. -/
inductive LevelComm where
  | full (domains : Nat)
  | cache
  | other
deriving DecidableEq, Repr

/-- A collective call of a grid by the threads `ts`, one of each process. `hs`: the masters of the other domains, which
allocate their caches, fulldist.h 116-119. -/
inductive LifeCall where
  | setComm (ts : List Nat)
  | open_ (ts hs : List Nat) (k : LevelComm)
  | close (ts : List Nat) (ks : List LevelComm)
deriving DecidableEq, Repr

/-- The threads that make the collective call, grid.cpp 177, 214, grid.h 109. -/
def LifeCall.threads : LifeCall → List Nat
  | .setComm ts => ts
  | .open_ ts _ _ => ts
  | .close ts _ => ts

/-- The sections in which a level is opened: the type (level.h 264), the memory (full.h 101-103, cache.h 102-104), the
cache of each domain (fulldist.h 116-119) or the dictionary (mpicache.h 104-108), the windows. -/
def LevelComm.create (ts hs : List Nat) : LevelComm → List (MpiSection × List Nat)
  | .full _ => [(.makeType, ts), (.alloc, ts), (.alloc, ts ++ hs), (.createFull, ts)]
  | .cache => [(.makeType, ts), (.alloc, ts), (.alloc, ts), (.createCache, ts)]
  | .other => [(.makeType, ts)]

/-- The destructors of a level: fulldist.h 91-94, mpiwinfull.h 95-103, full.h 77-81; mpiwincache.h 120-134, mpicache.h
83-87, cache.h 78-82. The levels of the other domains free their caches. Simplification: the levels of all domains are
destroyed one after the other, level by level. -/
def LevelComm.destroy (ts : List Nat) : LevelComm → List (MpiSection × List Nat)
  | .full d => [(.freeMem, ts), (.freeFull, ts), (.freeMem, ts)] ++ List.replicate (d - 1) (.freeMem, ts)
  | .cache => [(.freeCache, ts), (.freeMem, ts), (.freeMem, ts)]
  | .other => []

/-- The sections of a call: `Grid::setComm` (grid.h 109-112), `Grid::open` (grid.cpp 214-249), `Grid::~Grid` (grid.cpp 177-191) and
the destructor of the communicator. -/
def LifeCall.sections : LifeCall → List (MpiSection × List Nat)
  | .setComm ts => [(.dup, ts)]
  | .open_ ts hs k => k.create ts hs
  | .close ts ks => (.barrier, ts) :: (.freeType, ts) :: (ks.flatMap (LevelComm.destroy ts) ++ [(.freeComm, ts)])

/-- The sections of a sequence of calls. grid.cpp 177-191, 214-249. -/
def historySections (cs : List LifeCall) : List (MpiSection × List Nat) := cs.flatMap LifeCall.sections

/-- The program of a thread: its sections. grid.cpp 177-191, 214-249. -/
def historyProg (cs : List LifeCall) (t : Nat) : List Nat :=
  (List.range (historySections cs).length).filter fun c => t ∈ ((historySections cs)[c]?.map (·.2)).getD []

/-- Level `i` is opened by call `op i` and its grid is closed by call `cl i`, if any. grid.cpp 177-191, 214-249. -/
def historyParams (lib : Bool) (cs : List LifeCall) (op cl : Nat → Option Nat) : MixParams :=
  { lib := lib
    kind := fun c => ((historySections cs)[c]?.map (·.1)).getD .barrier
    members := fun c => ((historySections cs)[c]?.map (·.2)).getD []
    opens := fun i => match op i with
      | some k => (historySections (cs.take (k + 1))).length - 1
      | none => (historySections cs).length
    closes := fun i => match cl i with
      | some k => (historySections (cs.take k)).length
      | none => (historySections cs).length }

end Asagi
