import Verif.Model.WinCache
import Verif.Model.FullMsg
import Verif.Model.PassConc
import Verif.Model.CacheDistLevel
/-
Several levels, of one or of several grids, that are used at the same time. A getter of a level uses the
level object and, through static variables, two locks that all levels of all grids of a process have in
common: `mpiLock` of the MPI library (mpi/mpicomm.h 49-63, 180) and `netcdfLock` of the netCDF library
(io/netcdfreader.h 104, netcdfreader.cpp 133). Nothing else is shared: each level has its own windows,
mutexes, caches and tags (mpiwincache.h 175-190, mpiwinfull.h 115-152, mpi/mutex.h 105, cachemanager.h 61-68).

Each level is one of the models with MPI windows or without MPI. Levels with the communication thread
are not included: they disturb each other (C38, C39). FULL levels are the distributed ones; the getters of
the others only read.
-/
namespace Asagi
variable {α : Type}

/-- The locks of the libraries. mpicomm.h 180, netcdfreader.h 104. -/
inductive LibLock where
  | mpi
  | netcdf
deriving DecidableEq, Repr

/-- A level as the other levels see it. fulldist.h 150-199, cachedist.h 135-214, passthrough.h 105-122. -/
structure LevelSys (α : Type) where
  S : Type
  start : S → Prop
  step : S → S → Prop
  /-- the thread is inside of a getter of this level -/
  busy : S → Nat → Prop
  /-- the thread has the lock, for this level -/
  uses : LibLock → S → Nat → Prop
  /-- the thread calls a getter for a position -/
  called : Nat → List Dbl → S → S → Prop
  /-- the getter of the thread is about to return a value -/
  returns : Nat → S → α → Prop

/-- The thread is in `NetCdfReader::getBlock` with `netcdfLock`, cache.h 168, netcdfreader.h 215: from the first
value to the return. -/
def Pc.reading {β : Type} : Pc β → Prop
  | .own _ _ _ (.load k) => 0 < k
  | _ => False

/-- CACHE with MPI windows. With THREADSAFE_MPI the mutex of the process in the model of the lock is `mpiLock`.
cachedist.h 135-214, mpiwincache.h 243-572. -/
def WinParams.sys (c : LevelCfg α) (C : WinParams α) : LevelSys α :=
  { S := WinState α
    start := fun ws => ∃ l, CacheList.init C.P.size C.P.handDiff = some l ∧ ws = WinState.start C l
    step := WinStep C
    busy := fun ws t => ws.st.pc (.user t) ≠ .idle
    uses := fun k ws t => match k with
      | .mpi => C.lib = true ∧ ws.mtx.proc (C.P.rankT t) = some (C.thr t)
      | .netcdf => (ws.st.pc (.user t)).reading
    called := fun t pos ws ws' => GetterCalled c t pos ws.st ws'.st
    returns := fun t ws v => GetterReturns t ws.st v }

/-- CACHE without MPI communication; `mpiLock` is not used (mpino.h). -/
def DistParams.sys (c : LevelCfg α) (P : DistParams α) : LevelSys α :=
  { S := DistState α
    start := fun st => ∃ l, CacheList.init P.size P.handDiff = some l ∧ st = DistState.start P l
    step := DistStep P
    busy := fun st t => st.pc (.user t) ≠ .idle
    uses := fun k st t => match k with
      | .mpi => False
      | .netcdf => (st.pc (.user t)).reading
    called := fun t pos st st' => GetterCalled c t pos st st'
    returns := fun t st v => GetterReturns t st v }

/-- Distributed FULL with MPI windows. The file is not read after `open`. With THREADSAFE_MPI (`lib`) the mutex of
the transfers is `mpiLock`, mpiwinfull.h 166-173. -/
def XferCfg.sys (c : LevelCfg α) (X : XferCfg α) (data : Nat → Mem α) (lib : Bool) : LevelSys α :=
  { S := XferSt α
    start := fun x => ∃ l, CacheList.init X.F.cacheSize X.F.handDiff = some l ∧ x = XferSt.start c X l
    step := XferStep c X data true
    busy := fun x t => x.st.pc (.user t) ≠ .idle
    uses := fun k x t => match k with
      | .mpi => lib = true ∧ x.mx (X.rankT t) = some t
      | .netcdf => False
    called := fun t pos x x' => ∃ st', FullCalled c X.F t pos x.st st' ∧ x' = { x with st := st' }
    returns := fun t x v => GetterReturns t x.st v }

/-- PASS_THROUGH in one process, for the threads `t` with `may t`; `slot t` is the `threadId()` of the thread.
Getters are called for defined positions only (see C04); the partial writes to the own buffer are left out.
passthrough.h 105-122. -/
def passSys (c : LevelCfg α) (slot : Nat → Nat) (may : Nat → Prop) (buf0 : Mem α) : LevelSys α :=
  { S := PassState α
    start := fun s => s = PassState.start buf0
    step := fun s s' => PassStep c slot may s s' ∧ s'.pc ≠ s.pc ∧
      ∀ t pos, s'.pc t = .want pos → (pos2index c.fp c.axes pos).isSome
    busy := fun s t => s.pc t ≠ .idle
    uses := fun k s t => match k with
      | .mpi => False
      | .netcdf => s.lock = some t
    called := fun t pos s s' => s.pc t = .idle ∧ s' = { s with pc := upd s.pc t (.want pos) }
    returns := fun t s v => ∃ pos, s.pc t = .ret pos v }

/-- The processes of a communicator: `MPI_Group_translate_ranks`, commthread.h 309. `global r` is the process with
rank `r` of the communicator, as the communication threads number it; for numbers that are not ranks of the communicator
it is arbitrary. `rank R` is the rank of process `R`, none (`MPI_UNDEFINED`) if the process is not in the communicator. -/
structure Ranks where
  global : Nat → Nat
  rank : Nat → Option Nat

/-- The communicator of all processes. mpicomm.h 104-118 with MPI_COMM_WORLD. -/
def Ranks.all : Ranks := ⟨id, some⟩

/-- `n` levels that are used at the same time; `rank t` is the process of thread `t`.
simplecontainer.h 58, 130-134. -/
structure Many (α : Type) where
  n : Nat
  rank : Nat → Nat
  L : Nat → LevelSys α

/-- The states of all levels. simplecontainer.h 58. -/
abbrev Many.St (G : Many α) : Type := ∀ i, (G.L i).S

/-- A thread takes a step in a getter of level `i`. A thread is inside of one getter at a time, and it gets a lock
of a library only if no thread of its process has it, in any level.
fulldist.h 150-199, cachedist.h 135-214, passthrough.h 105-122. -/
inductive ManyStep (G : Many α) : G.St → G.St → Prop
  | level (s : G.St) (i : Nat) (x : (G.L i).S) : i < G.n → (G.L i).step (s i) x →
      (∀ t, (G.L i).busy x t → ¬ (G.L i).busy (s i) t → ∀ j, j < G.n → ¬ (G.L j).busy (s j) t) →
      (∀ k t, (G.L i).uses k x t → ¬ (G.L i).uses k (s i) t →
        ∀ j u, j < G.n → G.rank u = G.rank t → ¬ (G.L j).uses k (s j) u) →
      ManyStep G s (Function.update s i x)

/-- Reachable states. After all levels were opened (grid.cpp 214-249), by any steps. -/
def ManyReach (G : Many α) : G.St → Prop :=
  Reachable (fun s => ∀ i, (G.L i).start (s i)) (ManyStep G)

end Asagi
