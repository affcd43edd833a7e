import Verif.Model.CacheDistLevel
import Verif.Model.CacheDistRun
/-
Concurrent accesses to a distributed FULL grid: grid/level/fulldist.h 150-199.

The loaded blocks of all processes (`data`, written by `open` only) are given. A getter for a block
of the own process and domain reads this memory directly. For other blocks, the thread uses the
block cache of its domain like the CACHE grids without MPI directory (`Verif.Model.CacheDist` with
`DistMode.none`); instead of loading the block from the file it copies it, value by value, from the
memory of another domain or process.

Simplifications: the transfers by MPI (`MPIWinFull::transfer`, mpiwinfull.h 161-191, and the request
to the communication thread, mpithreadfull.h 128-191) are reads of the memory of the other process;
they hold no lock that anybody else waits for except other transfers (`mpiLock`, `m_mutex`). See
`Verif.Model.FullMsg` for the transfers as they are implemented and `Verif.Model.Messages` for several
levels.
-/
namespace Asagi
variable {α : Type}

/-- What the user and the system choose for a distributed FULL level.
Arguments of `FullDist::open`, fulldist.h 99-144. -/
structure FullCfg (α : Type) where
  ds : Dist
  /-- `NumaTrans`, fulldist.h 204-228 -/
  trans : NumaTrans
  /-- MPI or `MPINo` -/
  hasMpi : Bool
  cacheSize : Nat
  handDiff : Int
  zero : α
  /-- the domain of each thread (global number) -/
  dom : Nat → Nat
  noop : Bool

/-- The block caches of the domains, used without MPI. fulldist.h 116-126. -/
def FullCfg.caches (F : FullCfg α) : SharedCfg α :=
  { domains := F.ds.domains, cacheSize := F.cacheSize, handDiff := F.handDiff, zero := F.zero,
    dom := F.dom, home := fun _ => 0, mode := .none, numa := false, noop := F.noop }

/-- The caches of the level as shared caches without directory. With `NumaFullCache` the caches of
the other domains are asked, but only for blocks of other processes, numafullcache.h 93-101. -/
def LevelCfg.fullShared (c : LevelCfg α) (F : FullCfg α) : DistParams α :=
  { c.shared F.caches with
    numa := fun d b => decide (F.trans = .fullCache) &&
      decide (F.ds.blockRank c.totalBlocks b ≠ d / F.ds.domains) }

/-- The memory that a thread of process `rank` copies block `id` from: `NumaFull::transfer` for
blocks of the own process (numafull.h 108-119), otherwise the MPI transfer, fulldist.h 176-185. `none`:
outside of the memory, or no MPI. -/
def fullSource (c : LevelCfg α) (F : FullCfg α) (data : Nat → Mem α) (rank id : Nat) :
    Option (List α) :=
  if F.trans ≠ .no ∧ F.ds.blockRank c.totalBlocks id = rank then
    (data rank).slice ((F.ds.localBlockCount c.totalBlocks * F.ds.blockDomain c.totalBlocks id +
      F.ds.blockOffset c.totalBlocks id) * c.totalBlockSize) c.totalBlockSize
  else if F.hasMpi then
    (data (F.ds.blockRank c.totalBlocks id)).slice
      (F.ds.blockNodeOffset c.totalBlocks id * c.totalBlockSize) c.totalBlockSize
  else none

/-- The block belongs to the domain of the thread, fulldist.h 160-161. -/
def FullCfg.isLocal (F : FullCfg α) (c : LevelCfg α) (t id : Nat) : Prop :=
  F.ds.blockRank c.totalBlocks id = F.dom t / F.ds.domains ∧
    F.ds.blockDomain c.totalBlocks id = F.dom t % F.ds.domains

/-- A getter is called by thread `t` for `pos` and does not find the block in the memory of its own
domain, fulldist.h 153-166: from `st` to `st'`. -/
def FullCalled (c : LevelCfg α) (F : FullCfg α) (t : Nat) (pos : List Dbl) (st st' : DistState α) :
    Prop :=
  ∃ idx, pos2index c.fp c.axes pos = some idx ∧ ¬ F.isLocal c t (blockByCoords c.geom idx) ∧
    st.pc (.user t) = .idle ∧
    st' = { st with
      pc := upd st.pc (.user t) (.wantCm (blockByCoords c.geom idx) (calcOffsetInBlock c.geom idx)) }

/-- One step of a thread of a distributed FULL grid. fulldist.h 150-199; lines at the steps. -/
inductive FullStep (c : LevelCfg α) (F : FullCfg α) (data : Nat → Mem α) :
    DistState α → DistState α → Prop
  | call {st st'} (t : Nat) (pos : List Dbl) : FullCalled c F t pos st st' → FullStep c F data st st'
  /-- copies one value of the block -/
  | copy (st) (t b off s k : Nat) (src : List α) (v : α) :
      st.pc (.user t) = .own b off s (.load k) → k < c.totalBlockSize →
      fullSource c F data (F.dom t / F.ds.domains) b = some src → src[k]? = some v →
      FullStep c F data st ({ st with data := setCell st.data (F.dom t) s k v
        }.goto t b off s (.load (k + 1)))
  /-- the steps with the cache, as for CACHE grids, fulldist.h 168-198 -/
  | other {st st'} (t : Nat) : st.pc (.user t) ≠ .idle →
      (∀ b off s k, st.pc (.user t) = .own b off s (.load k) → c.totalBlockSize ≤ k) →
      UserStep (c.fullShared F) t st st' → FullStep c F data st st'

/-- Reachable states after opening. From fulldist.h 99-144 by any steps. -/
def FullReach (c : LevelCfg α) (F : FullCfg α) (data : Nat → Mem α) : DistState α → Prop :=
  Reachable (fun st => ∃ l, CacheList.init F.cacheSize F.handDiff = some l ∧
    st = DistState.start (c.fullShared F) l) (FullStep c F data)

/-! An interpreter for examples, see `Verif.Model.CacheDistRun`. -/

/-- Interpreter for examples: thread `t` calls the getter, fulldist.h 150-160. -/
def fullCall (c : LevelCfg α) (F : FullCfg α) (st : DistState α) (t : Nat) (pos : List Dbl) :
    Option (DistState α) :=
  match pos2index c.fp c.axes pos, st.pc (.user t) with
  | some idx, .idle =>
    if F.ds.blockRank c.totalBlocks (blockByCoords c.geom idx) = F.dom t / F.ds.domains ∧
      F.ds.blockDomain c.totalBlocks (blockByCoords c.geom idx) = F.dom t % F.ds.domains then none
    else some { st with
      pc := upd st.pc (.user t) (.wantCm (blockByCoords c.geom idx) (calcOffsetInBlock c.geom idx)) }
  | _, _ => none

/-- Interpreter for examples: the next step of thread `t`, fulldist.h 160-199. -/
def fullExec1 (c : LevelCfg α) (F : FullCfg α) (data : Nat → Mem α) (st : DistState α) (t : Nat) :
    Option (DistState α) :=
  match st.pc (.user t) with
  | .own b off s (.load k) =>
    if k < c.totalBlockSize then
      (fullSource c F data (F.dom t / F.ds.domains) b).bind fun src => (src[k]?).bind fun v =>
        some ({ st with data := setCell st.data (F.dom t) s k v }.goto t b off s (.load (k + 1)))
    else execUser (c.fullShared F) st t 0
  | .idle => none
  | _ => execUser (c.fullShared F) st t 0

/-- `n` steps of thread `t`. No code of its own: repeats `fullExec1` (fulldist.h 160-199). -/
def fullExec (c : LevelCfg α) (F : FullCfg α) (data : Nat → Mem α) (t : Nat) :
    Nat → DistState α → Option (DistState α)
  | 0, st => some st
  | n + 1, st => (fullExec1 c F data st t).bind (fullExec c F data t n)

end Asagi
