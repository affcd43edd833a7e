import Verif.Model.Index
import Verif.Model.NetCdf
import Verif.Model.Lru
import Verif.Model.Counter
/-
Model of the grid levels: grid/level/{full,fulldist,cache,passthrough}.h.

The accesses of one process group are executed one after the other here (each `getAt` is one
step); interleavings of concurrent accesses are the subject of `Verif.Model.CacheDist`.  `none` is undefined behaviour.
-/
namespace Asagi
variable {α : Type}

/-- The immutable members of an opened level: the axes (level.h 98-119), the file, the
blocks (blocked.h 56-66) and whether values are of a basic type (types/basictype.h) or
compound (types/arraytype.h, structtype.h). -/
structure LevelCfg (α : Type) where
  fp : Fp
  axes : List Axis
  file : NcFile α
  geom : List Dim
  basic : Bool
  totalBlockSize : Nat
  totalBlocks : Nat

/-- `Level::open` + `Blocked::open` for a valid file and variable (level.h 210-271,
blocked.h 89-145). `nc` and `val` describe the netCDF variable, `param` are the block sizes
set by the user (API order), `junk` the previous contents of the member arrays. -/
def openLevel (fp : Fp) (cellCentered : Bool) (nc : List NcAxis) (val : List Nat → α)
    (basic : Bool) (param : List Int) (timeDim : Int) (junk : BlockedState) :
    Option (LevelCfg α) := do
  let size := nc.map NcAxis.size
  let st ← blockedOpen size param timeDim junk
  pure { fp, axes := openAxes fp cellCentered nc, file := { size, val },
         geom := st.geometry size, basic,
         totalBlockSize := st.totalBlockSize, totalBlocks := st.totalBlocks }

/-! ### Full -/

/-- The loop of `Full::open`, full.h 108-125, on process `rank` and NUMA domain `domain`;
`base` is the position of `m_data` in the allocation of the process. The loop runs from `i`
for at most `n` iterations and stops at the first block that does not exist. -/
def fullLoad (c : LevelCfg α) (ds : Dist) (rank domain base : Nat) :
    (n i : Nat) → Mem α → Option (Mem α)
  | 0, _, m => some m
  | n + 1, i, m =>
    let id := ds.local2global c.totalBlocks rank domain i
    if id ≥ c.totalBlocks then some m
    else do
      let m' ← getBlock c.file c.basic (blockOrigin c.geom id) (c.geom.map Dim.bs) m
        (base + c.totalBlockSize * i)
      fullLoad c ds rank domain base n (i + 1) m'

/-- Number of values in the memory of one NUMA domain, full.h 101-103. -/
def domainSize (c : LevelCfg α) (ds : Dist) : Nat :=
  c.totalBlockSize * ds.localBlockCount c.totalBlocks

/-- `Full::open`, full.h 100-125, for all NUMA domains of a process: `numa().allocate`
(numacomm.h 131-150) provides `size * totalDomains` values, domain `d` uses the part starting
at `size * d`. The domains load their blocks one after the other here; they write to
different parts of the allocation (see `Verif.Props.Layout`). `junk` is the content of the
new allocation. -/
def fullOpen (c : LevelCfg α) (ds : Dist) (rank : Nat) (junk : Mem α) : Option (Mem α) :=
  (List.range ds.domains).foldlM
    (fun m d => fullLoad c ds rank d (domainSize c ds * d)
      (ds.localBlockCount c.totalBlocks) 0 m) junk

/-- `Full::getAt`, full.h 137-163. -/
def fullGetAt (c : LevelCfg α) (ds : Dist) (m : Mem α) (domain : Nat) (pos : List Dbl) :
    Option α := do
  let index ← pos2index c.fp c.axes pos
  let id := blockByCoords c.geom index
  let localId := ds.blockOffset c.totalBlocks id
  let offset := calcOffsetInBlock c.geom index
  m.read (domainSize c ds * domain + (localId * c.totalBlockSize + offset))

/-! ### Block cache -/

/-- A cache manager (cachemanager.h 52-68) together with its memory. -/
structure BlockCache (α : Type) where
  list : CacheList
  mem : Mem α

/-- `CacheManager::init`, cachemanager.h 90-103: `zero` is the value of the memory after
`memset`. -/
def BlockCache.init (cacheSize totalBlockSize : Nat) (handDiff : Int) (zero : α) :
    Option (BlockCache α) := do
  let list ← CacheList.init cacheSize handDiff
  pure { list, mem := List.replicate (cacheSize * totalBlockSize) zero }

/-- Converts the result of the bookkeeping code; running out of fuel would be an endless
loop. No code of its own; the loop is lru.h 104-120. -/
def Res.toOption {β : Type} : Res β → Option β
  | .ok a => some a
  | _ => none

/-! ### Cache -/

/-- `Cache::loadBlock`, cache.h 157-171. -/
def cacheLoadBlock (c : LevelCfg α) (index : List Nat) (m : Mem α) (base : Nat) :
    Option (Mem α) :=
  getBlock c.file c.basic (List.zipWith (fun d i => i - i % d.bs) c.geom index)
    (c.geom.map Dim.bs) m base

/-- Mutable state of a CACHE level. cache.h 60-64, cachemanager.h 55-69, counter.h 115. -/
structure CacheLevel (α : Type) where
  cache : BlockCache α
  cnt : Counters

/-- `Cache::getAt`, cache.h 120-149. -/
def cacheGetAt (c : LevelCfg α) (s : CacheLevel α) (pos : List Dbl) :
    Option (CacheLevel α × α) := do
  let cnt := s.cnt.inc .access
  let index ← pos2index c.fp c.axes pos
  let id := blockByCoords c.geom index
  let (list, slot, old) ← (s.cache.list.get id).toOption
  let base := slot * c.totalBlockSize
  let (mem, cnt) ←
    if old ≠ some id then do
      let mem ← cacheLoadBlock c index s.cache.mem base
      pure (mem, cnt.inc .file)
    else pure (s.cache.mem, cnt)
  let v ← mem.read (base + calcOffsetInBlock c.geom index)
  pure ({ cache := { list, mem }, cnt }, v)

/-- A sequence of accesses. cache.h 120-149, one call after the other. -/
def cacheRun (c : LevelCfg α) (s : CacheLevel α) :
    List (List Dbl) → Option (CacheLevel α × List α)
  | [] => some (s, [])
  | p :: ps => do
    let (s', v) ← cacheGetAt c s p
    let (s'', vs) ← cacheRun c s' ps
    pure (s'', v :: vs)

/-! ### FullDist -/

/-- Class template parameter `NumaTrans` of FullDist, fulldist.h 202-228. -/
inductive NumaTrans where
  | no | full | fullCache
deriving DecidableEq, Repr

/-- Mutable state of a distributed FULL level on all processes: the loaded blocks of each
process (written by `open` only) and the block cache and counters of each process and NUMA
domain. full.h 62-63, fulldist.h 67-77, cachemanager.h 55-69. -/
structure FullDist (α : Type) where
  data : Nat → Mem α
  cache : Nat → Nat → BlockCache α
  cnt : Nat → Nat → Counters

/-- `NumaCache::transfer`, numacache.h 115-132: copies the block from the first cache of
another domain that can be locked and holds it. `canLock i` says whether the `try_lock`s of
`tryGet` (cachemanager.h 150-172) succeed on the cache of domain `i`. Returns the source
slice. -/
def numaCacheLookup (tbs : Nat) (caches : Nat → BlockCache α) (canLock : Nat → Bool)
    (self id : Nat) : List Nat → Option (Option (List α))
  | [] => some none
  | i :: is =>
    if i = self then numaCacheLookup tbs caches canLock self id is
    else match (caches i).list.peek id with
      | some slot =>
        if canLock i then do
          let src ← (caches i).mem.slice (slot * tbs) tbs
          pure (some src)
        else numaCacheLookup tbs caches canLock self id is
      | none => numaCacheLookup tbs caches canLock self id is

/-- `m_numaTrans.transfer`, fulldist.h 176-178: numano.h, numafull.h 108-119,
numafullcache.h 93-101. `some none`: not available (`false`). -/
def fullDistNuma (c : LevelCfg α) (ds : Dist) (t : NumaTrans) (s : FullDist α)
    (canLock : Nat → Bool) (rank domain id : Nat) : Option (Option (List α)) :=
  if t ≠ .no ∧ ds.blockRank c.totalBlocks id = rank then do
    let src ← (s.data rank).slice
      ((ds.localBlockCount c.totalBlocks * ds.blockDomain c.totalBlocks id +
        ds.blockOffset c.totalBlocks id) * c.totalBlockSize) c.totalBlockSize
    pure (some src)
  else if t = .fullCache then
    numaCacheLookup c.totalBlockSize (s.cache rank) canLock domain id (List.range ds.domains)
  else some none

/-- `m_mpiTrans.transfer`, fulldist.h 183-185: mpiwinfull.h 161-191 or mpithreadfull.h
169-191. `hasMpi = false` is transfer::MPINo, where the call must not happen
(`assert(false)`, mpino.h 97-101; the block would stay unfilled): undefined. -/
def fullDistMpi (c : LevelCfg α) (ds : Dist) (hasMpi : Bool) (s : FullDist α) (id : Nat) :
    Option (List α) :=
  if hasMpi then
    (s.data (ds.blockRank c.totalBlocks id)).slice
      (ds.blockNodeOffset c.totalBlocks id * c.totalBlockSize) c.totalBlockSize
  else none

/-- Replaces the entry of one process and domain.
No code of its own: the state of fulldist.h 150-199 of one domain changes. -/
def upd2 {β : Type} (f : Nat → Nat → β) (r d : Nat) (v : β) : Nat → Nat → β :=
  fun r' d' => if r' = r ∧ d' = d then v else f r' d'

/-- `FullDist::getAt`, fulldist.h 150-199, called on process `rank` in NUMA domain
`domain`. -/
def fullDistGetAt (c : LevelCfg α) (ds : Dist) (t : NumaTrans) (hasMpi : Bool)
    (s : FullDist α) (canLock : Nat → Bool) (rank domain : Nat) (pos : List Dbl) :
    Option (FullDist α × α) := do
  let index ← pos2index c.fp c.axes pos
  let id := blockByCoords c.geom index
  let cnt := (s.cnt rank domain).inc .access
  if ds.blockRank c.totalBlocks id = rank ∧ ds.blockDomain c.totalBlocks id = domain then do
    let v ← fullGetAt c ds (s.data rank) domain pos
    pure ({ s with cnt := upd2 s.cnt rank domain cnt }, v)
  else do
    let bc := s.cache rank domain
    let (list, slot, old) ← (bc.list.get id).toOption
    let base := slot * c.totalBlockSize
    let (mem, cnt) ←
      if old ≠ some id then do
        match ← fullDistNuma c ds t s canLock rank domain id with
        | some src =>
          let mem ← bc.mem.copyIn base src
          pure (mem, cnt.inc .numa)
        | none =>
          let src ← fullDistMpi c ds hasMpi s id
          let mem ← bc.mem.copyIn base src
          pure (mem, cnt.inc .mpi)
      else pure (bc.mem, cnt)
    let v ← mem.read (base + calcOffsetInBlock c.geom index)
    pure ({ data := s.data, cache := upd2 s.cache rank domain { list, mem },
            cnt := upd2 s.cnt rank domain cnt }, v)

/-- One access in a history: the process and domain, the position, and which `try_lock`s
succeed. fulldist.h 150-199; `try_lock` in cachemanager.h 150-172. -/
structure DistOp where
  rank : Nat
  domain : Nat
  pos : List Dbl
  canLock : Nat → Bool

/-- A history of accesses by all processes and domains. fulldist.h 150-199, one call after the other. -/
def fullDistRun (c : LevelCfg α) (ds : Dist) (t : NumaTrans) (hasMpi : Bool) (s : FullDist α) :
    List DistOp → Option (FullDist α × List α)
  | [] => some (s, [])
  | o :: os => do
    let (s', v) ← fullDistGetAt c ds t hasMpi s o.canLock o.rank o.domain o.pos
    let (s'', vs) ← fullDistRun c ds t hasMpi s' os
    pure (s'', v :: vs)

/-- `FullDist::open`, fulldist.h 99-144, on all processes (`junk r`: the memory allocated by
process `r`). -/
def fullDistOpen (c : LevelCfg α) (ds : Dist) (cacheSize : Nat) (handDiff : Int) (zero : α)
    (junk : Nat → Mem α) : Option (FullDist α) := do
  let data ← (List.range ds.ranks).mapM fun r => fullOpen c ds r (junk r)
  let bc ← BlockCache.init cacheSize c.totalBlockSize handDiff zero
  pure { data := fun r => data.getD r [], cache := fun _ _ => bc, cnt := fun _ _ => {} }

/-! ### PassThrough -/

/-- `PassThrough::getAt`, passthrough.h 105-122: one value is loaded into the buffer of the
thread (`thread` = `numa().threadId()`, `buf` = `m_buf`). -/
def passThroughGetAt (c : LevelCfg α) (buf : Mem α) (cnt : Counters) (thread : Nat)
    (pos : List Dbl) : Option (Mem α × Counters × α) := do
  let cnt := (cnt.inc .access).inc .file
  let index ← pos2index c.fp c.axes pos
  let buf ← getBlock c.file c.basic index (c.file.size.map fun _ => 1) buf thread
  let v ← buf.read thread
  pure (buf, cnt, v)

end Asagi
