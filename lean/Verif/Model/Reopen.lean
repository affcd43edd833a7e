import Verif.Model.Levels
/-
A level object over its whole life: opened, opened again, read in between.

`SimpleContainer::init` (grid/simplecontainer.h 78-112) calls `open` on the existing level object
if the level was opened before. The members of the object are then initialised a second time:
level.h 210-271, blocked.h 89-145, full.h 86-130, cache.h 87-114, fulldist.h 99-144,
cachemanager.h 90-103, cachelist.h 87-94, lru.h 77-91.

The old memory is not freed (a leak, not modelled). An unsuccessful `open` leaves members of both
files in the object; reading such a level is outside of the model (`cfg = none`).
-/
namespace Asagi
variable {α : Type}

/-- `CacheList::init`, cachelist.h 87-94, on an object that may have been used before:
`m_indexToBlock` is a new array and `m_lru.init` sets all members of the LRU, but
`m_blockToIndex` keeps its entries. -/
def CacheList.reinit (c : CacheList) (size : Nat) (handDiff : Int) : Option CacheList := do
  let lru ← Lru.init size handDiff
  pure { lru, indexToBlock := List.replicate size none, blockToIndex := c.blockToIndex }

/-- `CacheManager::init`, cachemanager.h 90-103, on an object that may have been used before. -/
def BlockCache.reinit (bc : BlockCache α) (cacheSize totalBlockSize : Nat) (handDiff : Int)
    (zero : α) : Option (BlockCache α) := do
  let list ← bc.list.reinit cacheSize handDiff
  pure { list, mem := List.replicate (cacheSize * totalBlockSize) zero }

/-- A cache manager after its constructor: `CacheManager()`, cachemanager.h 71-74, `CacheList()`,
cachelist.h 72-75, `LRU()`, lru.h 63-67. -/
def BlockCache.constructed : BlockCache α :=
  { list := { lru := ⟨0, 0, 0, []⟩, indexToBlock := [], blockToIndex := fun _ => none }, mem := [] }

/-- What the application does with one level. simplecontainer.h 78-112, 130-134. -/
inductive LevelEv (α : Type) where
  /-- an `open` that returns an error before the cache is initialised -/
  | openFail
  /-- a successful `open`; `cfg` is the result of `Level::open` and `Blocked::open` -/
  | openOk (cfg : LevelCfg α) (cacheSize : Nat) (handDiff : Int)
  /-- a getter -/
  | get (pos : List Dbl)

/-! ### Cache -/

/-- An object of class `Cache`, cache.h 57-64: `cfg` are the members of its base classes, `none`
if there was no `open` or the last one failed. -/
structure CacheObj (α : Type) where
  cfg : Option (LevelCfg α)
  level : CacheLevel α

/-- `Cache(comm, numa, type)`, cache.h 67-76. -/
def CacheObj.constructed : CacheObj α := ⟨none, ⟨BlockCache.constructed, {}⟩⟩

/-- `Cache::open`, cache.h 87-114, and `Cache::getAt`, cache.h 120-149; `zero` is the value of
cleared memory. The output is the value delivered by a getter. -/
def CacheObj.step (zero : α) (s : CacheObj α) : LevelEv α → Option (CacheObj α × Option α)
  | .openFail => some ({ s with cfg := none }, none)
  | .openOk cfg cacheSize handDiff => do
    let cache ← s.level.cache.reinit cacheSize cfg.totalBlockSize handDiff zero
    pure ({ cfg := some cfg, level := { s.level with cache } }, none)
  | .get pos => do
    let cfg ← s.cfg
    let (level, v) ← cacheGetAt cfg s.level pos
    pure ({ s with level }, some v)

/-- A history of the object with the outputs of its events. cache.h 87-149, one call after the other. -/
def CacheObj.run (zero : α) (s : CacheObj α) :
    List (LevelEv α) → Option (CacheObj α × List (Option α))
  | [] => some (s, [])
  | e :: es => do
    let (s', o) ← s.step zero e
    let (s'', os) ← s'.run zero es
    pure (s'', o :: os)

/-! ### Full -/

/-- An object of class `Full` on a single process and domain: the members and `m_data`. full.h 59-63. -/
structure FullObj (α : Type) where
  cfg : Option (LevelCfg α)
  data : Mem α

/-- The constructor, full.h 66-75. -/
def FullObj.constructed : FullObj α := ⟨none, []⟩

/-- `Full::open`, full.h 86-130, and `Full::getAt`, full.h 137-163. The new memory has the content
`junk` (full.h does not clear it). -/
def FullObj.step (junk : α) (s : FullObj α) : LevelEv α → Option (FullObj α × Option α)
  | .openFail => some ({ s with cfg := none }, none)
  | .openOk cfg _ _ => do
    let ds : Dist := ⟨1, 1, true⟩
    let data ← fullOpen cfg ds 0 (List.replicate (domainSize cfg ds) junk)
    pure ({ cfg := some cfg, data }, none)
  | .get pos => do
    let cfg ← s.cfg
    let v ← fullGetAt cfg ⟨1, 1, true⟩ s.data 0 pos
    pure (s, some v)

/-- A history of the object with the outputs of its events. full.h 86-163, one call after the other. -/
def FullObj.run (junk : α) (s : FullObj α) :
    List (LevelEv α) → Option (FullObj α × List (Option α))
  | [] => some (s, [])
  | e :: es => do
    let (s', o) ← s.step junk e
    let (s'', os) ← s'.run junk es
    pure (s'', o :: os)

/-! ### PassThrough -/

/-- An object of class `PassThrough` read by one thread: the members and `m_buf`. passthrough.h 55-59. -/
structure PassObj (α : Type) where
  cfg : Option (LevelCfg α)
  buf : Mem α
  cnt : Counters

/-- The constructor, passthrough.h 62-72. -/
def PassObj.constructed : PassObj α := ⟨none, [], {}⟩

/-- `PassThrough::open`, passthrough.h 82-99, which allocates one value for each thread, and
`PassThrough::getAt`, passthrough.h 105-122. -/
def PassObj.step (junk : α) (s : PassObj α) : LevelEv α → Option (PassObj α × Option α)
  | .openFail => some ({ s with cfg := none }, none)
  | .openOk cfg _ _ => some ({ s with cfg := some cfg, buf := [junk] }, none)
  | .get pos => do
    let cfg ← s.cfg
    let (buf, cnt, v) ← passThroughGetAt cfg s.buf s.cnt 0 pos
    pure ({ s with buf, cnt }, some v)

/-- A history of the object with the outputs of its events. passthrough.h 82-122, one call after the other. -/
def PassObj.run (junk : α) (s : PassObj α) :
    List (LevelEv α) → Option (PassObj α × List (Option α))
  | [] => some (s, [])
  | e :: es => do
    let (s', o) ← s.step junk e
    let (s'', os) ← s'.run junk es
    pure (s'', o :: os)

/-! ### FullDist -/

/-- `FullDist::open`, fulldist.h 99-144, on objects that may have been used before, on all
processes. -/
def fullDistReopen (c : LevelCfg α) (ds : Dist) (cacheSize : Nat) (handDiff : Int) (zero : α)
    (junk : Nat → Mem α) (s : FullDist α) : Option (FullDist α) := do
  let data ← (List.range ds.ranks).mapM fun r => fullOpen c ds r (junk r)
  let lru ← Lru.init cacheSize handDiff
  pure { data := fun r => data.getD r []
         cache := fun r d =>
           { list := { lru, indexToBlock := List.replicate cacheSize none
                       blockToIndex := (s.cache r d).list.blockToIndex }
             mem := List.replicate (cacheSize * c.totalBlockSize) zero }
         cnt := s.cnt }

end Asagi
