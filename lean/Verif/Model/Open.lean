import Verif.Model.Types
import Verif.Model.Params
/-
Opening a level: io/netcdfreader.cpp 73-128, grid/level/level.h 210-271, the `open` functions of
the level classes, and the list of levels in grid/simplecontainer.h 78-112.
-/
namespace Asagi

/-- `MAX_DIMENSIONS`, CMakeLists.txt 48 (default 4). -/
def maxDimensions : Nat := 4

/-- What the reader asks about a variable: number of dimensions and size of the type in bytes.
netcdfreader.cpp 73-128. -/
structure NcVarInfo where
  dims : Nat
  varSize : Nat
deriving DecidableEq, Repr

/-- The files: `none` if the file cannot be opened, else the variables by name. netcdfreader.cpp 73-89. -/
abbrev FileSystem := Str → Option (Str → Option NcVarInfo)

/-- Calls with an effect outside the level object, in order. netcdfreader.cpp 73-128, level.h 210-271. -/
inductive Effect where
  | ncOpen                -- nc_open succeeded
  | ncClose
  | allocate
  | loadBlocks
  | initCache
  | initTransfer
deriving DecidableEq, Repr

/-- `NetCdfReader::open`, netcdfreader.cpp 73-128. -/
def readerOpen (fs : FileSystem) (file var : Str) : Except Error NcVarInfo × List Effect :=
  match fs file with
  | none => (.error .NOT_OPEN, [])
  | some vars =>
    match vars var with
    | none => (.error .VAR_NOT_FOUND, [.ncOpen, .ncClose])
    | some v =>
      if v.dims > maxDimensions then (.error .UNSUPPORTED_DIMENSIONS, [.ncOpen, .ncClose])
      else (.ok v, [.ncOpen])

/-- `Level::open`, level.h 210-271: `numaOk` is `m_numaComm != 0L`. The coordinate arrays are
`openAxes` in `Model/Index.lean`. -/
def levelOpen (fs : FileSystem) (file var : Str) (numaOk : Bool) (t : TypeObj) :
    TypeObj × Error × List Effect :=
  if !numaOk then (t, .THREAD_ERROR, [])
  else
    match readerOpen fs file var with
    | (.error e, eff) => (t, e, eff)
    | (.ok v, eff) =>
      let (t', e) := t.check v.varSize
      (t', e, eff)

/-- The results of the steps of open that do not depend on the file: `NumaComm::allocate`
(numacomm.h 132-150), the allocation of the second cache of FullDist and the `init` functions of
the transfer classes. -/
structure Resources where
  alloc : Error
  cacheAlloc : Error
  transfer : Error

/-- The `open` functions: `Full::open` full.h 86-130 (`Blocked::open`, blocked.h 89-145, has no
further error), `FullDist::open` fulldist.h 99-144, `Cache::open` cache.h 87-114,
`CacheDist::open` cachedist.h 96-129, `PassThrough::open` passthrough.h 82-99. `distributed`
selects the Dist variants. -/
def openKind (kind : LevelKind) (distributed : Bool) (res : Resources)
    (fs : FileSystem) (file var : Str) (numaOk : Bool) (t : TypeObj) :
    TypeObj × Error × List Effect :=
  match levelOpen fs file var numaOk t with
  | (t', .SUCCESS, eff) =>
    match kind with
    | .passThrough => (t', .SUCCESS, eff ++ [.allocate])
    | .full =>
      if res.alloc ≠ .SUCCESS then (t', res.alloc, eff)
      else
        let eff := eff ++ [.allocate, .loadBlocks, .ncClose]
        if !distributed then (t', .SUCCESS, eff)
        else if res.cacheAlloc ≠ .SUCCESS then (t', res.cacheAlloc, eff)
        else
          let eff := eff ++ [.allocate, .initCache]
          if res.transfer ≠ .SUCCESS then (t', res.transfer, eff)
          else (t', .SUCCESS, eff ++ [.initTransfer])
    | .cache =>
      if res.alloc ≠ .SUCCESS then (t', res.alloc, eff)
      else
        let eff := eff ++ [.allocate, .initCache]
        if !distributed then (t', .SUCCESS, eff)
        else if res.transfer ≠ .SUCCESS then (t', res.transfer, eff)
        else (t', .SUCCESS, eff ++ [.initTransfer])
  | (t', e, eff) => (t', e, eff)

/-! ### The list of levels -/

/-- A level object in `m_levels`. `geometry` are the members that the copy constructor does not
copy (m_size, m_offset, m_scaling, m_min, m_max, m_scalingInv, level.h 125-132), `none` if they
are not initialised; the content stands for the opened file. `data` is the pointer to the
memory of the level (m_data, m_cache, m_buf), which the implicit copy constructors of the derived
classes copy and the destructors free (full.h 77-81, cache.h 78-82, passthrough.h 74-77). -/
structure LevelObj where
  geometry : Option Nat
  data : Option Nat
deriving DecidableEq, Repr

/-- `SimpleContainer::m_levels` (a std::vector) and the set of live allocations. simplecontainer.h 58. -/
structure Levels where
  levels : List LevelObj
  capacity : Nat
  live : List Nat
  next : Nat
deriving DecidableEq, Repr

/-- A new container. simplecontainer.h 64-71. -/
def Levels.new : Levels := ⟨[], 0, [], 0⟩

/-- Copy construction of a level, level.h 125-132. -/
def LevelObj.copy (l : LevelObj) : LevelObj := { l with geometry := none }

/-- `Level(comm, numa, type)`, level.h 137-145. -/
def LevelObj.prototype : LevelObj := ⟨none, none⟩

/-- `m_levels.resize(n, prototype)`, simplecontainer.h 85-87. If the capacity suffices, copies of
the prototype are appended; otherwise the vector moves to new memory: Level has a user-declared
copy constructor and therefore no move constructor, so all elements are copied and the originals
are destroyed, which frees their memory. `grow` is the new capacity (implementation defined). -/
def Levels.resize (c : Levels) (n grow : Nat) : Levels :=
  let new := List.replicate (n - c.levels.length) LevelObj.prototype.copy
  if n ≤ c.capacity then { c with levels := c.levels ++ new }
  else { c with
    levels := c.levels.map LevelObj.copy ++ new
    capacity := max n grow
    live := c.live.filter (fun h => h ∉ c.levels.filterMap LevelObj.data) }

/-- A successful `SimpleContainer::init`, simplecontainer.h 78-112, for file number `file`. -/
def Levels.open (c : Levels) (level file grow : Nat) : Levels :=
  let c := if c.levels.length ≤ level then c.resize (level + 1) grow else c
  { c with
    levels := c.levels.set level ⟨some file, some c.next⟩
    live := c.next :: c.live
    next := c.next + 1 }

/-- A getter for a level: the file whose values are delivered; `none` if the level was not opened,
its coordinate arrays are not initialised or its memory was freed (undefined behaviour). simplecontainer.h 130-135. -/
def Levels.get (c : Levels) (level : Nat) : Option Nat := do
  let l ← c.levels[level]?
  let h ← l.data
  if h ∈ c.live then l.geometry else none

/-- A sequence of opens `(level, file, grow)`. simplecontainer.h 78-112, one call after the other. -/
def Levels.run (c : Levels) (ops : List (Nat × Nat × Nat)) : Levels :=
  ops.foldl (fun c o => c.open o.1 o.2.1 o.2.2) c

end Asagi
