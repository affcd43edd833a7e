import Verif.Model.Levels
import Verif.Model.Open
/-
What an `open` that returns an error leaves behind: level.h 210-271, simplecontainer.h 78-112 and
the type objects (types/arraytype.h 90-121, types/structtype.h 143-192).

Simplification: the memory that a failing open leaks is not counted here (see
`Verif.Model.Resources`). A failure in the later part of the open functions (memory, MPI windows) is
only modelled for the type object.
-/
namespace Asagi
variable {α : Type}

/-! ### A level that was opened successfully before -/

/-- How an `open` of a level fails. netcdfreader.cpp 73-128, level.h 215-268. -/
inductive OpenFailure (α : Type) where
  /-- the reader reports NOT_OPEN, VAR_NOT_FOUND or UNSUPPORTED_DIMENSIONS, level.h 222-223 -/
  | reader
  /-- the type reports INVALID_VAR_SIZE or WRONG_SIZE, level.h 264-266: the axes and the reader of
  the new file are already members of the level -/
  | type (axes : List Axis) (file : NcFile α)

/-- What the classes keep in memory: `Full` (full.h 62-63), `Cache` (cache.h 60-64), `PassThrough`
(passthrough.h 58-59; one thread). -/
inductive Content (α : Type) where
  | full (data : Mem α)
  | cache (level : CacheLevel α)
  | pass (buf : Mem α) (cnt : Counters)

/-- A level object after a successful open. `readable`: `m_inputFile` is an opened file. level.h 74-119. -/
structure KeptLevel (α : Type) where
  cfg : LevelCfg α
  readable : Bool
  content : Content α

/-- An `open` of the same level that fails. `m_inputFile` is replaced first, level.h 222; the axes are
replaced after the reader was opened successfully, level.h 225-259; `Blocked::open` (blocked.h
89-145), the block memory and the cache come later and are not touched. -/
def KeptLevel.fail (l : KeptLevel α) : OpenFailure α → KeptLevel α
  | .reader => { l with readable := false }
  | .type axes file => { l with cfg := { l.cfg with axes, file }, readable := true }

/-- The getters: `Full::getAt`, full.h 137-163, does not use the file. `Cache::getAt`, cache.h
120-149, and `PassThrough::getAt`, passthrough.h 105-122, call `getBlock`, netcdfreader.h 195-218, of
the reader: if its `open` failed, `m_dimensions` is -1 or larger than MAX_DIMENSIONS
(netcdfreader.cpp 46-54, 91-100): `getBlock` writes outside of the local array `imap` in the first
case and reads the null pointer `m_size` in the second: undefined. -/
def KeptLevel.get (l : KeptLevel α) (pos : List Dbl) : Option (KeptLevel α × α) :=
  match l.content with
  | .full data => do
    let v ← fullGetAt l.cfg ⟨1, 1, true⟩ data 0 pos
    pure (l, v)
  | .cache s => do
    let index ← pos2index l.cfg.fp l.cfg.axes pos
    let id := blockByCoords l.cfg.geom index
    let (_, _, old) ← (s.cache.list.get id).toOption
    if old ≠ some id ∧ l.readable = false then none
    else do
      let (s', v) ← cacheGetAt l.cfg s pos
      pure ({ l with content := .cache s' }, v)
  | .pass buf cnt =>
    if l.readable then do
      let (buf, cnt, v) ← passThroughGetAt l.cfg buf cnt 0 pos
      pure ({ l with content := .pass buf cnt }, v)
    else none

/-- What the application does with the level. simplecontainer.h 78-112, 130-135. -/
inductive KeptEv (α : Type) where
  | fail (f : OpenFailure α)
  | get (pos : List Dbl)

/-- A history with the values of the getters. simplecontainer.h 78-135, one call after the other. -/
def KeptLevel.run (l : KeptLevel α) : List (KeptEv α) → Option (KeptLevel α × List α)
  | [] => some (l, [])
  | .fail f :: es => (l.fail f).run es
  | .get pos :: es => do
    let (l', v) ← l.get pos
    let (l'', vs) ← l'.run es
    pure (l'', v :: vs)

/-! ### The type object -/

/-- One call of open. simplecontainer.h 78-112. -/
structure OpenTry where
  res : Resources
  fs : FileSystem
  file : Str
  var : Str

/-- The calls of open of one grid, one after the other: they share the type object, grid.h 82. -/
def openCalls (kind : LevelKind) (distributed : Bool) (t : TypeObj) :
    List OpenTry → TypeObj × List Error
  | [] => (t, [])
  | o :: os =>
    let (t1, e, _) := openKind kind distributed o.res o.fs o.file o.var true t
    let (t2, es) := openCalls kind distributed t1 os
    (t2, e :: es)

/-! ### The list of levels -/

/-- An unsuccessful `SimpleContainer::init`, simplecontainer.h 78-112: the list is enlarged before
the file is opened. (What happens to the level itself is described by `KeptLevel.fail`.) -/
def Levels.openFail (c : Levels) (level grow : Nat) : Levels :=
  if c.levels.length ≤ level then c.resize (level + 1) grow else c

/-- A sequence of opens `(level, file, grow)`, where no file means that the open fails. simplecontainer.h 78-112. -/
def Levels.runF (c : Levels) (ops : List (Nat × Option Nat × Nat)) : Levels :=
  ops.foldl (fun c o => match o.2.1 with
    | some file => c.open o.1 file o.2.2
    | none => c.openFail o.1 o.2.2) c

end Asagi
