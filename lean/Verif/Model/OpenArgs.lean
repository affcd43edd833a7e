import Verif.Model.Params
import Verif.Model.Levels
import Verif.Model.Open
/-
Model of the parameters `Grid::open` passes to the level, grid/grid.cpp 226-240, and of the members
`SimpleContainer::init` sets, grid/simplecontainer.h 78-112, grid/container.h 121-144.
-/
namespace Asagi

/-- The arguments of `Container::init` (without file name and level), grid.cpp 235-240. -/
structure OpenArgs where
  varName : Str
  blockSizes : List Int
  cacheSize : Nat
  handSpread : Int
deriving DecidableEq

/-- `"BLOCK_SIZE_" + toString(i)`, grid.cpp 228; `i < MAX_DIMENSIONS` has one digit. -/
def blockSizeName (i : Nat) : Str := "BLOCK_SIZE_".toList ++ [Char.ofNat ('0'.toNat + i)]

/-- The parameters of a level, grid.cpp 226-240. -/
def openArgs (ps : Params) (level : Nat) : OpenArgs where
  varName := paramString ps "VARIABLE".toList "z".toList level
  blockSizes := (List.range maxDimensions).map fun i => paramInt ps (blockSizeName i) 0 level
  cacheSize := paramUnsigned ps "CACHE_SIZE".toList 128 level
  handSpread := paramInt ps "CACHE_HAND_SPREAD".toList (-1) level

/-- The time dimension used by all levels, grid.cpp 71. -/
def timeDimension (ps : Params) : Int := paramInt ps "TIME_DIMENSION".toList (-1) 0

/-- The file as far as the library looks at it: for each variable its dimensions and values.
netcdfreader.cpp 73-128. -/
def VarFile (α : Type) : Type := Str → Option (List NcAxis × (List Nat → α))

/-- `SimpleContainer`: the levels (`none`: constructed, not opened), and the members of `Container`
(container.h 74-78). -/
structure ContainerState (α : Type) where
  levels : List (Option (LevelCfg α))
  dims : Nat
  min : List Dbl
  max : List Dbl

/-- `Grid::open` of one domain after the containers exist: grid.cpp 226-240, `SimpleContainer::init`,
simplecontainer.h 78-112, with `Level::open` and `Blocked::open`. `none`: an error is returned or the
behaviour is undefined. Simplified: the copies made when the vector of levels grows keep the levels that
are already open (see C42 for what really happens); the level's storage is opened separately
(`Model/Levels.lean`). -/
def ContainerState.init {α : Type} (fp : Fp) (ps : Params) (basic : Bool) (s : ContainerState α)
    (file : VarFile α) (level : Nat) (junk : BlockedState) : Option (ContainerState α) := do
  let args := openArgs ps level
  let levels := s.levels ++ List.replicate (level + 1 - s.levels.length) none
  let (nc, val) ← file args.varName
  let cfg ← openLevel fp (cellCentered ps) nc val basic args.blockSizes (timeDimension ps) junk
  let levels := levels.set level (some cfg)
  if level = 0 then
    -- lines 103-109: the members for dimensions beyond those of the level keep their values
    let mins ← (List.range nc.length).mapM fun i => getMin cfg.axes i
    let maxs ← (List.range nc.length).mapM fun i => getMax cfg.axes i
    pure { levels, dims := nc.length, min := mins ++ s.min.drop nc.length,
           max := maxs ++ s.max.drop nc.length }
  else
    pure { s with levels }

/-- `Grid::getMin`, grid.h 129-132, container.h 129-134. -/
def ContainerState.getMin {α : Type} (s : ContainerState α) (n : Nat) : Option Dbl := s.min[n]?

/-- `Grid::getMax`, grid.h 134-137, container.h 139-144. -/
def ContainerState.getMax {α : Type} (s : ContainerState α) (n : Nat) : Option Dbl := s.max[n]?

/-- `Grid::getDelta`, grid.h 139-142, simplecontainer.h 114-120. -/
def ContainerState.getDelta {α : Type} (s : ContainerState α) (n level : Nat) : Option Dbl := do
  let l ← s.levels[level]?
  let cfg ← l
  Asagi.getDelta cfg.axes n

/-- A new container, container.h 84-92; `min` and `max` are uninitialised. -/
def ContainerState.new {α : Type} (junkMin junkMax : List Dbl) : ContainerState α :=
  { levels := [], dims := 0, min := junkMin, max := junkMax }

/-- One call of `Grid::open`: the file, the level, and the contents of uninitialised members. grid.cpp 214-249. -/
structure OpenCall (α : Type) where
  file : VarFile α
  level : Nat
  junk : BlockedState

/-- A sequence of successful calls of `Grid::open`. grid.cpp 214-249, one call after the other. -/
def openAll {α : Type} (fp : Fp) (ps : Params) (basic : Bool) (s : ContainerState α)
    (ops : List (OpenCall α)) : Option (ContainerState α) :=
  ops.foldlM (fun s op => s.init fp ps basic op.file op.level op.junk) s

end Asagi
