/-
Model of the block decomposition, grid/level/blocked.h.

All arrays `x[MAX_DIMENSIONS]` are lists with one entry per dimension, in the order of the
netCDF file (index 0 = slowest varying dimension), exactly like `m_blocks`, `m_blockSize`
and `index` in the C++ code.  `unsigned long`/`size_t` are unbounded naturals here;
`Verif.Props.Machine` shows when the machine arithmetic agrees.
-/
namespace Asagi

/-- One dimension of an opened level: `size(i)` (level.h 344-347) and `m_blockSize[i]`
(blocked.h 63). -/
structure Dim where
  size : Nat
  bs : Nat
deriving Repr, DecidableEq

/-- `m_blocks[i] = (size(i) + m_blockSize[i] - 1) / m_blockSize[i]`, blocked.h 138. -/
def Dim.blocks (d : Dim) : Nat := (d.size + d.bs - 1) / d.bs

/-- The product accumulated by the loops in blocked.h 114-141
(`m_totalBlocks *= ...`, `m_totalBlockSize *= ...`). -/
def prodLoop : List Nat → Nat → Nat
  | [], acc => acc
  | x :: xs, acc => prodLoop xs (acc * x)

/-- `m_totalBlockSize`, blocked.h 115, 135. -/
def totalBlockSize (g : List Dim) : Nat := prodLoop (g.map Dim.bs) 1

/-- `m_totalBlocks`, blocked.h 114, 141. -/
def totalBlocks (g : List Dim) : Nat := prodLoop (g.map Dim.blocks) 1

/-! ### Blocked::open, blocked.h 89-145 -/

/-- Value assigned to `m_blockSize[i]` by the loop, blocked.h 117-132: the parameter is
`blockSize[dims-i-1]`. -/
def loopBlockSize (size : Nat) (param : Int) : Nat :=
  let b := if param = 0 then 64 else if param < 0 then size else param.toNat
  if b > size then size else b

/-- The members written by `Blocked::open`. `blockSize` and `blocks` are the arrays
`m_blockSize[MAX_DIMENSIONS]`, `m_blocks[MAX_DIMENSIONS]`; their contents before `open` are
arbitrary. blocked.h 56-66. -/
structure BlockedState where
  blockSize : List Nat
  blocks : List Nat
  totalBlockSize : Nat
  totalBlocks : Nat
deriving Repr, DecidableEq

/-- One iteration of the loop blocked.h 116-142. `none` = division by zero in line 138
(undefined behaviour, only if the file dimension has size 0) or an array access out of
bounds. -/
def blockedOpenStep (size : List Nat) (param : List Int) (st : BlockedState) (i : Nat) :
    Option BlockedState := do
  let s ← size[i]?
  let p ← param[size.length - i - 1]?
  let b := loopBlockSize s p
  if b = 0 ∨ st.blockSize.length ≤ i ∨ st.blocks.length ≤ i then none
  else some {
    blockSize := st.blockSize.set i b
    blocks := st.blocks.set i ((s + b - 1) / b)
    totalBlockSize := st.totalBlockSize * b
    totalBlocks := st.totalBlocks * ((s + b - 1) / b) }

/-- Lines 100-111: an invalid time dimension is ignored; otherwise the block size of the
time dimension is set to 1 if the user did not set it. (blocked.h) -/
def blockedOpenTime (dims : Nat) (param : List Int) (timeDim : Int) (blockSize : List Nat) :
    List Nat :=
  let timeDim := if timeDim ≥ (dims : Int) then -1 else timeDim
  if timeDim ≥ 0 ∧ param[timeDim.toNat]? = some 0 then
    blockSize.set (dims - timeDim.toNat - 1) 1
  else blockSize

/-- `Blocked::open` after `Level::open` succeeded, blocked.h 100-144.
`size` are the file's dimension sizes in file order, `param` the user's `BLOCK_SIZE_n`
values (0 = not set) in API order, `junk` the contents of the arrays before the call. -/
def blockedOpen (size : List Nat) (param : List Int) (timeDim : Int) (junk : BlockedState) :
    Option BlockedState :=
  (List.range size.length).foldlM (blockedOpenStep size param)
    { junk with
      blockSize := blockedOpenTime size.length param timeDim junk.blockSize
      totalBlockSize := 1
      totalBlocks := 1 }

/-- The geometry used by all later computations, read off the members set by `open`. blocked.h 150-169. -/
def BlockedState.geometry (st : BlockedState) (size : List Nat) : List Dim :=
  List.zipWith Dim.mk size st.blockSize

/-! ### Index computations -/

/-- Loop of `calcBlockPosition`, blocked.h 204-207: runs from the last dimension to the
first, here over the reversed dimension list. -/
def calcBlockPositionLoop : List Dim → Nat → List Nat → List Nat
  | [], _, pos => pos
  | d :: ds, block, pos =>
    calcBlockPositionLoop ds (block / d.blocks) (block % d.blocks :: pos)

/-- `calcBlockPosition`, blocked.h 202-208. -/
def calcBlockPosition (g : List Dim) (block : Nat) : List Nat :=
  calcBlockPositionLoop g.reverse block []

/-- Loop of `blockByCoords`, blocked.h 217-220. -/
def blockByCoordsLoop : List Dim → List Nat → Nat → Nat
  | d :: ds, i :: is, blockId => blockByCoordsLoop ds is (blockId * d.blocks + i / d.bs)
  | _, _, blockId => blockId

/-- `blockByCoords`, blocked.h 213-223. -/
def blockByCoords (g : List Dim) (index : List Nat) : Nat := blockByCoordsLoop g index 0

/-- Loop of `calcOffsetInBlock`, blocked.h 301-304. -/
def calcOffsetInBlockLoop : List Dim → List Nat → Nat → Nat
  | d :: ds, i :: is, offset => calcOffsetInBlockLoop ds is (offset * d.bs + i % d.bs)
  | _, _, offset => offset

/-- `calcOffsetInBlock`, blocked.h 298-309. -/
def calcOffsetInBlock (g : List Dim) (index : List Nat) : Nat :=
  calcOffsetInBlockLoop g index 0

/-- `blockPos[j] *= blockSize(j)`, full.h 118-119: coordinates of the first value in a
block. -/
def blockOrigin (g : List Dim) (block : Nat) : List Nat :=
  List.zipWith (fun d p => p * d.bs) g (calcBlockPosition g block)

/-! ### Distribution of the blocks over processes and NUMA domains -/

/-- The parallel configuration: `comm().size()`, `numa().totalDomains()` and the
compile-time option ROUND_ROBIN (CMakeLists.txt, default ON).
Used in blocked.h 182-290; mpicomm.h 140, numa.h 130, CMakeLists.txt 57. -/
structure Dist where
  ranks : Nat
  domains : Nat
  roundRobin : Bool
deriving Repr, DecidableEq

/-- `localBlockCount`, blocked.h 190-194. -/
def Dist.localBlockCount (c : Dist) (total : Nat) : Nat :=
  let cores := c.domains * c.ranks
  (total + cores - 1) / cores

/-- `nodeBlockCount`, blocked.h 182-185. -/
def Dist.nodeBlockCount (c : Dist) (total : Nat) : Nat := c.localBlockCount total * c.domains

/-- `blockRank`, blocked.h 229-236. -/
def Dist.blockRank (c : Dist) (total id : Nat) : Nat :=
  if c.roundRobin then id % c.ranks else id / c.nodeBlockCount total

/-- `blockDomain`, blocked.h 242-249. -/
def Dist.blockDomain (c : Dist) (total id : Nat) : Nat :=
  if c.roundRobin then (id / c.ranks) % c.domains
  else (id / c.localBlockCount total) % c.domains

/-- `blockOffset`, blocked.h 255-262. -/
def Dist.blockOffset (c : Dist) (total id : Nat) : Nat :=
  if c.roundRobin then id / c.ranks / c.domains else id % c.localBlockCount total

/-- `blockNodeOffset`, blocked.h 268-271. -/
def Dist.blockNodeOffset (c : Dist) (total id : Nat) : Nat :=
  c.blockOffset total id + c.blockDomain total id * c.localBlockCount total

/-- `local2global`, blocked.h 279-290, on process `rank`, NUMA domain `domain`. -/
def Dist.local2global (c : Dist) (total rank domain id : Nat) : Nat :=
  if c.roundRobin then (id * c.domains + domain) * c.ranks + rank
  else id + (domain + rank * c.domains) * c.localBlockCount total

end Asagi
