import Verif.Model.Blocked
import Verif.Model.Layout
/-
The index computations of grid/level/blocked.h and grid/level/full.h in machine arithmetic:
`unsigned long` and `size_t` are 64 bits, `unsigned int` (`totalDomains()`, `numaDomainId()`,
`typeSize()`, `totalThreads()`) 32 bits, `int` ranks are given as their unsigned conversion (ranks
and numbers of ranks are not negative). All operations wrap around.
-/
namespace Asagi

/-- One dimension: `m_size[i]` (level.h 99) and `m_blockSize[i]` (blocked.h 63). -/
structure MDim where
  size : UInt64
  bs : UInt64

/-- The dimension as the exact model sees it. blocked.h 56-66. -/
def MDim.exact (d : MDim) : Dim := ⟨d.size.toNat, d.bs.toNat⟩

/-- blocked.h 138. -/
def MDim.blocks (d : MDim) : UInt64 := (d.size + d.bs - 1) / d.bs

/-- blocked.h 114-141. -/
def mprodLoop : List UInt64 → UInt64 → UInt64
  | [], acc => acc
  | x :: xs, acc => mprodLoop xs (acc * x)

/-- `m_totalBlockSize`, blocked.h 115, 135. -/
def mtotalBlockSize (g : List MDim) : UInt64 := mprodLoop (g.map MDim.bs) 1

/-- `m_totalBlocks`, blocked.h 114, 141. -/
def mtotalBlocks (g : List MDim) : UInt64 := mprodLoop (g.map MDim.blocks) 1

/-- blocked.h 217-220. -/
def mblockByCoordsLoop : List MDim → List UInt64 → UInt64 → UInt64
  | d :: ds, i :: is, blockId => mblockByCoordsLoop ds is (blockId * d.blocks + i / d.bs)
  | _, _, blockId => blockId

/-- `blockByCoords`, blocked.h 213-223. -/
def mblockByCoords (g : List MDim) (index : List UInt64) : UInt64 := mblockByCoordsLoop g index 0

/-- blocked.h 301-304. -/
def mcalcOffsetInBlockLoop : List MDim → List UInt64 → UInt64 → UInt64
  | d :: ds, i :: is, offset => mcalcOffsetInBlockLoop ds is (offset * d.bs + i % d.bs)
  | _, _, offset => offset

/-- `calcOffsetInBlock`, blocked.h 298-309. -/
def mcalcOffsetInBlock (g : List MDim) (index : List UInt64) : UInt64 :=
  mcalcOffsetInBlockLoop g index 0

/-- blocked.h 204-207. -/
def mcalcBlockPositionLoop : List MDim → UInt64 → List UInt64 → List UInt64
  | [], _, pos => pos
  | d :: ds, block, pos =>
    mcalcBlockPositionLoop ds (block / d.blocks) (block % d.blocks :: pos)

/-- `calcBlockPosition`, blocked.h 202-208. -/
def mcalcBlockPosition (g : List MDim) (block : UInt64) : List UInt64 :=
  mcalcBlockPositionLoop g.reverse block []

/-- `blockPos[j] *= blockSize(j)`, full.h 118-119. -/
def mblockOrigin (g : List MDim) (block : UInt64) : List UInt64 :=
  List.zipWith (fun d p => p * d.bs) g (mcalcBlockPosition g block)

/-- `comm().size()`, `numa().totalDomains()` and ROUND_ROBIN. Used in blocked.h 182-290. -/
structure MDist where
  ranks : UInt32
  domains : UInt32
  roundRobin : Bool

/-- The configuration as the exact model sees it. blocked.h 182-290. -/
def MDist.exact (c : MDist) : Dist := ⟨c.ranks.toNat, c.domains.toNat, c.roundRobin⟩

/-- `localBlockCount`, blocked.h 190-194: the product of `unsigned int` and `int` is computed in
32 bits. -/
def MDist.localBlockCount (c : MDist) (total : UInt64) : UInt64 :=
  let cores := (c.domains * c.ranks).toUInt64
  (total + cores - 1) / cores

/-- `nodeBlockCount`, blocked.h 182-185. -/
def MDist.nodeBlockCount (c : MDist) (total : UInt64) : UInt64 :=
  c.localBlockCount total * c.domains.toUInt64

/-- `blockRank`, blocked.h 229-236: the result is converted to `int`. -/
def MDist.blockRank (c : MDist) (total id : UInt64) : UInt32 :=
  if c.roundRobin then (id % c.ranks.toUInt64).toUInt32
  else (id / c.nodeBlockCount total).toUInt32

/-- `blockDomain`, blocked.h 242-249: the result is converted to `unsigned int`. -/
def MDist.blockDomain (c : MDist) (total id : UInt64) : UInt32 :=
  if c.roundRobin then (id / c.ranks.toUInt64 % c.domains.toUInt64).toUInt32
  else (id / c.localBlockCount total % c.domains.toUInt64).toUInt32

/-- `blockOffset`, blocked.h 255-262. -/
def MDist.blockOffset (c : MDist) (total id : UInt64) : UInt64 :=
  if c.roundRobin then id / c.ranks.toUInt64 / c.domains.toUInt64
  else id % c.localBlockCount total

/-- `blockNodeOffset`, blocked.h 268-271. -/
def MDist.blockNodeOffset (c : MDist) (total id : UInt64) : UInt64 :=
  c.blockOffset total id + (c.blockDomain total id).toUInt64 * c.localBlockCount total

/-- `local2global`, blocked.h 279-290: without ROUND_ROBIN the number of the NUMA domain is computed
in 32 bits. -/
def MDist.local2global (c : MDist) (total : UInt64) (rank domain : UInt32) (id : UInt64) : UInt64 :=
  if c.roundRobin then
    (id * c.domains.toUInt64 + domain.toUInt64) * c.ranks.toUInt64 + rank.toUInt64
  else id + (domain + rank * c.domains).toUInt64 * c.localBlockCount total

/-- Size requested in full.h 102 and allocated in numacomm.h 136. -/
def mfullSize (typeSize : UInt32) (blockElems localBlocks : UInt64) : UInt64 :=
  typeSize.toUInt64 * blockElems * localBlocks

/-- numacomm.h 136: `size * totalDomains()`. -/
def mallocSize (size : UInt64) (domains : UInt32) : UInt64 := size * domains.toUInt64

/-- Start of the memory of a block within the domain, full.h 124. -/
def mfullBlockStart (typeSize : UInt32) (blockElems i : UInt64) : UInt64 :=
  typeSize.toUInt64 * blockElems * i

/-- Start of a value within the domain, full.h 160-161. -/
def mfullValueStart (typeSize : UInt32) (blockElems i offset : UInt64) : UInt64 :=
  typeSize.toUInt64 * (i * blockElems + offset)

/-- Source of `NumaFull::transfer`, numafull.h 88, 115. -/
def mnumaFullStart (typeSize : UInt32) (blockElems localBlocks : UInt64) (domain : UInt32)
    (offset : UInt64) : UInt64 :=
  (localBlocks * domain.toUInt64 + offset) * (blockElems * typeSize.toUInt64)

/-- Size of the buffers in passthrough.h 95-96 and start of the buffer of a thread, 117-118: computed
in 32 bits. -/
def mpassStart (typeSize threads : UInt32) : UInt32 := typeSize * threads

end Asagi
