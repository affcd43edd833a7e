import Verif.Model.Machine
import Verif.Model.Directory
/-
The block directory in machine arithmetic (`unsigned long` and `long` 64 bits, `unsigned int` 32 bits):
transfer/mpicache.h, the directory messages of transfer/mpithreadcache.h, grid/level/cachedist.h 157 and
the numbers of the threads in mpi/mutex.h. Ranks are `int`, given as their unsigned conversion.
-/
namespace Asagi

/-- `m_rankCacheSize = cacheSize * numaComm.totalDomains()`, mpicache.h 101: the product of two
`unsigned int` is computed in 32 bits and extended afterwards. -/
def mrankCacheSize (cacheSize domains : UInt32) : UInt64 := (cacheSize * domains).toUInt64

/-- `cacheOffset + m_cacheSize * this->numaDomainId()`, cachedist.h 157, 166, 184, 200: the product is
computed in 32 bits. -/
def mslotOffset (cacheOffset : UInt64) (cacheSize domain : UInt32) : UInt64 :=
  cacheOffset + (cacheSize * domain).toUInt64

/-- `rank * rankCacheSize() + offset`, mpithreadcache.h 631, 645, mpiwincache.h 320, 323, 547, 550. -/
def mdirEntry (rankCacheSize : UInt64) (rank : UInt32) (offset : UInt64) : UInt64 :=
  rank.toUInt64 * rankCacheSize + offset

/-- `entry / rankCacheSize()`, converted to `int`, mpithreadcache.h 496, mpiwincache.h 363. `none`:
division by zero. -/
def mentryRank (rankCacheSize entry : UInt64) : Option UInt32 :=
  if rankCacheSize = 0 then none else some (entry / rankCacheSize).toUInt32

/-- `entry % rankCacheSize()`, mpiwincache.h 364. -/
def mentryOffset (rankCacheSize entry : UInt64) : Option UInt64 :=
  if rankCacheSize = 0 then none else some (entry % rankCacheSize)

/-- The message about a change of the directory, mpithreadcache.h 573, 599. -/
def mdirMsg (rankCacheSize dictOffset offset : UInt64) : UInt64 := dictOffset * rankCacheSize + offset

/-- The receiver of this message, mpithreadcache.h 214-215, 247-248: number of the entry and of the slot
of the sender. -/
def mdirMsgDecode (rankCacheSize data : UInt64) : Option (UInt64 × UInt64) :=
  if rankCacheSize = 0 then none else some (data / rankCacheSize, data % rankCacheSize)

/-- `dictionary(entry)`, mpicache.h 221-224, index of the first long; `total` is
`totalDictEntrySize()`. -/
def mdictIndex (entry : UInt64) (total : UInt32) : UInt64 := entry * total.toUInt64

/-- Number of longs that are allocated, mpicache.h 105-107. -/
def mdictLongs (blockCount : UInt64) (total domains : UInt32) : UInt64 :=
  blockCount * total.toUInt64 * domains.toUInt64

/-- The first and the last + 1 long that domain `d` initialises, mpicache.h 115-116: `m_numaDomainId+1`
is computed in 32 bits. -/
def mdictInitRange (blockCount : UInt64) (total d : UInt32) : UInt64 × UInt64 :=
  (blockCount * total.toUInt64 * d.toUInt64, blockCount * total.toUInt64 * (d + 1).toUInt64)

/-- mpicache.h 252-254. -/
def mdictCount : List Int64 → Nat
  | [] => 0
  | x :: xs => if x < 0 then 0 else mdictCount xs + 1

/-- `fetchBlockInfo`, mpicache.h 250-261. -/
def mdictFetch (d : List Int64) (random : Nat) : Int64 :=
  let count := mdictCount d
  if count > 0 then d.getD (random % count) 0 else -1

/-- mpicache.h 274-275. -/
def mdictShiftUp (d : List Int64) : Nat → List Int64
  | 0 => d
  | i + 1 => mdictShiftUp (d.set (i + 1) (d.getD i 0)) i

/-- `updateBlockInfo`, mpicache.h 270-279; the new entry is converted from `unsigned long` to `long`. -/
def mdictAdd (d : List Int64) (newEntry : UInt64) : List Int64 :=
  let count := min (mdictCount d) (d.length - 1)
  (mdictShiftUp d count).set 0 newEntry.toInt64

/-- mpicache.h 190-194. -/
def mdictFind (d : List Int64) (entry : Int64) : Nat :=
  match d with
  | [] => 0
  | x :: xs => if x = entry then 0 else mdictFind xs entry + 1

/-- mpicache.h 196-197. -/
def mdictShiftDown (d : List Int64) (i : Nat) : Nat → List Int64
  | 0 => d
  | n + 1 => mdictShiftDown (d.set i (d.getD (i + 1) 0)) (i + 1) n

/-- `deleteBlockInfo`, mpicache.h 188-200; the argument is converted from `unsigned long` to `long`. -/
def mdictDelete (d : List Int64) (entry : UInt64) : List Int64 :=
  let i := mdictFind d entry.toInt64
  (mdictShiftDown d i (d.length - 1 - i)).set (d.length - 1) (-1)

/-- A change of the directory: `addBlock` (true) or `deleteBlock` with the entry. mpicache.h 156-200. -/
def mdictStep (d : List Int64) (op : Bool × UInt64) : List Int64 :=
  if op.1 then mdictAdd d op.2 else mdictDelete d op.2

/-- The changes of one entry, mpicache.h 115-117 at the beginning. -/
def mdictRun (size : Nat) (ops : List (Bool × UInt64)) : List Int64 :=
  ops.foldl mdictStep (List.replicate size (-1))

/-- `lockId`, mpi/mutex.h 208-211: computed in 32 bits, converted to `long`. -/
def mlockId (rank totalThreads threadId : UInt32) : Int64 :=
  (rank * totalThreads + threadId).toUInt64.toInt64

/-- `wait`, mpi/mutex.h 162-163: the rank and the thread that have the mutex (`long / unsigned int` is
computed in 64 bits). `none`: division by zero. -/
def mlockOwner (totalThreads : UInt32) (oldLock : Int64) : Option (UInt32 × UInt32) :=
  if totalThreads = 0 then none
  else
    let n := totalThreads.toUInt64.toInt64
    some ((oldLock / n).toUInt64.toUInt32, (oldLock % n).toUInt64.toUInt32)

end Asagi
