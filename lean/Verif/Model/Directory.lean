/-
The block directory: transfer/mpicache.h.

One dictionary entry is an array of `m_dictEntrySize` longs, here a `List Int` of that length.
Entry values are `rank * rankCacheSize + offset`; -1 marks an unused place. The additional long
for the mutex (template parameter `lock`) is not part of the list. The functions are written
for any entry size, the code uses 4.
-/
namespace Asagi

/-- `m_dictEntrySize`, mpicache.h 77. -/
def dictEntrySize : Nat := 4

/-- Initialisation of one dictionary entry, mpicache.h 115-117. -/
def dictInit (size : Nat) : List Int := List.replicate size (-1)

/-- The loop that counts the used places, mpicache.h 252-254 (also 159-161): stops at the first
negative value. -/
def dictCount : List Int → Nat
  | [] => 0
  | x :: xs => if x < 0 then 0 else dictCount xs + 1

/-- `fetchBlockInfo`, mpicache.h 250-261; `random` is the result of `rand()`. -/
def dictFetch (d : List Int) (random : Nat) : Int :=
  let count := dictCount d
  if count > 0 then d.getD (random % count) 0 else -1

/-- The loop `for (i = count-1; i >= 0; i--) dictEntry[i+1] = dictEntry[i]`,
mpicache.h 274-275. -/
def dictShiftUp (d : List Int) : Nat → List Int
  | 0 => d
  | i + 1 => dictShiftUp (d.set (i + 1) (d.getD i 0)) i

/-- `updateBlockInfo`, mpicache.h 156-164 and 270-279. -/
def dictAdd (d : List Int) (newEntry : Int) : List Int :=
  let count := min (dictCount d) (d.length - 1)
  (dictShiftUp d count).set 0 newEntry

/-- The search loop of `deleteBlockInfo`, mpicache.h 190-194. -/
def dictFind (d : List Int) (entry : Int) : Nat :=
  match d with
  | [] => 0
  | x :: xs => if x = entry then 0 else dictFind xs entry + 1

/-- The loop `for (; i < m_dictEntrySize-1; i++) dictEntry[i] = dictEntry[i+1]`,
mpicache.h 196-197; `n` is the number of rounds that are left. -/
def dictShiftDown (d : List Int) (i : Nat) : Nat → List Int
  | 0 => d
  | n + 1 => dictShiftDown (d.set i (d.getD (i + 1) 0)) (i + 1) n

/-- `deleteBlockInfo`, mpicache.h 188-200. -/
def dictDelete (d : List Int) (entry : Int) : List Int :=
  let i := dictFind d entry
  (dictShiftDown d i (d.length - 1 - i)).set (d.length - 1) (-1)

/-- `fetchAndUpdateBlockInfo`, mpicache.h 173-180. -/
def dictFetchAndUpdate (d : List Int) (newEntry : Int) (random : Nat) : Int × List Int :=
  (dictFetch d random, dictAdd d newEntry)

/-- The value stored for a cache slot, mpiwincache.h 320, mpithreadcache.h 631:
`rank * rankCacheSize + offset`. -/
def ownerEntry (rankCacheSize rank offset : Nat) : Nat := rank * rankCacheSize + offset

/-- mpiwincache.h 363 and mpithreadcache.h 496: `entry / rankCacheSize`. -/
def ownerRank (rankCacheSize entry : Nat) : Nat := entry / rankCacheSize

/-- mpiwincache.h 364: `entry % rankCacheSize`. -/
def ownerOffset (rankCacheSize entry : Nat) : Nat := entry % rankCacheSize

/-- A message to the directory about one block: a process announces or withdraws the cache slot
with number `e` (mpithreadcache.h 211-218, 244-251, 627-646; mpiwincache.h 318-323, 545-550). -/
inductive DictOp where
  | add (e : Nat)
  | delete (e : Nat)
deriving DecidableEq, Repr

/-- Effect of one message on the entry of the block. mpithreadcache.h 211-251, 627-646. -/
def dictStep (d : List Int) : DictOp → List Int
  | .add e => dictAdd d e
  | .delete e => dictDelete d e

/-- A sequence of messages, starting with an unused entry. mpithreadcache.h 211-251, one message after the other. -/
def dictRun (size : Nat) (ops : List DictOp) : List Int := ops.foldl dictStep (dictInit size)

end Asagi
