/-
Model of the block replacement and the cache bookkeeping:
cache/lru.h and cache/cachelist.h.
-/
namespace Asagi

/-- Result of code that may loop or run into undefined behaviour. The loop is lru.h 104-120. -/
inductive Res (β : Type) where
  /-- normal result -/
  | ok (a : β)
  /-- undefined behaviour: out-of-bounds access, uninitialised read, modulo zero -/
  | ub
  /-- the given number of loop iterations was not sufficient -/
  | outOfFuel
deriving Repr, DecidableEq

/-- Sequence of statements, e.g. cachelist.h 97-140. -/
def Res.bind {β γ : Type} : Res β → (β → Res γ) → Res γ
  | .ok a, f => f a
  | .ub, _ => .ub
  | .outOfFuel, _ => .outOfFuel

instance : Monad Res where
  pure := Res.ok
  bind := Res.bind

/-- `class LRU`, cache/lru.h 48-61. `referenced[i] = none` means uninitialised memory
(`new bool[size]`, lru.h 87, does not initialise). -/
structure Lru where
  size : Nat
  nextPage : Nat
  nextClear : Nat
  referenced : List (Option Bool)
deriving Repr, DecidableEq

/-- `LRU::init`, lru.h 77-91. `none`: the initialisation loop (lines 89-90) writes out of
bounds because the hand spread is larger than the size. With `size = 0` the C++ code stores
the wrapped value of `size - 1`; such a cache has no slot and every use is undefined
behaviour (see `getFree`). -/
def Lru.init (size : Nat) (handDiff : Int) : Option Lru :=
  let nextClear := if handDiff < 0 then size / 2 else handDiff.toNat
  if nextClear ≤ size then
    some { size, nextPage := size - 1, nextClear,
           referenced := List.replicate nextClear (some false) ++
             List.replicate (size - nextClear) none }
  else none

/-- `LRU::access`, lru.h 96-99. -/
def Lru.access (l : Lru) (index : Nat) : Res Lru :=
  if index < l.referenced.length then
    .ok { l with referenced := l.referenced.set index (some true) }
  else .ub

/-- Loop body of `getFree`, lru.h 106-112. -/
def Lru.step (l : Lru) : Res Lru :=
  if l.nextClear < l.referenced.length ∧ 0 < l.size then
    .ok { l with
      referenced := l.referenced.set l.nextClear (some false)
      nextPage := (l.nextPage + 1) % l.size
      nextClear := (l.nextClear + 1) % l.size }
  else .ub

/-- The do-while loop of `getFree`, lru.h 106-113, with a bound on the number of
iterations. -/
def Lru.getFreeLoop : Nat → Lru → Res Lru
  | 0, _ => .outOfFuel
  | fuel + 1, l => do
    let l' ← l.step
    match l'.referenced[l'.nextPage]? with
    | some (some true) => Lru.getFreeLoop fuel l'
    | some (some false) => .ok l'
    | some none => .ub
    | none => .ub

/-- `LRU::getFree`, lru.h 104-119. The loop bound `fuel` is discussed in
`Verif.Props.Cache`: the number of slots always suffices. -/
def Lru.getFree (fuel : Nat) (l : Lru) : Res (Lru × Nat) := do
  let l' ← Lru.getFreeLoop fuel l
  let l'' ← l'.access l'.nextPage
  pure (l'', l'.nextPage)

/-- `class CacheList`, cachelist.h 57-70. A negative entry of `m_indexToBlock` (empty slot)
is `none`; `m_blockToIndex` (an `unordered_map`) is a partial function. -/
structure CacheList where
  lru : Lru
  indexToBlock : List (Option Nat)
  blockToIndex : Nat → Option Nat

/-- `CacheList::init`, cachelist.h 87-94. -/
def CacheList.init (size : Nat) (handDiff : Int) : Option CacheList := do
  let lru ← Lru.init size handDiff
  pure { lru, indexToBlock := List.replicate size none, blockToIndex := fun _ => none }

/-- `CacheList::getIndex`, cachelist.h 103-116. -/
def CacheList.getIndex (c : CacheList) (block : Nat) (access : Bool) :
    Res (CacheList × Option Nat) :=
  match c.blockToIndex block with
  | none => .ok (c, none)
  | some index =>
    if access then do
      let lru ← c.lru.access index
      pure ({ c with lru }, some index)
    else .ok (c, some index)

/-- `CacheList::getFreeIndex`, cachelist.h 123-139. Returns the slot and the evicted block
(`none` = -1). The loop bound of `getFree` is
one more than the cache size. -/
def CacheList.getFreeIndex (c : CacheList) (block : Nat) :
    Res (CacheList × Nat × Option Nat) := do
  let (lru, index) ← c.lru.getFree (c.lru.size + 1)
  match c.indexToBlock[index]? with
  | none => .ub
  | some oldBlock =>
    -- if (oldBlock >= 0) m_blockToIndex.erase(oldBlock)
    let m : Nat → Option Nat := fun b => if some b = oldBlock then none else c.blockToIndex b
    pure ({ lru, indexToBlock := c.indexToBlock.set index (some block),
            blockToIndex := fun b => if b = block then some index else m b },
          index, oldBlock)

/-- The bookkeeping part of `CacheManager::get`, cachemanager.h 119-137 (locks are the
subject of `Verif.Model.CacheDist`): slot and `oldBlockId`. -/
def CacheList.get (c : CacheList) (block : Nat) : Res (CacheList × Nat × Option Nat) := do
  match ← c.getIndex block true with
  | (c, some index) => pure (c, index, some block)
  | (c, none) => c.getFreeIndex block

/-- The bookkeeping part of `CacheManager::tryGet`, cachemanager.h 150-172, when both locks
are obtained. -/
def CacheList.peek (c : CacheList) (block : Nat) : Option Nat := c.blockToIndex block

/-- A sequence of requests; the outputs are the slot and the old block of each request.
cachelist.h 97-140, one call after the other. -/
def CacheList.run (c : CacheList) : List Nat → Res (CacheList × List (Nat × Option Nat))
  | [] => .ok (c, [])
  | b :: bs => do
    let (c', slot, old) ← c.get b
    let (c'', outs) ← c'.run bs
    pure (c'', (slot, old) :: outs)

end Asagi
