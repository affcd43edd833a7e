import Verif.Model.Trans
import Verif.Model.Lru
import Verif.Model.Directory
/-
Concurrent accesses to a CACHE grid that is shared between threads, NUMA domains and processes:
grid/level/cachedist.h, cache/cachemanager.h, transfer/numacache.h, transfer/mpiwincache.h,
transfer/mpithreadcache.h. The grid without sharing (grid/level/cache.h) is the special case
without NUMA and MPI.

One step is one atomic action of one thread. Blocks are copied and loaded value by value, so that
every thread can observe partly filled slots.

Domains have global numbers: domain `i` of process `r` is `r * domains + i`. Threads of the user
have numbers, `dom t` is the domain of thread `t`; each process also has one communication thread.

Simplifications. Mutexes are atomic; the distributed lock of a directory entry is one atomic lock
(this is justified by `Verif.Props.WinCache`) and the access to the entry happens in the step that
takes the lock, because the entry is never accessed without its lock. The replies of the
communication thread reach the thread that sent the request (justified by `Verif.Props.MsgCache`, see
also `Verif.Props.Messages`); the lookup in a remote directory is one step, at the moment in which
the communication thread answers it. The
processes share one numbering of blocks and one file (`file b k` is value `k` of block `b`, see
`Verif.Props.Values` for its computation from the variable). The number of threads is unbounded.
-/
namespace Asagi

/-- A thread of the user or the communication thread of a process.
The getters are called by the former, cachedist.h 135; the latter executes commthread.h 280-315. -/
inductive Agent where
  | user (t : Nat)
  | comm (r : Nat)
deriving DecidableEq, Repr

/-- The MPI part of the level: `MPINo`, `MPIWinCache` or `MPIThreadCache`, cachedist.h 217-239. -/
inductive DistMode where
  | none
  | window
  | thread
deriving DecidableEq, Repr

/-- What the user, the system and the file choose for the shared caches: arguments of `CacheDist::open`,
cachedist.h 96-129. -/
structure DistParams (β : Type) where
  /-- NUMA domains of each process -/
  domains : Nat
  /-- slots in the cache of each domain -/
  size : Nat
  handDiff : Int
  /-- values of a block -/
  cells : Nat
  /-- value of a block in the file -/
  file : Nat → Nat → β
  /-- is the value inside of the grid? Blocks at the upper border have more values than the grid,
  the additional ones are undefined (netcdfreader.h 195-218) -/
  inside : Nat → Nat → Prop
  /-- content of the cache after its allocation, cachemanager.h 102 -/
  zero : β
  /-- domain of each thread -/
  dom : Nat → Nat
  /-- the process with the directory entry of a block (`blockRank`) -/
  home : Nat → Nat
  mode : DistMode
  /-- Does a thread of domain `d` look for block `b` in the caches of the other domains? For CACHE
  grids: `NumaCache` (true) or `NumaNo` (false), for all blocks. FULL grids:
  `Verif.Model.FullDistConc`. -/
  numa : Nat → Nat → Bool
  /-- build without thread support: `try_lock` always fails, threads/noopmutex.h 61-64 -/
  noop : Bool

/-- The values of a block that a getter can need.
Offsets in a block, blocked.h 298-309, of positions that level.h 356-371 computes. -/
def DistParams.valid {β : Type} (P : DistParams β) (b k : Nat) : Prop :=
  k < P.cells ∧ P.inside b k

/-- Process of a domain. Numbering of the model, see above; compare mpiwincache.h 363. -/
def DistParams.rankOf {β : Type} (P : DistParams β) (d : Nat) : Nat := d / P.domains

/-- `MPICache::rankCacheSize`, mpicache.h 101, 133-136. -/
def DistParams.rankCache {β : Type} (P : DistParams β) : Nat := P.domains * P.size

/-- The directory entry for a slot, cachedist.h 157 (`cacheOffset + m_cacheSize * numaDomainId()`)
and mpiwincache.h 316. -/
def DistParams.entry {β : Type} (P : DistParams β) (d s : Nat) : Nat :=
  ownerEntry P.rankCache (P.rankOf d) (s + P.size * (d % P.domains))

/-- The domain whose memory contains the slot of an entry: the caches of the domains of a process
follow each other, mpiwincache.h 363-396. -/
def DistParams.entryDom {β : Type} (P : DistParams β) (e : Nat) : Nat :=
  ownerRank P.rankCache e * P.domains + ownerOffset P.rankCache e / P.size

/-- The slot of an entry in the cache of its domain. mpiwincache.h 364-371. -/
def DistParams.entrySlot {β : Type} (P : DistParams β) (e : Nat) : Nat :=
  ownerOffset P.rankCache e % P.size

/-- Where a thread with a locked slot is; lines of cachedist.h. -/
inductive Phase (β : Type) where
  /-- the slot has to be filled, before `deleteBlock` for the old block, 154-157 -/
  | del (old : Option Nat)
  /-- (window) the old entry is deleted, its lock not yet released -/
  | delLocked (old : Nat)
  /-- NUMA transfer, before asking domain `i`, 160, numacache.h 118 -/
  | numa (i : Nat)
  /-- has the mutex of the cache of domain `i`, cachemanager.h 156 -/
  | numaCm (i : Nat)
  /-- copies from the locked slot `s` of domain `i`, `k` values done, numacache.h 125 -/
  | numaCopy (i s k : Nat)
  /-- copied, before `addBlock`, 163 -/
  | add
  /-- (window) the new entry is added, its lock not yet released -/
  | addLocked
  /-- before `startTransfer`, 181 -/
  | start
  /-- `startTransfer` has returned `e`, before `transfer`, 187 -/
  | xfer (e : Int)
  /-- (window) copies from the slot with entry `e`, mpiwincache.h 371, 389 -/
  | copy (e k : Nat)
  /-- (communication thread) the request is sent to process `r`, mpithreadcache.h 500-519 -/
  | ask (r : Nat)
  /-- (communication thread) receives the block, mpithreadcache.h 523 -/
  | recv (buf : Nat → β) (k : Nat)
  /-- loads the block from the file, 194 -/
  | load (k : Nat)
  /-- the block is complete, before `endTransfer`, 197 -/
  | fin
  /-- before the conversion, 210 -/
  | use
  /-- the value is stored in the buffer of the user, before unlocking the slot, 213 -/
  | out (v : β)

/-- Where a thread is: inside of a getter (cachedist.h 135-214 and the functions called there) or, for
communication threads, inside of `BlockTransferer::recv` (mpithreadcache.h 137-185). -/
inductive Pc (β : Type) where
  /-- a thread outside of the getters; a communication thread that waits for messages -/
  | idle
  /-- the getter needs value `off` of block `b`; before `m_cacheMutex.lock()`, cachemanager.h 121 -/
  | wantCm (b off : Nat)
  /-- has the mutex of the cache, waits for the slot, cachemanager.h 130 -/
  | wantSlot (b off s : Nat) (old : Option Nat)
  /-- has the lock of slot `s` of its own domain, assigned to block `b` -/
  | own (b off s : Nat) (ph : Phase β)
  /-- communication thread, request of thread `t` for block `b`, before asking domain `i`,
  mpithreadcache.h 148 -/
  | tryDom (t b i : Nat)
  /-- has the mutex of the cache of domain `i` -/
  | tryCm (t b i : Nat)
  /-- sends slot `s` of domain `i`, `k` values are in the message `buf`, mpithreadcache.h 157 -/
  | send (t b i s k : Nat) (buf : Nat → β)
  /-- the message is sent, before unlocking the slot, mpithreadcache.h 169 -/
  | sent (i s : Nat)

/-- The shared state: members of the caches (cachemanager.h 55-69), the directory (mpicache.h 55-72) and the
transfer classes (mpiwincache.h 74-103, mpithreadcache.h 255-304), and the positions of the threads. -/
structure DistState (β : Type) where
  /-- bookkeeping of each domain -/
  cl : Nat → CacheList
  /-- `m_cacheMutex` of each domain -/
  cm : Nat → Option Agent
  /-- `m_blockMutexes` of each (domain, slot) -/
  lk : Nat × Nat → Option Agent
  /-- the cache memory: domain, slot, value -/
  data : Nat → Nat → Nat → β
  /-- directory entry of each block -/
  dir : Nat → List Int
  /-- (window) the lock of each directory entry -/
  dl : Nat → Option Agent
  /-- (communication thread) `m_blockMutex` of each process -/
  blk : Nat → Option Agent
  /-- directory updates on the way from one process to another, oldest first -/
  net : Nat → Nat → List (Nat × DictOp)
  /-- reply for a thread: `some none` the transfer failed, `some (some buf)` the block -/
  box : Nat → Option (Option (Nat → β))
  pc : Agent → Pc β

/-- All domains are opened (cachedist.h 96-129). -/
def DistState.start {β : Type} (P : DistParams β) (c : CacheList) : DistState β :=
  { cl := fun _ => c, cm := fun _ => none, lk := fun _ => none, data := fun _ _ _ => P.zero,
    dir := fun _ => dictInit dictEntrySize, dl := fun _ => none, blk := fun _ => none,
    net := fun _ _ => [], box := fun _ => none, pc := fun _ => .idle }

/-- Write one value of a slot. One value of `m_cache`, cachemanager.h 56. -/
def setCell {β : Type} (m : Nat → Nat → Nat → β) (d s k : Nat) (v : β) : Nat → Nat → Nat → β :=
  fun d' s' k' => if d' = d ∧ s' = s ∧ k' = k then v else m d' s' k'

/-- A directory update by the process `r`: at once if the entry is stored there, otherwise as a
message (mpithreadcache.h 565-603). -/
def DistState.sendOp {β : Type} (st : DistState β) (P : DistParams β) (r b : Nat) (op : DictOp) :
    DistState β :=
  if P.home b = r then { st with dir := upd st.dir b (dictStep (st.dir b) op) }
  else { st with net := upd st.net r (upd (st.net r) (P.home b) (st.net r (P.home b) ++ [(b, op)])) }

/-- The thread continues in phase `ph`. Within cachedist.h 146-214. -/
def DistState.goto {β : Type} (st : DistState β) (t b off s : Nat) (ph : Phase β) : DistState β :=
  { st with pc := upd st.pc (.user t) (.own b off s ph) }

/-- Steps of the threads of the user. Throughout, `d` is the domain of the thread and `r` its
process. cachedist.h 135-214; lines at the steps. -/
inductive UserStep {β : Type} (P : DistParams β) : Nat → DistState β → DistState β → Prop
  /-- a getter is called, cachedist.h 136-146 -/
  | call (st) (t b off : Nat) : st.pc (.user t) = .idle → P.valid b off →
      UserStep P t st { st with pc := upd st.pc (.user t) (.wantCm b off) }
  /-- `CacheManager::get`, cachemanager.h 121-127 -/
  | lookup (st) (t b off s : Nat) (c' : CacheList) (old : Option Nat) :
      st.pc (.user t) = .wantCm b off → st.cm (P.dom t) = none →
      (st.cl (P.dom t)).get b = .ok (c', s, old) →
      UserStep P t st { st with
        cl := upd st.cl (P.dom t) c'
        cm := upd st.cm (P.dom t) (some (.user t))
        pc := upd st.pc (.user t) (.wantSlot b off s old) }
  /-- cachemanager.h 130-131 and cachedist.h 152 -/
  | lockSlot (st) (t b off s : Nat) (old : Option Nat) :
      st.pc (.user t) = .wantSlot b off s old → st.lk (P.dom t, s) = none →
      UserStep P t st { st with
        lk := upd st.lk (P.dom t, s) (some (.user t))
        cm := upd st.cm (P.dom t) none
        pc := upd st.pc (.user t) (.own b off s (if old = some b then .use else .del old)) }
  /-- `deleteBlock` does nothing: no old block, or no MPI -/
  | delSkip (st) (t b off s : Nat) (old : Option Nat) :
      st.pc (.user t) = .own b off s (.del old) → old = none ∨ P.mode = .none →
      UserStep P t st (st.goto t b off s (.numa 0))
  /-- mpiwincache.h 465-559 -/
  | delWin (st) (t b off s o : Nat) :
      st.pc (.user t) = .own b off s (.del (some o)) → P.mode = .window → st.dl o = none →
      UserStep P t st ({ st with
        dl := upd st.dl o (some (.user t))
        dir := upd st.dir o (dictDelete (st.dir o) (P.entry (P.dom t) s)) }.goto t b off s (.delLocked o))
  /-- mpiwincache.h 563-566 -/
  | delWinEnd (st) (t b off s o : Nat) : st.pc (.user t) = .own b off s (.delLocked o) →
      UserStep P t st ({ st with dl := upd st.dl o none }.goto t b off s (.numa 0))
  /-- mpithreadcache.h 587-603 -/
  | delThread (st) (t b off s o : Nat) :
      st.pc (.user t) = .own b off s (.del (some o)) → P.mode = .thread →
      UserStep P t st ((st.sendOp P (P.rankOf (P.dom t)) o
        (.delete (P.entry (P.dom t) s))).goto t b off s (.numa 0))
  /-- all domains were asked without success, or no NUMA transfer (numano.h) -/
  | numaEnd (st) (t b off s i : Nat) :
      st.pc (.user t) = .own b off s (.numa i) → P.numa (P.dom t) b = false ∨ P.domains ≤ i →
      UserStep P t st (st.goto t b off s .start)
  /-- the own domain, numacache.h 118-119 -/
  | numaOwn (st) (t b off s i : Nat) :
      st.pc (.user t) = .own b off s (.numa i) → P.numa (P.dom t) b = true → i < P.domains →
      i = P.dom t % P.domains → UserStep P t st (st.goto t b off s (.numa (i + 1)))
  /-- `tryGet`: the mutex of the cache is not available, cachemanager.h 152-154 -/
  | numaBusy (st) (t b off s i : Nat) :
      st.pc (.user t) = .own b off s (.numa i) → P.numa (P.dom t) b = true → i < P.domains →
      i ≠ P.dom t % P.domains →
      P.noop = true ∨ st.cm (P.rankOf (P.dom t) * P.domains + i) ≠ none →
      UserStep P t st (st.goto t b off s (.numa (i + 1)))
  | numaTry (st) (t b off s i : Nat) :
      st.pc (.user t) = .own b off s (.numa i) → P.numa (P.dom t) b = true → i < P.domains →
      i ≠ P.dom t % P.domains → P.noop = false →
      st.cm (P.rankOf (P.dom t) * P.domains + i) = none →
      UserStep P t st ({ st with
        cm := upd st.cm (P.rankOf (P.dom t) * P.domains + i) (some (.user t)) }.goto t b off s (.numaCm i))
  /-- `tryGet`: the block is not in the cache or its slot is locked, cachemanager.h 156-166 -/
  | numaMiss (st) (t b off s i : Nat) :
      st.pc (.user t) = .own b off s (.numaCm i) →
      (∀ s', (st.cl (P.rankOf (P.dom t) * P.domains + i)).peek b = some s' →
        st.lk (P.rankOf (P.dom t) * P.domains + i, s') ≠ none) →
      UserStep P t st ({ st with
        cm := upd st.cm (P.rankOf (P.dom t) * P.domains + i) none }.goto t b off s (.numa (i + 1)))
  /-- `tryGet` succeeds, cachemanager.h 163-171 -/
  | numaHit (st) (t b off s i s' : Nat) :
      st.pc (.user t) = .own b off s (.numaCm i) →
      (st.cl (P.rankOf (P.dom t) * P.domains + i)).peek b = some s' →
      st.lk (P.rankOf (P.dom t) * P.domains + i, s') = none →
      UserStep P t st ({ st with
        lk := upd st.lk (P.rankOf (P.dom t) * P.domains + i, s') (some (.user t))
        cm := upd st.cm (P.rankOf (P.dom t) * P.domains + i) none }.goto t b off s (.numaCopy i s' 0))
  /-- `memcpy`, numacache.h 125 -/
  | numaCell (st) (t b off s i s' k : Nat) :
      st.pc (.user t) = .own b off s (.numaCopy i s' k) → k < P.cells →
      UserStep P t st ({ st with
        data := setCell st.data (P.dom t) s k
          (st.data (P.rankOf (P.dom t) * P.domains + i) s' k) }.goto t b off s (.numaCopy i s' (k + 1)))
  /-- numacache.h 126-127 -/
  | numaDone (st) (t b off s i s' k : Nat) :
      st.pc (.user t) = .own b off s (.numaCopy i s' k) → P.cells ≤ k →
      UserStep P t st ({ st with
        lk := upd st.lk (P.rankOf (P.dom t) * P.domains + i, s') none }.goto t b off s .add)
  | addNone (st) (t b off s : Nat) : st.pc (.user t) = .own b off s .add → P.mode = .none →
      UserStep P t st (st.goto t b off s .use)
  /-- `addBlock`, mpiwincache.h 450-455; the result of `startTransfer` is not used -/
  | addWin (st) (t b off s : Nat) : st.pc (.user t) = .own b off s .add → P.mode = .window →
      st.dl b = none →
      UserStep P t st ({ st with
        dl := upd st.dl b (some (.user t))
        dir := upd st.dir b (dictAdd (st.dir b) (P.entry (P.dom t) s)) }.goto t b off s .addLocked)
  | addWinEnd (st) (t b off s : Nat) : st.pc (.user t) = .own b off s .addLocked →
      UserStep P t st ({ st with dl := upd st.dl b none }.goto t b off s .use)
  /-- mpithreadcache.h 565-577 -/
  | addThread (st) (t b off s : Nat) : st.pc (.user t) = .own b off s .add → P.mode = .thread →
      UserStep P t st ((st.sendOp P (P.rankOf (P.dom t)) b
        (.add (P.entry (P.dom t) s))).goto t b off s .use)
  /-- `MPINo::startTransfer` returns -1, mpino.h -/
  | startNone (st) (t b off s : Nat) : st.pc (.user t) = .own b off s .start → P.mode = .none →
      UserStep P t st (st.goto t b off s (.xfer (-1)))
  /-- `startTransfer`, mpiwincache.h 243-344; `rnd` is the result of `rand()` -/
  | startWin (st) (t b off s rnd : Nat) : st.pc (.user t) = .own b off s .start →
      P.mode = .window → st.dl b = none →
      UserStep P t st ({ st with
        dl := upd st.dl b (some (.user t))
        dir := upd st.dir b (dictFetchAndUpdate (st.dir b) (P.entry (P.dom t) s) rnd).2
        }.goto t b off s (.xfer (dictFetchAndUpdate (st.dir b) (P.entry (P.dom t) s) rnd).1))
  /-- `startTransfer`, mpithreadcache.h 458-477: the own directory, or the answer of the
  communication thread of the process with the entry -/
  | startThread (st) (t b off s rnd : Nat) : st.pc (.user t) = .own b off s .start →
      P.mode = .thread →
      P.home b = P.rankOf (P.dom t) ∨ st.pc (.comm (P.home b)) = .idle →
      UserStep P t st (st.goto t b off s (.xfer (dictFetch (st.dir b) rnd)))
  /-- `transfer` without an entry, then `loadBlock` -/
  | xferNone (st) (t b off s : Nat) (e : Int) : st.pc (.user t) = .own b off s (.xfer e) → e < 0 →
      UserStep P t st (st.goto t b off s (.load 0))
  /-- mpiwincache.h 356-405 -/
  | xferWin (st) (t b off s e : Nat) : st.pc (.user t) = .own b off s (.xfer (e : Int)) →
      P.mode = .window → UserStep P t st (st.goto t b off s (.copy e 0))
  | copyCell (st) (t b off s e k : Nat) : st.pc (.user t) = .own b off s (.copy e k) → k < P.cells →
      UserStep P t st ({ st with
        data := setCell st.data (P.dom t) s k (st.data (P.entryDom e) (P.entrySlot e) k)
        }.goto t b off s (.copy e (k + 1)))
  | copyDone (st) (t b off s e k : Nat) : st.pc (.user t) = .own b off s (.copy e k) → P.cells ≤ k →
      UserStep P t st (st.goto t b off s .fin)
  /-- `transfer`, mpithreadcache.h 489-503 -/
  | xferThread (st) (t b off s e : Nat) : st.pc (.user t) = .own b off s (.xfer (e : Int)) →
      P.mode = .thread → st.blk (P.rankOf (P.dom t)) = none →
      UserStep P t st ({ st with
        blk := upd st.blk (P.rankOf (P.dom t)) (some (.user t))
        }.goto t b off s (.ask (ownerRank P.rankCache e)))
  /-- the transfer has failed, try again, mpithreadcache.h 531-538, cachedist.h 191 -/
  | askFail (st) (t b off s r : Nat) : st.pc (.user t) = .own b off s (.ask r) →
      st.box t = some none →
      UserStep P t st ({ st with
        box := upd st.box t none
        blk := upd st.blk (P.rankOf (P.dom t)) none }.goto t b off s .start)
  /-- mpithreadcache.h 521-528 -/
  | askDone (st) (t b off s r : Nat) (buf : Nat → β) : st.pc (.user t) = .own b off s (.ask r) →
      st.box t = some (some buf) →
      UserStep P t st ({ st with box := upd st.box t none }.goto t b off s (.recv buf 0))
  | recvCell (st) (t b off s k : Nat) (buf : Nat → β) :
      st.pc (.user t) = .own b off s (.recv buf k) → k < P.cells →
      UserStep P t st ({ st with data := setCell st.data (P.dom t) s k (buf k)
        }.goto t b off s (.recv buf (k + 1)))
  | recvDone (st) (t b off s k : Nat) (buf : Nat → β) :
      st.pc (.user t) = .own b off s (.recv buf k) → P.cells ≤ k →
      UserStep P t st ({ st with blk := upd st.blk (P.rankOf (P.dom t)) none }.goto t b off s .fin)
  /-- `loadBlock`, cachedist.h 194 and cache.h 157-171; values outside of the grid are arbitrary -/
  | loadCell (st) (t b off s k : Nat) (v : β) : st.pc (.user t) = .own b off s (.load k) →
      k < P.cells → (P.inside b k → v = P.file b k) →
      UserStep P t st ({ st with data := setCell st.data (P.dom t) s k v
        }.goto t b off s (.load (k + 1)))
  | loadDone (st) (t b off s k : Nat) : st.pc (.user t) = .own b off s (.load k) → P.cells ≤ k →
      UserStep P t st (st.goto t b off s .fin)
  | finNone (st) (t b off s : Nat) : st.pc (.user t) = .own b off s .fin → P.mode = .none →
      UserStep P t st (st.goto t b off s .use)
  /-- `endTransfer`, mpiwincache.h 415-438 -/
  | finWin (st) (t b off s : Nat) : st.pc (.user t) = .own b off s .fin → P.mode = .window →
      UserStep P t st ({ st with dl := upd st.dl b none }.goto t b off s .use)
  /-- `endTransfer`, mpithreadcache.h 549-553 -/
  | finThread (st) (t b off s : Nat) : st.pc (.user t) = .own b off s .fin → P.mode = .thread →
      UserStep P t st ((st.sendOp P (P.rankOf (P.dom t)) b
        (.add (P.entry (P.dom t) s))).goto t b off s .use)
  /-- `convert`, cachedist.h 210 -/
  | convert (st) (t b off s : Nat) : st.pc (.user t) = .own b off s .use →
      UserStep P t st (st.goto t b off s (.out (st.data (P.dom t) s off)))
  /-- `unlock`, cachedist.h 213; the getter returns -/
  | unlock (st) (t b off s : Nat) (v : β) : st.pc (.user t) = .own b off s (.out v) →
      UserStep P t st { st with
        lk := upd st.lk (P.dom t, s) none
        pc := upd st.pc (.user t) .idle }

/-- Steps of the communication thread of process `r`. mpithreadcache.h 95-251; lines at the steps. -/
inductive CommStep {β : Type} (P : DistParams β) : Nat → DistState β → DistState β → Prop
  /-- a directory update arrives, mpithreadcache.h 211-218, 244-251 -/
  | deliver (st) (r src b : Nat) (op : DictOp) (rest : List (Nat × DictOp)) :
      st.pc (.comm r) = .idle → st.net src r = (b, op) :: rest →
      CommStep P r st { st with
        dir := upd st.dir b (dictStep (st.dir b) op)
        net := upd st.net src (upd (st.net src) r rest) }
  /-- a request for a block arrives, mpithreadcache.h 137-145 -/
  | accept (st) (r t b off s : Nat) : st.pc (.comm r) = .idle →
      st.pc (.user t) = .own b off s (.ask r) → st.box t = none →
      CommStep P r st { st with pc := upd st.pc (.comm r) (.tryDom t b 0) }
  /-- no domain has the block, mpithreadcache.h 171-184 -/
  | fail (st) (r t b i : Nat) : st.pc (.comm r) = .tryDom t b i → P.domains ≤ i →
      CommStep P r st { st with
        box := upd st.box t (some none)
        pc := upd st.pc (.comm r) .idle }
  | busy (st) (r t b i : Nat) : st.pc (.comm r) = .tryDom t b i → i < P.domains →
      P.noop = true ∨ st.cm (r * P.domains + i) ≠ none →
      CommStep P r st { st with pc := upd st.pc (.comm r) (.tryDom t b (i + 1)) }
  | try (st) (r t b i : Nat) : st.pc (.comm r) = .tryDom t b i → i < P.domains →
      P.noop = false → st.cm (r * P.domains + i) = none →
      CommStep P r st { st with
        cm := upd st.cm (r * P.domains + i) (some (.comm r))
        pc := upd st.pc (.comm r) (.tryCm t b i) }
  | miss (st) (r t b i : Nat) : st.pc (.comm r) = .tryCm t b i →
      (∀ s, (st.cl (r * P.domains + i)).peek b = some s → st.lk (r * P.domains + i, s) ≠ none) →
      CommStep P r st { st with
        cm := upd st.cm (r * P.domains + i) none
        pc := upd st.pc (.comm r) (.tryDom t b (i + 1)) }
  | hit (st) (r t b i s : Nat) : st.pc (.comm r) = .tryCm t b i →
      (st.cl (r * P.domains + i)).peek b = some s → st.lk (r * P.domains + i, s) = none →
      CommStep P r st { st with
        lk := upd st.lk (r * P.domains + i, s) (some (.comm r))
        cm := upd st.cm (r * P.domains + i) none
        pc := upd st.pc (.comm r) (.send t b i s 0 (fun _ => P.zero)) }
  /-- the message is assembled from the slot, mpithreadcache.h 157-160 -/
  | cell (st) (r t b i s k : Nat) (buf : Nat → β) : st.pc (.comm r) = .send t b i s k buf →
      k < P.cells →
      CommStep P r st { st with
        pc := upd st.pc (.comm r) (.send t b i s (k + 1) (upd buf k (st.data (r * P.domains + i) s k))) }
  | reply (st) (r t b i s k : Nat) (buf : Nat → β) : st.pc (.comm r) = .send t b i s k buf →
      P.cells ≤ k →
      CommStep P r st { st with
        box := upd st.box t (some (some buf))
        pc := upd st.pc (.comm r) (.sent i s) }
  /-- mpithreadcache.h 169 -/
  | release (st) (r i s : Nat) : st.pc (.comm r) = .sent i s →
      CommStep P r st { st with
        lk := upd st.lk (r * P.domains + i, s) none
        pc := upd st.pc (.comm r) .idle }

/-- One step of any thread. cachedist.h 135-214, mpithreadcache.h 95-251. -/
inductive DistStep {β : Type} (P : DistParams β) : DistState β → DistState β → Prop
  | user {st st'} (t : Nat) : UserStep P t st st' → DistStep P st st'
  | comm {st st'} (r : Nat) : CommStep P r st st' → DistStep P st st'

/-- Reachable states of the shared caches. From `CacheDist::open`, cachedist.h 96-129, by any steps. -/
def DistReach {β : Type} (P : DistParams β) : DistState β → Prop :=
  Reachable (fun st => ∃ c, CacheList.init P.size P.handDiff = some c ∧ st = DistState.start P c)
    (DistStep P)

end Asagi
