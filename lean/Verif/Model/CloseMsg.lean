import Verif.Model.MsgCache
/-
`asagi_grid_close` of a cached grid with the communication thread (CACHE and PASS_THROUGH do not
differ here): the barrier in the destructor of the grid, grid/grid.cpp 177-191, the destructor of the
transfer class, transfer/mpithreadcache.h 324-338, and what is freed after it: the directory
(transfer/mpicache.h 83-87), the caches (grid/level/cache.h 78-82, cache/cachemanager.h 76-79).

The container of the first NUMA domain is destroyed first (grid.cpp 184-187), and its destructors do
all of this; those of the other domains free less.

Simplifications. One grid with one level. Taking the message of `unregisterReceiver` and removing the
receiver (mpi/commthread.h 253-254, 293-301) are one step: the communication thread handles no other
message in between, and `MPI_Ssend` returns after the first. That the calls of `unregisterReceiver`
of several grids exclude each other is in `Model/RecvTable`.
-/
namespace Asagi
variable {β : Type}

/-- `stage r`: how far `close` is in process `r`.
0: not called; 1: in the barrier, grid.cpp 180-181; 2: after the barrier (`delete m_type`, 183);
3: `m_cacheManager`, the list of the caches of the process, is freed, mpithreadcache.h 327;
4, 5, 6, 7: the receivers of requests for entries, requests for blocks, additions and deletions are
removed, 329-332; 8: mutexes, directory and caches are freed, 334-336. -/
structure CloseSt (β : Type) where
  ms : MsgSt β
  stage : Nat → Nat

/-- The grid is opened everywhere. cachedist.h 96-129, mpithreadcache.h 352-446. -/
def CloseSt.start (C : MsgParams β) (c : CacheList) : CloseSt β :=
  { ms := MsgSt.start C c, stage := fun _ => 0 }

/-- Is there a receiver for messages with this tag? mpithreadcache.h 329-332, commthread.h 299,
304-305. -/
def MsgParams.registered (C : MsgParams β) (stage tag : Nat) : Prop :=
  (tag = C.infoTag ∧ stage < 4) ∨ (tag = C.xferTag ∧ stage < 5) ∨ (tag = C.addTag ∧ stage < 6) ∨
    (tag = C.delTag ∧ stage < 7)

/-- The communication thread waits for messages, commthread.h 286. -/
def MsgSt.listens (ms : MsgSt β) (r : Nat) : Prop := ms.st.pc (.comm r) = .idle ∧ ms.wait r = none

/-- One step of the `procs` processes of the grid.
cachedist.h 135-214, grid.cpp 177-191, mpithreadcache.h 324-338; lines at the steps. -/
inductive CloseMsgStep (C : MsgParams β) (procs : Nat) (early : Bool) : CloseSt β → CloseSt β → Prop
  /-- any step of the getters and of the communication threads; the grid is not used in a process
  after `close` was called there, and a message reaches a receiver that is still there -/
  | use (s) (ms' : MsgSt β) : MsgCacheStep C early s.ms ms' →
      (∀ t, s.stage (C.rankT t) ≠ 0 → ms'.st.pc (.user t) = s.ms.st.pc (.user t)) →
      (∀ src r m rest, s.ms.wire src r = m :: rest → ms'.wire src r = rest →
        C.registered (s.stage r) m.tag) →
      CloseMsgStep C procs early s { s with ms := ms' }
  /-- a message without receiver is ignored, commthread.h 304-306 -/
  | drop (s) (src r : Nat) (m : Msg) (rest : List Msg) : s.ms.listens r →
      s.ms.wire src r = m :: rest → ¬ C.registered (s.stage r) m.tag →
      CloseMsgStep C procs early s { s with ms := s.ms.take src r rest }
  /-- `close` is called, after all getters of the process have returned -/
  | call (s) (r : Nat) : r < procs → s.stage r = 0 →
      (∀ t, C.rankT t = r → s.ms.st.pc (.user t) = .idle) →
      CloseMsgStep C procs early s { s with stage := upd s.stage r 1 }
  /-- the barrier: all processes are here, grid.cpp 181 -/
  | pass (s) (r : Nat) : s.stage r = 1 → (∀ q, q < procs → 1 ≤ s.stage q) →
      CloseMsgStep C procs early s { s with stage := upd s.stage r 2 }
  /-- mpithreadcache.h 327 -/
  | freeList (s) (r : Nat) : s.stage r = 2 →
      CloseMsgStep C procs early s { s with stage := upd s.stage r 3 }
  /-- 329-332 -/
  | unregister (s) (r k : Nat) : k < 4 → s.stage r = 3 + k → s.ms.listens r →
      CloseMsgStep C procs early s { s with stage := upd s.stage r (4 + k) }
  /-- 334-336 and the destructors after it -/
  | free (s) (r : Nat) : s.stage r = 7 →
      CloseMsgStep C procs early s { s with stage := upd s.stage r 8 }

/-- Reachable states, if MPI may or may not buffer messages. From cachedist.h 96-129 by any steps. -/
def CloseReach (C : MsgParams β) (procs : Nat) : CloseSt β → Prop :=
  Reachable (fun s => ∃ c, CacheList.init C.P.size C.P.handDiff = some c ∧ s = CloseSt.start C c)
    (CloseMsgStep C procs true)

end Asagi
