import Verif.Model.FullDistConc
import Verif.Model.MsgCache
/-
Distributed FULL grids as in `Verif.Model.FullDistConc`, but with the transfers between processes as
they are implemented: requests to the communication thread of the other process and replies by tag
and process (transfer/mpithreadfull.h 169-191, mpi/commthread.h 264-314), or one-sided reads of the
window (transfer/mpiwinfull.h 161-191).

Simplifications. Messages of one process to another one arrive in the order in which they were sent
(MPI: non-overtaking). Taking a message and starting the send of the reply is one step of the
communication thread; taking the message alone is visible to nobody but the sender, see `early`
below. The content of a reply is the memory at the time of the send (the memory is not written after
opening). One level; the communication thread serves no other grid (see C39 for several levels).
`mpiLock` is not modelled separately: it is a no-op (mpicomm.h 59-63) or taken before and released after
`m_winMutex`, which is not used then (mpiwinfull.h 166-173); the mutex of the model is the one that
is used. `MPI_Recv` and `MPI_Get` store the values one after the other.
-/
namespace Asagi
variable {α : Type}

/-- The implementation of the transfers between processes. fulldist.h 202-228. -/
structure XferCfg (α : Type) where
  F : FullCfg α
  /-- `MPIWinFull` or `MPIThreadFull`, fulldist.h 206-228 -/
  win : Bool
  /-- the registered tag, mpithreadfull.h 143-144 -/
  tag : Nat

/-- Where a thread is inside of `MPIThreadFull::transfer` or `MPIWinFull::transfer`.
mpithreadfull.h 169-180, mpiwinfull.h 161-191. -/
inductive XferPc (α : Type) where
  /-- outside -/
  | out
  /-- has `m_sendRecvMutex`, mpithreadfull.h 174, or `m_winMutex`, mpiwinfull.h 166-173 -/
  | locked
  /-- in `MPI_Send` of the request, mpithreadfull.h 176 -/
  | sending (ticket : Nat)
  /-- in `MPI_Recv` without a matching message, 178 -/
  | waiting
  /-- in `MPI_Recv`, which stores the message, 178 -/
  | storing (buf : List α)
  /-- between `MPI_Win_lock` and `MPI_Win_unlock`, mpiwinfull.h 175-189 -/
  | epoch
  /-- after `MPI_Win_unlock`, 189-191 -/
  | closed

/-- The content of a reply, mpithreadfull.h 188; `ticket` identifies the call of `MPI_Send`. -/
structure XferRep (α : Type) where
  ticket : Nat
  buf : List α

/-- The shared state: caches (cachemanager.h 55-69), transfer classes (mpithreadfull.h 74-97, mpiwinfull.h
73-86), messages, and the positions of the threads. -/
structure XferSt (α : Type) where
  /-- caches, their mutexes and positions of the threads -/
  st : DistState α
  /-- `m_sendRecvMutex` or `m_winMutex` of each process -/
  mx : Nat → Option Nat
  /-- messages from a process to the communication thread of another one, oldest first -/
  wire : Nat → Nat → List Msg
  /-- replies with tag 0 from the communication thread of a process to another process -/
  mail : Nat → Nat → List (XferRep α)
  /-- the communication thread is in `MPI_Send` of a reply (destination, ticket), mpithreadfull.h 188 -/
  comm : Nat → Option (Nat × Nat)
  /-- number of the next call of a send function -/
  next : Nat
  call : Nat → XferPc α

/-- The process of a thread. fulldist.h 159. -/
abbrev XferCfg.rankT (X : XferCfg α) (t : Nat) : Nat := X.F.dom t / X.F.ds.domains

/-- The process that stores a block, fulldist.h 183. -/
abbrev XferCfg.home (X : XferCfg α) (c : LevelCfg α) (b : Nat) : Nat := X.F.ds.blockRank c.totalBlocks b

/-- The block is not copied within the process: `NumaNo::transfer` (numano.h), `NumaFull::transfer`
(numafull.h 108-111) or `NumaFullCache::transfer` return `false`, fulldist.h 176-178. -/
def XferCfg.remote (X : XferCfg α) (c : LevelCfg α) (t b : Nat) : Prop :=
  ¬ (X.F.trans ≠ .no ∧ X.home c b = X.rankT t)

/-- The memory of a process that belongs to the window, mpiwinfull.h 134-139: displacement `disp` and
number of values. -/
def winSlice (c : LevelCfg α) (ds : Dist) (m : Mem α) (disp count : Nat) : Option (List α) :=
  if disp + count ≤ ds.localBlockCount c.totalBlocks * c.totalBlockSize * ds.domains then
    m.slice disp count else none

/-- `MPI_Send` of a request: the message is on its way. commthread.h 264-274. -/
def XferSt.post (x : XferSt α) (src dst tag data : Nat) : XferSt α :=
  { x with
    wire := upd x.wire src (upd (x.wire src) dst (x.wire src dst ++ [⟨tag, data, x.next⟩]))
    next := x.next + 1 }

/-- One step of one thread. `early`: `MPI_Send` may return before the message is received.
fulldist.h 150-199, mpithreadfull.h 169-191, mpiwinfull.h 161-191; lines at the steps. -/
inductive XferStep (c : LevelCfg α) (X : XferCfg α) (data : Nat → Mem α) (early : Bool) :
    XferSt α → XferSt α → Prop
  /-- a getter is called, fulldist.h 153-166 -/
  | call (x) (t : Nat) (pos : List Dbl) (st' : DistState α) : FullCalled c X.F t pos x.st st' →
      XferStep c X data early x { x with st := st' }
  /-- the steps with the cache, fulldist.h 168-199 -/
  | other (x) (t : Nat) (st' : DistState α) : x.call t = .out → x.st.pc (.user t) ≠ .idle →
      (∀ b off s k, x.st.pc (.user t) = .own b off s (.load k) → c.totalBlockSize ≤ k) →
      UserStep (c.fullShared X.F) t x.st st' → XferStep c X data early x { x with st := st' }
  /-- `NumaFull::transfer` copies a value from the memory of another domain, numafull.h 113-118 -/
  | near (x) (t b off s k : Nat) (src : List α) (v : α) : x.call t = .out →
      x.st.pc (.user t) = .own b off s (.load k) → k < c.totalBlockSize →
      X.F.trans ≠ .no → X.home c b = X.rankT t →
      (data (X.rankT t)).slice ((X.F.ds.localBlockCount c.totalBlocks *
        X.F.ds.blockDomain c.totalBlocks b + X.F.ds.blockOffset c.totalBlocks b) *
        c.totalBlockSize) c.totalBlockSize = some src → src[k]? = some v →
      XferStep c X data early x { x with st := { x.st with
        data := setCell x.st.data (X.F.dom t) s k v }.goto t b off s (.load (k + 1)) }
  /-- the mutex, mpithreadfull.h 174, mpiwinfull.h 166-173 -/
  | lock (x) (t b off s : Nat) : x.call t = .out → x.st.pc (.user t) = .own b off s (.load 0) →
      X.remote c t b → X.F.hasMpi = true → x.mx (X.rankT t) = none →
      XferStep c X data early x { x with
        mx := upd x.mx (X.rankT t) (some t), call := upd x.call t .locked }
  /-- the request, mpithreadfull.h 176, fulldist.h 183-184 -/
  | send (x) (t b off s : Nat) : X.win = false → x.call t = .locked →
      x.st.pc (.user t) = .own b off s (.load 0) →
      XferStep c X data early x { x.post (X.rankT t) (X.home c b) X.tag
          (X.F.ds.blockNodeOffset c.totalBlocks b) with
        call := upd x.call t (.sending x.next) }
  | sent (x) (t b off s ticket : Nat) : x.call t = .sending ticket →
      x.st.pc (.user t) = .own b off s (.load 0) →
      early = true ∨ (∀ m ∈ x.wire (X.rankT t) (X.home c b), m.ticket ≠ ticket) →
      XferStep c X data early x { x with call := upd x.call t .waiting }
  /-- the oldest message with tag 0 of this process is received, mpithreadfull.h 178 -/
  | recv (x) (t b off s : Nat) (m : XferRep α) (rest : List (XferRep α)) : x.call t = .waiting →
      x.st.pc (.user t) = .own b off s (.load 0) →
      x.mail (X.home c b) (X.rankT t) = m :: rest →
      XferStep c X data early x { x with
        mail := upd x.mail (X.home c b) (upd (x.mail (X.home c b)) (X.rankT t) rest)
        call := upd x.call t (.storing m.buf) }
  | store (x) (t b off s k : Nat) (buf : List α) (v : α) : x.call t = .storing buf →
      x.st.pc (.user t) = .own b off s (.load k) → k < c.totalBlockSize → buf[k]? = some v →
      XferStep c X data early x { x with st := { x.st with
        data := setCell x.st.data (X.F.dom t) s k v }.goto t b off s (.load (k + 1)) }
  /-- the end of `transfer`, mpithreadfull.h 180 -/
  | done (x) (t b off s k : Nat) (buf : List α) : x.call t = .storing buf →
      x.st.pc (.user t) = .own b off s (.load k) → c.totalBlockSize ≤ k →
      XferStep c X data early x { x with
        mx := upd x.mx (X.rankT t) none, call := upd x.call t .out }
  /-- the communication thread of process `r` answers a request of process `src`,
  mpithreadfull.h 182-190 -/
  | take (x) (src r : Nat) (m : Msg) (rest : List Msg) (buf : List α) : x.comm r = none →
      x.wire src r = m :: rest → m.tag = X.tag →
      (data r).slice (m.data * c.totalBlockSize) c.totalBlockSize = some buf →
      XferStep c X data early x { x with
        wire := upd x.wire src (upd (x.wire src) r rest)
        mail := upd x.mail r (upd (x.mail r) src (x.mail r src ++ [⟨x.next, buf⟩]))
        comm := upd x.comm r (some (src, x.next))
        next := x.next + 1 }
  /-- `MPI_Send` of a reply returns, 188-189 -/
  | answered (x) (r dst ticket : Nat) : x.comm r = some (dst, ticket) →
      early = true ∨ (∀ m ∈ x.mail r dst, m.ticket ≠ ticket) →
      XferStep c X data early x { x with comm := upd x.comm r none }
  /-- `MPI_Win_lock` with `MPI_LOCK_SHARED`, mpiwinfull.h 175-177: all locks of the window are shared,
  so nobody waits -/
  | winLock (x) (t : Nat) : X.win = true → x.call t = .locked →
      XferStep c X data early x { x with call := upd x.call t .epoch }
  /-- `MPI_Get`, 179-187 -/
  | get (x) (t b off s k : Nat) (src : List α) (v : α) : x.call t = .epoch →
      x.st.pc (.user t) = .own b off s (.load k) → k < c.totalBlockSize →
      winSlice c X.F.ds (data (X.home c b))
        (X.F.ds.blockNodeOffset c.totalBlocks b * c.totalBlockSize) c.totalBlockSize = some src →
      src[k]? = some v →
      XferStep c X data early x { x with st := { x.st with
        data := setCell x.st.data (X.F.dom t) s k v }.goto t b off s (.load (k + 1)) }
  /-- `MPI_Win_unlock`, 189: all values have been stored -/
  | winUnlock (x) (t b off s k : Nat) : x.call t = .epoch →
      x.st.pc (.user t) = .own b off s (.load k) → c.totalBlockSize ≤ k →
      XferStep c X data early x { x with call := upd x.call t .closed }
  /-- the end of `transfer`, 191 -/
  | leave (x) (t : Nat) : x.call t = .closed →
      XferStep c X data early x { x with
        mx := upd x.mx (X.rankT t) none, call := upd x.call t .out }

/-- All domains are opened; all processes have registered their receivers or created the window. fulldist.h 99-144. -/
def XferSt.start (c : LevelCfg α) (X : XferCfg α) (l : CacheList) : XferSt α :=
  { st := DistState.start (c.fullShared X.F) l, mx := fun _ => none, wire := fun _ _ => [],
    mail := fun _ _ => [], comm := fun _ => none, next := 0, call := fun _ => .out }

/-- Reachable states, if MPI may or may not buffer messages. From fulldist.h 99-144 by any steps. -/
def XferReach (c : LevelCfg α) (X : XferCfg α) (data : Nat → Mem α) : XferSt α → Prop :=
  Reachable (fun x => ∃ l, CacheList.init X.F.cacheSize X.F.handDiff = some l ∧
    x = XferSt.start c X l) (XferStep c X data true)

end Asagi
