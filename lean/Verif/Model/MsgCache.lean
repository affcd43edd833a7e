import Verif.Model.CacheDistLib
/-
The shared caches of `Verif.Model.CacheDist` with the communication thread, together with the
messages as they are implemented: transfer/mpithreadcache.h and mpi/commthread.h 264-314. There are
no requests that know their thread and no replies that find it: a message has a tag and a number,
the communication thread only knows the process that has sent it, and replies are received by tag
and process.

The steps of the getters that have nothing to do with messages are those of `UserStep` and
`CommStep` (fields `st`; its `net` and `box`, the abstract messages, are not used here).

Simplifications. Messages of one process to another one arrive in the order in which they were sent
(MPI: non-overtaking; different threads of a process send in some order). Taking a message and
handling it (a directory message) or starting to handle it (a request for a block) are one step:
taking the message alone is visible to nobody but the sender, see `early` below. A block is copied
into the reply before the reply can be received; the slot is locked meanwhile. Ranks are ranks of
the communicator of the grid (the translation of ranks between groups is in `Model/CommThread`).
The `MPI_Iprobe` loop, mpithreadcache.h 508-519, and the receive after it are one step.
-/
namespace Asagi
variable {β : Type}

/-- `P`: the caches; `doff b`: the position of the entry of block `b` in the directory of its home
process (`blockNodeOffset`, cachedist.h 157); `blockAt r o`: the block whose entry is at position
`o` in process `r`; the four registered tags, mpithreadcache.h 270-289; `tagOffset`: mpithreadcache.h
291-292, 401. -/
structure MsgParams (β : Type) where
  P : DistParams β
  doff : Nat → Nat
  blockAt : Nat → Nat → Nat
  infoTag : Nat
  xferTag : Nat
  addTag : Nat
  delTag : Nat
  tagOffset : Nat

/-- A message to a communication thread, commthread.h 271-272; `ticket` identifies the call of
`MPI_Send`. -/
structure Msg where
  tag : Nat
  data : Nat
  ticket : Nat
deriving DecidableEq, Repr

/-- The content of a reply. mpithreadcache.h 102-112, 157-160, 174-176. -/
inductive RepVal (β : Type) where
  | entry (e : Int)
  | block (buf : Nat → β)
  | ack

/-- A reply, mpithreadcache.h 102, 157, 174. -/
structure Rep (β : Type) where
  tag : Nat
  ticket : Nat
  val : RepVal β

/-- Where a thread of the user is inside of the functions that send and receive.
mpithreadcache.h 458-603; lines as indicated. -/
inductive CallPc where
  /-- outside -/
  | out
  /-- in `MPI_Send` of an update of the directory, mpithreadcache.h 575, 601 -/
  | sendOp (ticket : Nat)
  /-- has `m_infoMutex`, before the request, 467-469 -/
  | reqInfo
  /-- in `MPI_Send` of the request for an entry, 469 -/
  | sendInfo (ticket : Nat)
  /-- in `MPI_Recv`, 472 -/
  | waitInfo
  /-- has `m_blockMutex`, before the request, 500-503 -/
  | reqXfer
  /-- in `MPI_Send` of the request for a block, 503 -/
  | sendXfer (ticket : Nat)
  /-- waits for the block or the refusal, 508-535 -/
  | waitXfer
deriving DecidableEq, Repr

/-- The shared state: caches and directory (`DistState`), members of mpithreadcache.h 255-304, messages
(commthread.h 264-286), and the positions of the threads. -/
structure MsgSt (β : Type) where
  /-- caches, directory, mutexes and positions; the requests of the communication threads (`tryDom`,
  `tryCm`, `send`) contain the rank of the process that asks instead of a thread -/
  st : DistState β
  /-- `m_infoMutex` of each process -/
  info : Nat → Option Nat
  /-- messages from a process to the communication thread of another one, oldest first -/
  wire : Nat → Nat → List Msg
  /-- replies from the communication thread of a process to another process, oldest first -/
  mail : Nat → Nat → List (Rep β)
  /-- number of the next call of a send function -/
  next : Nat
  call : Nat → CallPc
  /-- the communication thread waits for the end of `MPI_Isend` (destination, ticket),
  mpithreadcache.h 107-111, 164-168, 179-183 -/
  wait : Nat → Option (Nat × Nat)

/-- All domains are opened; all processes have registered their receivers.
cachedist.h 96-129, mpithreadcache.h 352-446. -/
def MsgSt.start (C : MsgParams β) (c : CacheList) : MsgSt β :=
  { st := DistState.start C.P c, info := fun _ => none, wire := fun _ _ => [], mail := fun _ _ => [],
    next := 0, call := fun _ => .out, wait := fun _ => none }

/-- The content of an update of the directory, mpithreadcache.h 572-573, 599-600. -/
def MsgParams.opData (C : MsgParams β) (d s b : Nat) : Nat :=
  C.doff b * C.P.rankCache + (s + C.P.size * (d % C.P.domains))

/-- The block of an update, mpithreadcache.h 214, 247. -/
def MsgParams.opBlock (C : MsgParams β) (r data : Nat) : Nat := C.blockAt r (data / C.P.rankCache)

/-- The entry of an update from process `src`, mpithreadcache.h 215-217, 248-250, 631, 645. -/
def MsgParams.opEntry (C : MsgParams β) (src data : Nat) : Nat :=
  ownerEntry C.P.rankCache src (data % C.P.rankCache)

/-- Process of a thread. mpicomm.h 132. -/
abbrev MsgParams.rankT (C : MsgParams β) (t : Nat) : Nat := C.P.rankT t

/-- The update that a thread at this position announces to the directory: the tag, the block, and
where the thread continues; cachedist.h 157-160, 166-167, 200-201. -/
def Pc.update (C : MsgParams β) : Pc β → Option (Nat × Nat × Pc β)
  | .own b off s (.del (some o)) => some (C.delTag, o, .own b off s (.numa 0))
  | .own b off s .add => some (C.addTag, b, .own b off s .use)
  | .own b off s .fin => some (C.addTag, b, .own b off s .use)
  | _ => none

/-- Does the next step of thread `t` send or receive a message? Directory functions do if the entry
belongs to another process, mpithreadcache.h 461, 568, 594. -/
def MsgParams.talks (C : MsgParams β) (t : Nat) : Pc β → Prop
  | .own _ _ _ (.del (some o)) => C.P.home o ≠ C.rankT t
  | .own b _ _ .add | .own b _ _ .fin | .own b _ _ .start => C.P.home b ≠ C.rankT t
  | .own _ _ _ (.xfer e) => 0 ≤ e
  | .own _ _ _ (.ask _) => True
  | _ => False

/-- `MPI_Send`: the message is on its way. commthread.h 264-274. -/
def MsgSt.post (ms : MsgSt β) (src dst tag data : Nat) : MsgSt β :=
  { ms with
    wire := upd ms.wire src (upd (ms.wire src) dst (ms.wire src dst ++ [⟨tag, data, ms.next⟩]))
    next := ms.next + 1 }

/-- `MPI_Isend` of a reply by the communication thread of process `r`. mpithreadcache.h 102-112, 157-160, 174-176. -/
def MsgSt.answer (ms : MsgSt β) (r dst tag : Nat) (v : RepVal β) : MsgSt β :=
  { ms with
    mail := upd ms.mail r (upd (ms.mail r) dst (ms.mail r dst ++ [⟨tag, ms.next, v⟩]))
    wait := upd ms.wait r (some (dst, ms.next))
    next := ms.next + 1 }

/-- The communication thread of process `r` takes the first message of process `src`. commthread.h 284-286. -/
def MsgSt.take (ms : MsgSt β) (src r : Nat) (rest : List Msg) : MsgSt β :=
  { ms with wire := upd ms.wire src (upd (ms.wire src) r rest) }

/-- `MPI_Send` of a message from `src` to `dst` may return: at any time if MPI buffers messages
(`early`), otherwise when the message was taken. commthread.h 272. -/
def MsgSt.sent (ms : MsgSt β) (early : Bool) (src dst ticket : Nat) : Prop :=
  early = true ∨ ∀ m ∈ ms.wire src dst, m.ticket ≠ ticket

/-- The receive takes `m` out of the replies `l`: the first one with this tag. mpithreadcache.h 472, 508-535. -/
def TakeRep (l : List (Rep β)) (tag : Nat) (m : Rep β) (l' : List (Rep β)) : Prop :=
  ∃ l1 l2, l = l1 ++ m :: l2 ∧ l' = l1 ++ l2 ∧ m.tag = tag ∧ ∀ x ∈ l1, x.tag ≠ tag

/-- Steps of communication threads that work on a request for a block, without messages. mpithreadcache.h 137-172. -/
inductive CommWork (P : DistParams β) : Nat → DistState β → DistState β → Prop
  | mk {r : Nat} {st st' : DistState β} : CommStep P r st st' → st.pc (.comm r) ≠ .idle →
      st'.box = st.box → st'.net = st.net → CommWork P r st st'

/-- One step of one thread.
cachedist.h 135-214, mpithreadcache.h 95-251, 458-603, commthread.h 264-315; lines at the steps. -/
inductive MsgCacheStep (C : MsgParams β) (early : Bool) : MsgSt β → MsgSt β → Prop
  /-- all steps of the getters without messages -/
  | plain (ms) (t : Nat) (st' : DistState β) : ms.call t = .out →
      ¬ C.talks t (ms.st.pc (.user t)) → UserStep C.P t ms.st st' →
      MsgCacheStep C early ms { ms with st := st' }
  /-- `addBlock` or `deleteBlock` call `CommThread::send`, mpithreadcache.h 565-603 -/
  | opSend (ms) (t b off s : Nat) (ph : Phase β) (tag x : Nat) (p' : Pc β) : ms.call t = .out →
      ms.st.pc (.user t) = .own b off s ph →
      (Pc.own b off s ph).update C = some (tag, x, p') → C.P.home x ≠ C.rankT t →
      MsgCacheStep C early ms { ms.post (C.rankT t) (C.P.home x) tag (C.opData (C.P.dom t) s x) with
        call := upd ms.call t (.sendOp ms.next) }
  | opSent (ms) (t ticket tag x : Nat) (p' : Pc β) : ms.call t = .sendOp ticket →
      (ms.st.pc (.user t)).update C = some (tag, x, p') →
      ms.sent early (C.rankT t) (C.P.home x) ticket →
      MsgCacheStep C early ms { ms with
        st := { ms.st with pc := upd ms.st.pc (.user t) p' }
        call := upd ms.call t .out }
  /-- `startTransfer`, mpithreadcache.h 458-467 -/
  | infoLock (ms) (t b off s : Nat) : ms.call t = .out →
      ms.st.pc (.user t) = .own b off s .start → C.P.home b ≠ C.rankT t →
      ms.info (C.rankT t) = none →
      MsgCacheStep C early ms { ms with
        info := upd ms.info (C.rankT t) (some t)
        call := upd ms.call t .reqInfo }
  | infoSend (ms) (t b off s : Nat) : ms.call t = .reqInfo →
      ms.st.pc (.user t) = .own b off s .start →
      MsgCacheStep C early ms { ms.post (C.rankT t) (C.P.home b) C.infoTag (C.doff b) with
        call := upd ms.call t (.sendInfo ms.next) }
  | infoSent (ms) (t ticket b off s : Nat) : ms.call t = .sendInfo ticket →
      ms.st.pc (.user t) = .own b off s .start →
      ms.sent early (C.rankT t) (C.P.home b) ticket →
      MsgCacheStep C early ms { ms with call := upd ms.call t .waitInfo }
  /-- `MPI_Recv` with `ENTRY_TAG` = 0, mpithreadcache.h 472-477, 650 -/
  | infoRecv (ms) (t b off s : Nat) (m : Rep β) (rest : List (Rep β)) (e : Int) :
      ms.call t = .waitInfo → ms.st.pc (.user t) = .own b off s .start →
      TakeRep (ms.mail (C.P.home b) (C.rankT t)) 0 m rest → m.val = .entry e →
      MsgCacheStep C early ms { ms with
        st := ms.st.goto t b off s (.xfer e)
        mail := upd ms.mail (C.P.home b) (upd (ms.mail (C.P.home b)) (C.rankT t) rest)
        info := upd ms.info (C.rankT t) none
        call := upd ms.call t .out }
  /-- `transfer`, mpithreadcache.h 489-500 -/
  | xferLock (ms) (t b off s e : Nat) : ms.call t = .out →
      ms.st.pc (.user t) = .own b off s (.xfer (e : Int)) → ms.st.blk (C.rankT t) = none →
      MsgCacheStep C early ms { ms with
        st := { ms.st with
          blk := upd ms.st.blk (C.rankT t) (some (.user t))
          }.goto t b off s (.ask (ownerRank C.P.rankCache e))
        call := upd ms.call t .reqXfer }
  /-- 503 -/
  | xferSend (ms) (t b off s r : Nat) : ms.call t = .reqXfer →
      ms.st.pc (.user t) = .own b off s (.ask r) →
      MsgCacheStep C early ms { ms.post (C.rankT t) r C.xferTag b with
        call := upd ms.call t (.sendXfer ms.next) }
  | xferSent (ms) (t ticket b off s r : Nat) : ms.call t = .sendXfer ticket →
      ms.st.pc (.user t) = .own b off s (.ask r) → ms.sent early (C.rankT t) r ticket →
      MsgCacheStep C early ms { ms with call := upd ms.call t .waitXfer }
  /-- `TRANSFER_TAG` = 1, 508-527, 653 -/
  | xferOk (ms) (t b off s r : Nat) (m : Rep β) (rest : List (Rep β)) (buf : Nat → β) :
      ms.call t = .waitXfer → ms.st.pc (.user t) = .own b off s (.ask r) →
      TakeRep (ms.mail r (C.rankT t)) (C.tagOffset + 1) m rest → m.val = .block buf →
      MsgCacheStep C early ms { ms with
        st := ms.st.goto t b off s (.recv buf 0)
        mail := upd ms.mail r (upd (ms.mail r) (C.rankT t) rest)
        call := upd ms.call t .out }
  /-- `TRANSFER_FAIL_TAG` = 2, 514-517, 531-538, 656; cachedist.h 191 -/
  | xferFail (ms) (t b off s r : Nat) (m : Rep β) (rest : List (Rep β)) :
      ms.call t = .waitXfer → ms.st.pc (.user t) = .own b off s (.ask r) →
      TakeRep (ms.mail r (C.rankT t)) (C.tagOffset + 2) m rest → m.val = .ack →
      MsgCacheStep C early ms { ms with
        st := { ms.st with blk := upd ms.st.blk (C.rankT t) none }.goto t b off s .start
        mail := upd ms.mail r (upd (ms.mail r) (C.rankT t) rest)
        call := upd ms.call t .out }
  /-- the communication thread answers a request for an entry, mpithreadcache.h 95-112; `rnd` is the
  result of `rand()` -/
  | takeInfo (ms) (src r rnd : Nat) (m : Msg) (rest : List Msg) : ms.st.pc (.comm r) = .idle →
      ms.wait r = none → ms.wire src r = m :: rest → m.tag = C.infoTag →
      MsgCacheStep C early ms (MsgSt.answer (ms.take src r rest) r src (C.tagOffset + 0)
        (.entry (dictFetch (ms.st.dir (C.blockAt r m.data)) rnd)))
  /-- 137-153 -/
  | takeXfer (ms) (src r : Nat) (m : Msg) (rest : List Msg) : ms.st.pc (.comm r) = .idle →
      ms.wait r = none → ms.wire src r = m :: rest → m.tag = C.xferTag →
      MsgCacheStep C early ms { ms.take src r rest with
        st := { ms.st with pc := upd ms.st.pc (.comm r) (.tryDom src m.data 0) } }
  /-- 211-218 -/
  | takeAdd (ms) (src r : Nat) (m : Msg) (rest : List Msg) : ms.st.pc (.comm r) = .idle →
      ms.wait r = none → ms.wire src r = m :: rest → m.tag = C.addTag →
      MsgCacheStep C early ms { ms.take src r rest with
        st := { ms.st with
          dir := upd ms.st.dir (C.opBlock r m.data)
            (dictAdd (ms.st.dir (C.opBlock r m.data)) (C.opEntry src m.data)) } }
  /-- 244-251 -/
  | takeDel (ms) (src r : Nat) (m : Msg) (rest : List Msg) : ms.st.pc (.comm r) = .idle →
      ms.wait r = none → ms.wire src r = m :: rest → m.tag = C.delTag →
      MsgCacheStep C early ms { ms.take src r rest with
        st := { ms.st with
          dir := upd ms.st.dir (C.opBlock r m.data)
            (dictDelete (ms.st.dir (C.opBlock r m.data)) (C.opEntry src m.data)) } }
  /-- steps without messages, 148-151, 157-160, 169 -/
  | work (ms) (r : Nat) (st' : DistState β) : ms.wait r = none → CommWork C.P r ms.st st' →
      MsgCacheStep C early ms { ms with st := st' }
  /-- the refusal, 172-177 -/
  | refuse (ms) (r src b i : Nat) : ms.wait r = none → ms.st.pc (.comm r) = .tryDom src b i →
      C.P.domains ≤ i →
      MsgCacheStep C early ms { ms.answer r src (C.tagOffset + 2) .ack with
        st := { ms.st with pc := upd ms.st.pc (.comm r) .idle } }
  /-- the block, 157-162 -/
  | reply (ms) (r src b i s k : Nat) (buf : Nat → β) : ms.wait r = none →
      ms.st.pc (.comm r) = .send src b i s k buf → C.P.cells ≤ k →
      MsgCacheStep C early ms { ms.answer r src (C.tagOffset + 1) (.block buf) with
        st := { ms.st with pc := upd ms.st.pc (.comm r) (.sent i s) } }
  /-- `MPI_Test` reports the end of the send, 107-111, 164-168, 179-183 -/
  | answered (ms) (r dst ticket : Nat) : ms.wait r = some (dst, ticket) →
      early = true ∨ (∀ m ∈ ms.mail r dst, m.ticket ≠ ticket) →
      MsgCacheStep C early ms { ms with wait := upd ms.wait r none }

/-- Reachable states, if MPI may or may not buffer messages. From cachedist.h 96-129 by any steps. -/
def MsgReach (C : MsgParams β) : MsgSt β → Prop :=
  Reachable (fun ms => ∃ c, CacheList.init C.P.size C.P.handDiff = some c ∧ ms = MsgSt.start C c)
    (MsgCacheStep C true)

end Asagi
