import Verif.Model.Trans
/-
Requests through the communication thread and their replies: transfer/mpithreadfull.h 169-191,
transfer/mpithreadcache.h 95-112, 137-185, 458-539; the tags of mpi/mpicomm.h 159-164.

One requesting process: its threads send requests to the communication threads of other
processes and wait for the reply with an MPI tag. A request goes to a rank and belongs to a channel:
a level of the grid and, for MPIThreadCache, the kind of request (directory or block). Each channel
has its own mutex (m_sendRecvMutex, m_infoMutex, m_blockMutex), so there is at most one open
request per channel. Requests of different processes do not interact, because replies are addressed
to the sender of the request.
-/
namespace Asagi

/-- A channel: level and whether it is a directory request (always false for MPIThreadFull).
mpithreadfull.h 74-97, mpithreadcache.h 255-304. -/
structure Chan where
  level : Nat
  info : Bool
deriving DecidableEq, Repr

/-- A request: the rank that is asked and the channel. commthread.h 264. -/
structure Req where
  rank : Nat
  chan : Chan
deriving DecidableEq, Repr

/-- A reply in flight: sender, MPI tag, and (the payload) the request it answers and whether the
block was found. mpithreadfull.h 188, mpithreadcache.h 102-112, 157-160, 174-176. -/
structure Reply where
  source : Nat
  tag : Nat
  answers : Req
  found : Bool
deriving DecidableEq, Repr

/-- The tags of a transfer class: `reply chan found` is used by the responder, `wait chan` are the
tags the requester accepts.
mpicomm.h 159-164; mpithreadfull.h 178, 188, mpithreadcache.h 102-112, 157-176, 472, 508-523. -/
structure Tags where
  reply : Chan → Bool → Nat
  wait : Chan → List Nat

/-- State of the requesting process: `busy` is the request a thread is waiting for while it
holds the mutex of the channel, `queue` the requests not answered yet, `mail` the replies that have
not been received, `log` the completed receptions (request, reply).
mpithreadfull.h 169-191, mpithreadcache.h 458-539. -/
structure MsgState where
  busy : Chan → Option Req
  queue : List Req
  mail : List Reply
  log : List (Req × Reply)

/-- Initial state. After mpithreadfull.h 128-160, mpithreadcache.h 352-446. -/
def MsgState.init (s : MsgState) : Prop :=
  (∀ c, s.busy c = none) ∧ s.queue = [] ∧ s.mail = [] ∧ s.log = []

/-- `send`, the responder, and `MPI_Recv`; `uses` are the channels the grid has.
mpithreadfull.h 169-191, mpithreadcache.h 95-185, 458-539. -/
inductive MsgStep (T : Tags) (uses : Chan → Prop) : MsgState → MsgState → Prop
  /-- A thread takes the mutex of the channel and calls `CommThread::send` (mpithreadfull.h 174-176,
  mpithreadcache.h 467-469, 500-503). -/
  | request {s : MsgState} (r : Req) (hu : uses r.chan) (h : s.busy r.chan = none) :
      MsgStep T uses s { s with busy := upd s.busy r.chan (some r), queue := s.queue ++ [r] }
  /-- The communication thread of rank `r.rank` handles its first request (different ranks in any
  order) and sends the reply (mpithreadfull.h 182-191, mpithreadcache.h 95-112, 137-185). -/
  | answer {s : MsgState} (q1 q2 : List Req) (r : Req) (found : Bool) (h : s.queue = q1 ++ r :: q2)
      (hfirst : ∀ x ∈ q1, x.rank ≠ r.rank) :
      MsgStep T uses s { s with
        queue := q1 ++ q2
        mail := s.mail ++ [⟨r.rank, T.reply r.chan found, r, found⟩] }
  /-- `MPI_Recv` returns the first message from the rank with an accepted tag (mpithreadfull.h 178,
  mpithreadcache.h 471-474, 505-535) and the mutex is released. -/
  | receive {s : MsgState} (r : Req) (m1 m2 : List Reply) (m : Reply)
      (hb : s.busy r.chan = some r) (hm : s.mail = m1 ++ m :: m2)
      (hsrc : m.source = r.rank) (htag : m.tag ∈ T.wait r.chan)
      (hfirst : ∀ x ∈ m1, ¬ (x.source = m.source ∧ x.tag = m.tag)) :
      MsgStep T uses s { s with
        busy := upd s.busy r.chan none
        mail := m1 ++ m2
        log := s.log ++ [(r, m)] }

/-- `MPIComm::reserveTags`, mpicomm.h 159-164: the next free tag and the result. -/
def reserveTags (nextFree num : Nat) : Nat × Nat := (nextFree + num, nextFree)

/-- The results of a sequence of `reserveTags` calls on one communicator. mpicomm.h 159-164. -/
def reserveAll : Nat → List Nat → List Nat
  | _, [] => []
  | nextFree, n :: ns => (reserveTags nextFree n).2 :: reserveAll (reserveTags nextFree n).1 ns

/-- `m_tagOffset` of the `level`-th opened level of a grid: each level reserves 3 tags
(mpithreadcache.h 401; every process opens the levels in the same order). -/
def tagOffset (level : Nat) : Nat :=
  ((reserveAll 0 (List.replicate (level + 1) 3))[level]?).getD 0

/-- MPIThreadCache. Directory requests: the responder uses `m_tagOffset+ENTRY_TAG`
(mpithreadcache.h 102-103), the requester accepts `ENTRY_TAG` (mpithreadcache.h 472), ENTRY_TAG = 0
(650). Block transfers: m_tagOffset plus TRANSFER_TAG = 1 or TRANSFER_FAIL_TAG = 2 on both sides
(mpithreadcache.h 159, 175, 510-533, 653, 656). -/
def tagsCache : Tags where
  reply c found :=
    if c.info then tagOffset c.level + 0
    else if found then tagOffset c.level + 1 else tagOffset c.level + 2
  wait c := if c.info then [0] else [tagOffset c.level + 1, tagOffset c.level + 2]

/-- `MPIThreadCache::transfer`, mpithreadcache.h 521-538: a requester takes the reply with the tag
`tag` as the block if and only if this is `m_tagOffset+TRANSFER_TAG`. -/
def transferred (level tag : Nat) : Bool := tag == tagOffset level + 1

/-- MPIThreadFull: tag 0 on both sides for all levels (mpithreadfull.h 178, 188). -/
def tagsFull : Tags where
  reply _ _ := 0
  wait _ := [0]

/-- The channels of a CACHE grid with `n` levels. mpithreadcache.h 458-539. -/
def usesCache (n : Nat) (c : Chan) : Prop := c.level < n

/-- The channels of a FULL grid with `n` levels. mpithreadfull.h 169-191. -/
def usesFull (n : Nat) (c : Chan) : Prop := c.level < n ∧ c.info = false

end Asagi
