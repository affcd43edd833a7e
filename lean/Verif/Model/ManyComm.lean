import Verif.Model.ManyLevels
/-
Several grids that are used at the same time, some of them with the communication thread. A process has one
communication thread for all its grids (`CommThread::commThread`, mpi/commthread.h 318), which receives the messages
for all of them, one after the other, over one communicator (271), finds the level by the tag of the message
(304-310) and works for this level until `recv` returns. Replies are sent over the communicators of the
grids, which are different ones (mpi/mpicomm.h 110). The locks of the libraries are those of `Verif.Model.ManyLevels`;
grids with the communication thread do not use `mpiLock` (mpithreadfull.h 169-191, mpithreadcache.h 458-603).

Grids may be opened by different processes: a grid numbers its processes by its own communicator, the communication
threads by the one of `ASAGI_start_comm_thread`, and the ranks are translated (commthread.h 270-272, 308-310).

Each grid with the communication thread has one level here; several ones disturb each other (C38, C39). All grids are
open: starting and stopping the thread, opening and closing are in `Verif.Model.CommLife` and `Verif.Model.Collective`.
-/
namespace Asagi
variable {α : Type}

/-- A level as the other levels and the communication threads see it.
commthread.h 280-315 and the getters, fulldist.h 150-199, cachedist.h 135-214. -/
structure CommSys (α : Type) extends LevelSys α where
  /-- the steps that are possible if MPI does not buffer messages, so that each send waits for its receiver -/
  sync : S → S → Prop
  /-- the tags that a process has registered for this level, commthread.h 220-241 -/
  tags : Nat → List Nat
  /-- the tags of the messages of this level on their way from a process to the communication thread of
  another one, oldest first -/
  inbox : S → Nat → Nat → List Nat
  /-- the communication thread of a process is in `recv` of this level, commthread.h 310 -/
  serving : S → Nat → Prop
  /-- a communication thread refuses a request for a block, mpithreadcache.h 171-177 -/
  refused : S → S → Prop

/-- A level without communication thread. E.g. passthrough.h 105-122, or mpiwincache.h 243-572. -/
def LevelSys.noComm (L : LevelSys α) : CommSys α :=
  { L with
    sync := L.step, tags := fun _ => [], inbox := fun _ _ _ => [], serving := fun _ _ => False
    refused := fun _ _ => False }

/-- Distributed FULL with the communication thread (`X.win = false`). fulldist.h 150-199, mpithreadfull.h 169-191. -/
def XferCfg.commSys (c : LevelCfg α) (X : XferCfg α) (data : Nat → Mem α) : CommSys α :=
  { X.sys c data false with
    sync := XferStep c X data false
    tags := fun _ => [X.tag]
    inbox := fun x q r => (x.wire q r).map Msg.tag
    serving := fun x r => x.comm r ≠ none
    refused := fun _ _ => False }

/-- CACHE with the communication thread. cachedist.h 135-214, mpithreadcache.h 95-251, 458-603. -/
def MsgParams.commSys (c : LevelCfg α) (C : MsgParams α) : CommSys α :=
  { S := MsgSt α
    start := fun ms => ∃ l, CacheList.init C.P.size C.P.handDiff = some l ∧ ms = MsgSt.start C l
    step := MsgCacheStep C true
    busy := fun ms t => ms.st.pc (.user t) ≠ .idle
    uses := fun k ms t => match k with
      | .mpi => False
      | .netcdf => (ms.st.pc (.user t)).reading
    called := fun t pos ms ms' => ∃ st', GetterCalled c t pos ms.st st' ∧ ms' = { ms with st := st' }
    returns := fun t ms v => GetterReturns t ms.st v
    sync := MsgCacheStep C false
    tags := fun _ => [C.infoTag, C.xferTag, C.addTag, C.delTag]
    inbox := fun ms q r => (ms.wire q r).map Msg.tag
    serving := fun ms r => ms.st.pc (.comm r) ≠ .idle ∨ ms.wait r ≠ none
    refused := fun ms ms' => ∃ r q m, ms'.mail r q = ms.mail r q ++ [m] ∧ m.val = .ack }

/-- A level whose communicator has some of the processes only, commthread.h 266-272, 304-310: the messages on their way
and the communication threads, as numbered by the communicator of the communication threads. -/
def CommSys.translate (L : CommSys α) (R : Ranks) : CommSys α :=
  { L with
    tags := fun P => match R.rank P with
      | some r => L.tags r
      | none => []
    inbox := fun s Q P => match R.rank Q, R.rank P with
      | some q, some r => L.inbox s q r
      | _, _ => []
    serving := fun s P => match R.rank P with
      | some r => L.serving s r
      | none => False }

/-- Steps, if MPI may buffer messages (`early`) or does not. `MPI_Send` in commthread.h 272, mpithreadfull.h 188. -/
def CommSys.stepIf (L : CommSys α) : Bool → L.S → L.S → Prop
  | true => L.step
  | false => L.sync

/-- `n` levels that are used at the same time; `rank t` is the process of thread `t`; `owner r tag`: the
level that has registered a tag in process `r`, `m_receiver`, commthread.h 111. -/
structure ManyComm (α : Type) where
  n : Nat
  rank : Nat → Nat
  L : Nat → CommSys α
  owner : Nat → Nat → Option Nat

/-- The levels, without the communication threads. fulldist.h 150-199, cachedist.h 135-214, passthrough.h 105-122. -/
def ManyComm.many (G : ManyComm α) : Many α := ⟨G.n, G.rank, fun i => (G.L i).toLevelSys⟩

/-- The states of all levels, and the tags of the messages on their way from one process to the communication
thread of another one, oldest first. commthread.h 264-286. -/
structure ManyComm.St (G : ManyComm α) where
  lv : G.many.St
  net : Nat → Nat → List Nat

/-- What a step of level `i` does with the messages from one process to another one; `l` and `l'` are those of the
level before and after the step, `w` and `w'` all messages. `free`: the communication thread of the receiver has
nothing else to do. commthread.h 264-315. -/
inductive NetStep (owner : Nat → Option Nat) (i : Nat) (free : Prop) :
    (l l' w w' : List Nat) → Prop
  | none (l w) : NetStep owner i free l l w w
  /-- a message is sent, commthread.h 272 -/
  | send (l w) (tag : Nat) : NetStep owner i free l (l ++ [tag]) w (w ++ [tag])
  /-- the oldest message is received and belongs to this level, commthread.h 272, 304-310 -/
  | recv (l w) (tag : Nat) : owner tag = some i → free → NetStep owner i free (tag :: l) l (tag :: w) w

/-- A thread, or a communication thread, takes a step in level `i`. As in `ManyStep`, a thread is inside of one getter
at a time, and the locks of the libraries are shared.
commthread.h 280-315, fulldist.h 150-199, cachedist.h 135-214. -/
inductive ManyCommStep (G : ManyComm α) (early : Bool) : G.St → G.St → Prop
  | level (s : G.St) (i : Nat) (x : (G.L i).S) (net' : Nat → Nat → List Nat) : i < G.n →
      (G.L i).stepIf early (s.lv i) x →
      (∀ t, (G.L i).busy x t → ¬ (G.L i).busy (s.lv i) t → ∀ j, j < G.n → ¬ (G.L j).busy (s.lv j) t) →
      (∀ k t, (G.L i).uses k x t → ¬ (G.L i).uses k (s.lv i) t →
        ∀ j u, j < G.n → G.rank u = G.rank t → ¬ (G.L j).uses k (s.lv j) u) →
      (∀ q r, NetStep (G.owner r) i (∀ j, j < G.n → ¬ (G.L j).serving (s.lv j) r)
        ((G.L i).inbox (s.lv i) q r) ((G.L i).inbox x q r) (s.net q r) (net' q r)) →
      ManyCommStep G early s ⟨Function.update s.lv i x, net'⟩

/-- Reachable states. After all grids were opened (grid.cpp 214-249), by any steps. -/
def ManyCommReach (G : ManyComm α) : G.St → Prop :=
  Reachable (fun s => (∀ i, (G.L i).start (s.lv i)) ∧ ∀ q r, s.net q r = []) (ManyCommStep G true)

end Asagi
