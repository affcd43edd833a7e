import Verif.Model.Trans
/-
The table of receivers of the communication thread on one process (mpi/commthread.h), with all its users: threads that
open and close grids (`registerReceiver`, `unregisterReceiver`), threads inside of getters (`send`), `startCommThread` and
`stopCommThread`, and the communication thread itself. The other processes may send any message at any time.

Simplifications. Only the grids that use the communication thread. A receiver object (the transfer object of a FULL grid, or
one of the four receivers of a CACHE grid, mpithreadcache.h 380-399) has a number that is not used again. The
operations of the table have a begin and an end; their effect is at the end. If two of them overlap (`TableRace`) the
behaviour of the code is undefined; the steps of the model go on as if they were ordered. `MPI_Ssend` returns any
time after the message was matched (MPI standard 3.4). The functions of MPI succeed, the reduction of `registerReceiver` and
`MPI_Send` return.
-/
namespace Asagi

/-- Where a thread of the program is. `o` is the receiver object, `tag` its tag.
commthread.h 130-275; lines as indicated. -/
inductive TabPos where
  | out
  /-- `registerReceiver`, commthread.h 223: before the lock -/
  | wantReg (o : Nat)
  /-- 225-230: the reduction -/
  | reduce (o : Nat)
  /-- 238: inside of `m_receiver[tag] = detail` -/
  | insert (o tag : Nat)
  /-- `unregisterReceiver`, commthread.h 251: before the lock -/
  | wantUnreg (o tag : Nat)
  /-- 254: `MPI_Ssend` to the own communication thread -/
  | unreg (o tag : Nat)
  /-- 254: the message was matched, `MPI_Ssend` has not returned -/
  | unregDone (o : Nat)
  /-- `send`, commthread.h 266: inside of `m_receiver.find(tag)` or using the iterator, 267-271 -/
  | find (o tag : Nat)
  /-- 272: `MPI_Send` -/
  | post
  /-- `finialize`, commthread.h 185: before the lock -/
  | wantStop
  /-- 188-194: the exit message is sent -/
  | stop
  /-- 197-207: `pthread_join`, then the table is cleared -/
  | join
deriving DecidableEq, Repr

/-- The communication thread, `commThreadHandler`, commthread.h 280-315. -/
inductive TabComm where
  /-- 286: in `MPI_Recv` -/
  | idle
  /-- 304-310: inside of `m_receiver.find` or using the iterator -/
  | find (tag : Nat)
  /-- 310: inside of `recv` of the object -/
  | call (o : Nat)
  /-- 299: inside of `m_receiver.erase` -/
  | erase (tag : Nat)
  /-- there is no thread -/
  | exited
deriving DecidableEq, Repr

/-- The memory of a receiver object. mpithreadfull.h 99-116, mpithreadcache.h 307-338. -/
inductive ObjMem where
  | fresh
  | live
  /-- freed after `unregisterReceiver` has returned, mpithreadfull.h 109-116, mpithreadcache.h 324-338 -/
  | dead
deriving DecidableEq, Repr

/-- One process. commthread.h 81-114. -/
structure TabState where
  pos : Nat → TabPos
  comm : TabComm
  /-- the thread that has locked m_lock and not (nor the communication thread for it) unlocked it -/
  lock : Option Nat
  nextTag : Nat
  /-- m_receiver -/
  table : Nat → Option Nat
  obj : Nat → ObjMem
  /-- m_tag of the object of an open grid -/
  tag : Nat → Option Nat

/-- After the constructor, commthread.h 117-121. -/
def TabState.init : TabState :=
  { pos := fun _ => .out, comm := .exited, lock := none, nextTag := 0, table := fun _ => none, obj := fun _ => .fresh
    tag := fun _ => none }

/-- The thread is in `finialize`. commthread.h 182-208. -/
def TabPos.stopping : TabPos → Bool
  | .wantStop | .stop | .join => true
  | _ => false

/-- m_lock can be locked: threads/mutex.h 41-70; without THREADSAFE (`real = false`) it is a no-op. -/
def TabState.free (real : Bool) (s : TabState) : Prop := real = true → s.lock = none

/-- Calls of the program, by the threads with numbers less than `n`, and messages of other processes. The program does not use
a grid that it closes, and stops the communication thread after all grids were closed (otherwise see C66).
commthread.h 130, 182, 220, 246, 264, 286. -/
inductive TabCall (n : Nat) : TabState → TabState → Prop
  /-- `open` creates the object and calls `registerReceiver`, mpithreadfull.h 143 -/
  | register (s : TabState) (t o : Nat) : t < n → s.pos t = .out → s.comm ≠ .exited → (∀ u, (s.pos u).stopping = false) →
      s.obj o = .fresh → TabCall n s { s with pos := upd s.pos t (.wantReg o), obj := upd s.obj o .live }
  /-- `close` calls `unregisterReceiver`, mpithreadfull.h 112 -/
  | unregister (s : TabState) (t o tag : Nat) : t < n → s.pos t = .out → s.tag o = some tag → (∀ u, s.pos u ≠ .find o tag) →
      TabCall n s { s with pos := upd s.pos t (.wantUnreg o tag), tag := upd s.tag o none }
  /-- a getter calls `send`, mpithreadfull.h 176 -/
  | send (s : TabState) (t o tag : Nat) : t < n → s.pos t = .out → s.tag o = some tag →
      TabCall n s { s with pos := upd s.pos t (.find o tag) }
  /-- `stopCommThread`, asagi.cpp 72-75 -/
  | stop (s : TabState) (t : Nat) : t < n → (∀ u, s.pos u = .out) → s.comm ≠ .exited → (∀ o, s.tag o = none) →
      TabCall n s { s with pos := upd s.pos t .wantStop }
  /-- `startCommThread`, asagi.cpp 67-70, commthread.h 130-155 -/
  | start (s : TabState) : (∀ u, s.pos u = .out) → s.comm = .exited → TabCall n s { s with comm := .idle }
  /-- `MPI_Recv` of the communication thread returns a message of a grid, commthread.h 286, 304 -/
  | message (s : TabState) (tag : Nat) : s.comm = .idle → TabCall n s { s with comm := .find tag }

/-- The threads and the communication thread continue. commthread.h 130-315; lines at the steps. -/
inductive TabRun (real : Bool) : TabState → TabState → Prop
  /-- commthread.h 223 -/
  | lockReg (s : TabState) (t o : Nat) : s.pos t = .wantReg o → s.free real →
      TabRun real s { s with pos := upd s.pos t (.reduce o), lock := some t }
  /-- commthread.h 229-232: the maximum of the communicator -/
  | reduced (s : TabState) (t o tag : Nat) : s.pos t = .reduce o → s.nextTag ≤ tag →
      TabRun real s { s with pos := upd s.pos t (.insert o tag), nextTag := tag + 1 }
  /-- commthread.h 238-240 -/
  | inserted (s : TabState) (t o tag : Nat) : s.pos t = .insert o tag →
      TabRun real s { s with pos := upd s.pos t .out, lock := none, table := upd s.table tag (some o), tag := upd s.tag o (some tag) }
  /-- commthread.h 251 -/
  | lockUnreg (s : TabState) (t o tag : Nat) : s.pos t = .wantUnreg o tag → s.free real →
      TabRun real s { s with pos := upd s.pos t (.unreg o tag), lock := some t }
  /-- commthread.h 254, 286, 295 -/
  | recvUnreg (s : TabState) (t o tag : Nat) : s.pos t = .unreg o tag → s.comm = .idle →
      TabRun real s { s with pos := upd s.pos t (.unregDone o), comm := .erase tag }
  /-- commthread.h 255; then the object is freed -/
  | returned (s : TabState) (t o : Nat) : s.pos t = .unregDone o →
      TabRun real s { s with pos := upd s.pos t .out, obj := upd s.obj o .dead }
  /-- commthread.h 299-300 -/
  | erased (s : TabState) (tag : Nat) : s.comm = .erase tag →
      TabRun real s { s with comm := .idle, lock := none, table := upd s.table tag none }
  /-- commthread.h 304-310 -/
  | found (s : TabState) (tag : Nat) : s.comm = .find tag →
      TabRun real s { s with comm := match s.table tag with
        | some o => .call o
        | none => .idle }
  /-- commthread.h 310 -/
  | called (s : TabState) (o : Nat) : s.comm = .call o → TabRun real s { s with comm := .idle }
  /-- commthread.h 266-271; without an entry there is the warning of 268 -/
  | looked (s : TabState) (t o tag : Nat) : s.pos t = .find o tag →
      TabRun real s { s with pos := upd s.pos t (if s.table tag = none then .out else .post) }
  /-- commthread.h 272 -/
  | posted (s : TabState) (t : Nat) : s.pos t = .post → TabRun real s { s with pos := upd s.pos t .out }
  /-- commthread.h 185 -/
  | lockStop (s : TabState) (t : Nat) : s.pos t = .wantStop → s.free real →
      TabRun real s { s with pos := upd s.pos t .stop, lock := some t }
  /-- commthread.h 190-194, 288-293 -/
  | recvExit (s : TabState) (t : Nat) : s.pos t = .stop → s.comm = .idle →
      TabRun real s { s with pos := upd s.pos t .join, comm := .exited }
  /-- commthread.h 197-207 -/
  | joined (s : TabState) (t : Nat) : s.pos t = .join →
      TabRun real s { s with pos := upd s.pos t .out, lock := none, nextTag := 0, table := fun _ => none }

/-- All steps. commthread.h 130-315. -/
inductive TabStep (real : Bool) (n : Nat) : TabState → TabState → Prop
  | call {s s'} : TabCall n s s' → TabStep real n s s'
  | run {s s'} : TabRun real s s' → TabStep real n s s'

/-- From commthread.h 117-121 by any steps. -/
def TabReach (real : Bool) (n : Nat) : TabState → Prop := Reachable (· = TabState.init) (TabStep real n)

end Asagi
