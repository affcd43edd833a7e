import Verif.Model.Trans
/-
The distributed lock (mpi/mutex.h) as it is used by the cache directory with MPI windows
(transfer/mpiwincache.h): any number of processes, threads and locks.

One lock is one `long` in the window of its home process. A thread that wants the lock swaps its
own number into that `long`; the old value is the number of the thread in front of it. It waits for
this thread with a synchronous send, which the thread in front receives when it releases the lock.

Simplifications: all locks of one `MPIWinCache` object are modelled, they share the window and the
range of tags. `MPI_Fetch_and_op` and `MPI_Compare_and_swap` are atomic. A synchronous send without
data completes together with the matching receive, as one step.
-/
namespace Asagi

/-- A thread: rank of the process and number of the thread in the process. mpi/mutex.h 208-211. -/
structure Thr where
  rank : Nat
  tid : Nat
deriving DecidableEq, Repr

/-- `total`: number of threads of each process (`NumaComm::totalThreads`); `tagOffset`: first tag
reserved by `Mutex::init`, mpi/mutex.h 105; `home`: the process that stores a lock (`dictRank`);
`lib`: the build option THREADSAFE_MPI (mpicomm.h 49-63). With it, the library lock `mpiLock` of the
process is held from the beginning of `startTransfer` to the end of `endTransfer`; without it the
mutex of the window (`m_dictWinMutex`) is held while the window is used. -/
structure MtxParams where
  total : Nat
  tagOffset : Nat
  home : Nat → Nat
  lib : Bool

/-- `lockId`, mpi/mutex.h 208-211. -/
def MtxParams.lockId (P : MtxParams) (t : Thr) : Int := (t.rank * P.total + t.tid : Nat)

/-- Where a thread is. mpi/mutex.h 132-202, mpiwincache.h 243-572; lines as indicated. -/
inductive MtxPc where
  /-- outside the functions, holds nothing -/
  | idle
  /-- waits for the mutex of the process, mpiwincache.h 247 or 256 (`startTransfer`), 472 or 481
  (`deleteBlock`) -/
  | wantProc (l : Nat)
  /-- waits for the window, 263 or 488 -/
  | wantWin (l : Nat)
  /-- has the window, before the swap, 278 or 503 -/
  | swap (l : Nat)
  /-- the lock was taken (old value), before unlocking the window, 283 or 506 -/
  | swapped (l : Nat) (old : Int)
  /-- in the synchronous send to a rank with a tag, mpi/mutex.h 164 -/
  | sending (l : Nat) (dest : Int) (tag : Int)
  /-- owner, waits for the mutex of the window again, 293 or 522 -/
  | reProc (l : Nat)
  /-- owner, waits for the window again, 296 or 525 -/
  | reWin (l : Nat)
  /-- owner, has the window, before the update of the dictionary, 312-332 or 545-561 -/
  | update (l : Nat)
  /-- owner, `startTransfer` has returned -/
  | held (l : Nat)
  /-- owner, waits for the mutex of the window, 423 -/
  | relProc (l : Nat)
  /-- owner, waits for the window, 428 -/
  | relWin (l : Nat)
  /-- owner, has the window, before the compare and swap, 431 or 563 -/
  | cas (l : Nat)
  /-- in the receive, mpi/mutex.h 198 -/
  | recv (l : Nat)
  /-- the lock is released, before unlocking the window, 434 or 566 -/
  | released (l : Nat)
deriving DecidableEq, Repr

/-- The locks in the window, the locks that protect the window, and the threads: mpi/mutex.h 67-77, mpiwincache.h
83-93. -/
structure MtxState where
  /-- the value of each lock in the window -/
  mem : Nat → Int
  /-- owner of the exclusive window lock of each process -/
  win : Nat → Option Thr
  /-- owner of the mutex of each process -/
  proc : Nat → Option Thr
  pc : Thr → MtxPc

/-- All locks are initialised, mpi/mutex.h 113-116 and mpicache.h 115-117. -/
def MtxState.start : MtxState :=
  { mem := fun _ => -1, win := fun _ => none, proc := fun _ => none, pc := fun _ => .idle }

/-- One step of one thread, or of two threads that meet in a send and a receive. With
`lateInit = true` the initialisation of the lock in `MPIWinCache::init` (mpiwincache.h 223-225) may
happen at any time, because no process waits for the others after it; with `lateInit = false` only
while nobody has used the lock. -/
inductive MtxStep (P : MtxParams) (lateInit : Bool) : MtxState → MtxState → Prop
  /-- `startTransfer` or `deleteBlock` is called -/
  | call (s) (t : Thr) (l : Nat) : t.tid < P.total → s.pc t = .idle →
      MtxStep P lateInit s { s with pc := upd s.pc t (.wantProc l) }
  /-- the mutex of the process is free -/
  | proc (s) (t : Thr) (l : Nat) : s.pc t = .wantProc l → s.proc t.rank = none →
      MtxStep P lateInit s { s with proc := upd s.proc t.rank (some t), pc := upd s.pc t (.wantWin l) }
  /-- `MPI_Win_lock` -/
  | win (s) (t : Thr) (l : Nat) : s.pc t = .wantWin l → s.win (P.home l) = none →
      MtxStep P lateInit s { s with win := upd s.win (P.home l) (some t), pc := upd s.pc t (.swap l) }
  /-- `Mutex::acquire`, mpi/mutex.h 132-146, the lock was free -/
  | acquire (s) (t : Thr) (l : Nat) : s.pc t = .swap l → s.mem l < 0 →
      MtxStep P lateInit s { s with mem := upd s.mem l (P.lockId t), pc := upd s.pc t (.update l) }
  /-- `Mutex::acquire`, the lock was taken -/
  | enqueue (s) (t : Thr) (l : Nat) : s.pc t = .swap l → 0 ≤ s.mem l →
      MtxStep P lateInit s { s with mem := upd s.mem l (P.lockId t), pc := upd s.pc t (.swapped l (s.mem l)) }
  /-- the window (and without THREADSAFE_MPI its mutex) is unlocked, and `Mutex::wait`,
  mpi/mutex.h 152-166, starts to send -/
  | wait (s) (t : Thr) (l : Nat) (old : Int) : s.pc t = .swapped l old →
      MtxStep P lateInit s { s with
        win := upd s.win (P.home l) none
        proc := if P.lib then s.proc else upd s.proc t.rank none
        pc := upd s.pc t (.sending l (old / P.total) (P.tagOffset + old % P.total)) }
  /-- a receive from any source meets a send with the same tag -/
  | handOver (s) (t u : Thr) (l l' : Nat) (dest tag : Int) : s.pc t = .recv l →
      s.pc u = .sending l' dest tag → dest = t.rank → tag = P.tagOffset + t.tid →
      MtxStep P lateInit s { s with pc := upd (upd s.pc t (.released l)) u (if P.lib then .reWin l' else .reProc l') }
  | reProc (s) (t : Thr) (l : Nat) : s.pc t = .reProc l → s.proc t.rank = none →
      MtxStep P lateInit s { s with proc := upd s.proc t.rank (some t), pc := upd s.pc t (.reWin l) }
  | reWin (s) (t : Thr) (l : Nat) : s.pc t = .reWin l → s.win (P.home l) = none →
      MtxStep P lateInit s { s with win := upd s.win (P.home l) (some t), pc := upd s.pc t (.update l) }
  /-- end of `startTransfer`, mpiwincache.h 336-343 -/
  | hold (s) (t : Thr) (l : Nat) : s.pc t = .update l →
      MtxStep P lateInit s { s with
        win := upd s.win (P.home l) none
        proc := if P.lib then s.proc else upd s.proc t.rank none
        pc := upd s.pc t (.held l) }
  /-- `deleteBlock` goes on to the release with the window locked, mpiwincache.h 563 -/
  | delete (s) (t : Thr) (l : Nat) : s.pc t = .update l →
      MtxStep P lateInit s { s with pc := upd s.pc t (.cas l) }
  /-- `endTransfer` is called, mpiwincache.h 415 -/
  | endCall (s) (t : Thr) (l : Nat) : s.pc t = .held l →
      MtxStep P lateInit s { s with pc := upd s.pc t (if P.lib then .relWin l else .relProc l) }
  | relProc (s) (t : Thr) (l : Nat) : s.pc t = .relProc l → s.proc t.rank = none →
      MtxStep P lateInit s { s with proc := upd s.proc t.rank (some t), pc := upd s.pc t (.relWin l) }
  | relWin (s) (t : Thr) (l : Nat) : s.pc t = .relWin l → s.win (P.home l) = none →
      MtxStep P lateInit s { s with win := upd s.win (P.home l) (some t), pc := upd s.pc t (.cas l) }
  /-- `Mutex::release`, mpi/mutex.h 180-202, nobody waits -/
  | free (s) (t : Thr) (l : Nat) : s.pc t = .cas l → s.mem l = P.lockId t →
      MtxStep P lateInit s { s with mem := upd s.mem l (-1), pc := upd s.pc t (.released l) }
  /-- `Mutex::release`, somebody waits -/
  | contended (s) (t : Thr) (l : Nat) : s.pc t = .cas l → s.mem l ≠ P.lockId t →
      MtxStep P lateInit s { s with pc := upd s.pc t (.recv l) }
  /-- the window and the mutex of the process are unlocked, mpiwincache.h 434-437, 566-571 -/
  | leave (s) (t : Thr) (l : Nat) : s.pc t = .released l →
      MtxStep P lateInit s { s with
        win := upd s.win (P.home l) none
        proc := upd s.proc t.rank none
        pc := upd s.pc t .idle }
  /-- the initialisation in `MPIWinCache::init`, mpiwincache.h 223-225 -/
  | init (s) (l : Nat) : lateInit = true ∨ s.mem l = -1 →
      MtxStep P lateInit s { s with mem := upd s.mem l (-1) }

/-- Reachable states. After mpiwincache.h 148-228, by any steps. -/
def MtxReach (P : MtxParams) (lateInit : Bool) : MtxState → Prop :=
  Reachable (fun s => s = MtxState.start) (MtxStep P lateInit)

end Asagi
