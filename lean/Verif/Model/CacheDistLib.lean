import Verif.Model.CacheDist
import Verif.Model.CacheDistRun
/-
The shared caches of builds with THREADSAFE_MPI (the default, CMakeLists.txt): all calls of MPI are
made with the lock of the library, `mpi::MPIComm::mpiLock`, of which each process has one
(mpi/mpicomm.h 49-63, 180). With MPI windows, the lock is taken before the lock of the directory
entry and kept until the entry is unlocked: by `deleteBlock` (mpiwincache.h 472, until its end), by
`startTransfer` (247) until `endTransfer` (437), including the transfer or the load of the block
between them, and by `addBlock` (450-455). A thread waits for the lock of the entry with the lock of
the library (mpiwincache.h 278-290, 503-519). The other kinds of communication do not use the lock
of the library (no occurrence in mpithreadcache.h, numacache.h, mpino.h).
-/
namespace Asagi
variable {β : Type}

/-- The shared caches and, for each process, the thread that has the lock of the library. mpicomm.h 180. -/
structure LibState (β : Type) where
  st : DistState β
  mp : Nat → Option Nat

/-- The next thing that a thread at this position does (with MPI windows) is to take the lock of the
library and then the lock of an entry: before `deleteBlock`, `addBlock` and `startTransfer`.
mpiwincache.h 247, 450, 472. -/
def Pc.entersLib : Pc β → Bool
  | .own _ _ _ (.del (some _)) | .own _ _ _ .add | .own _ _ _ .start => true
  | _ => false

/-- The next step of a thread at this position unlocks the entry and then the library: the end of
`deleteBlock` and `endTransfer`. mpiwincache.h 437, 455, 572. -/
def Pc.leavesLib : Pc β → Bool
  | .own _ _ _ (.delLocked _) | .own _ _ _ .addLocked | .own _ _ _ .fin => true
  | _ => false

/-- Process of a thread. Numbering of the model, see `Verif.Model.CacheDist` (cachedist.h 135-214). -/
def DistParams.rankT (P : DistParams β) (t : Nat) : Nat := P.rankOf (P.dom t)

/-- One step of any thread, with `mpiLock` of the processes: mpicomm.h 49-63, mpiwincache.h 243-572; lines at
the steps. -/
inductive LibStep (P : DistParams β) : LibState β → LibState β → Prop
  /-- `mpiLock.lock()`, mpiwincache.h 247, 472 -/
  | take (ls) (t : Nat) : P.mode = .window → (ls.st.pc (.user t)).entersLib = true →
      ls.mp (P.rankT t) = none →
      LibStep P ls { ls with mp := upd ls.mp (P.rankT t) (some t) }
  /-- takes the lock of the entry -/
  | enter (ls) (t : Nat) (st') : P.mode = .window → (ls.st.pc (.user t)).entersLib = true →
      ls.mp (P.rankT t) = some t → UserStep P t ls.st st' → LibStep P ls { ls with st := st' }
  /-- unlocks the entry; `mpiLock.unlock()`, mpiwincache.h 437 and the end of `deleteBlock` -/
  | leave (ls) (t : Nat) (st') : P.mode = .window → (ls.st.pc (.user t)).leavesLib = true →
      UserStep P t ls.st st' → LibStep P ls { st := st', mp := upd ls.mp (P.rankT t) none }
  /-- all other steps -/
  | other (ls) (t : Nat) (st') :
      P.mode ≠ .window ∨ (ls.st.pc (.user t)).entersLib = false ∧
        (ls.st.pc (.user t)).leavesLib = false →
      UserStep P t ls.st st' → LibStep P ls { ls with st := st' }
  | comm (ls) (r : Nat) (st') : CommStep P r ls.st st' → LibStep P ls { ls with st := st' }

/-- Reachable states of the shared caches with the lock of the library.
From `CacheDist::open`, cachedist.h 96-129, by any steps. -/
def LibReach (P : DistParams β) : LibState β → Prop :=
  Reachable (fun ls => ∃ c, CacheList.init P.size P.handDiff = some c ∧
    ls = { st := DistState.start P c, mp := fun _ => none }) (LibStep P)

/-! An interpreter for examples, see `Verif.Model.CacheDistRun`. -/

/-- One element of a schedule: thread `t` takes the lock of the library, or another step.
A step of mpiwincache.h 247, 472 or another one of cachedist.h 135-214. -/
inductive LibCmd where
  | take (t : Nat)
  | step (c : DistCmd)

/-- One element of the schedule, executing the steps of `LibStep` (mpiwincache.h 243-572); `none` if it is not
possible. -/
def LibCmd.exec (P : DistParams β) (ls : LibState β) : LibCmd → Option (LibState β)
  | .take t =>
    if P.mode = .window ∧ (ls.st.pc (.user t)).entersLib = true ∧ ls.mp (P.rankT t) = none then
      some { ls with mp := upd ls.mp (P.rankT t) (some t) }
    else none
  | .step (.user t rnd) =>
    (execUser P ls.st t rnd).bind fun st' =>
      if P.mode = .window ∧ (ls.st.pc (.user t)).entersLib = true then
        if ls.mp (P.rankT t) = some t then some { ls with st := st' } else none
      else if P.mode = .window ∧ (ls.st.pc (.user t)).leavesLib = true then
        some { st := st', mp := upd ls.mp (P.rankT t) none }
      else some { ls with st := st' }
  | .step c => (c.exec P ls.st).map fun st' => { ls with st := st' }

/-- A schedule, from the start. No code of its own: repeats `LibCmd.exec` (mpiwincache.h 243-572). -/
def libExec (P : DistParams β) (ls : LibState β) : List LibCmd → Option (LibState β)
  | [] => some ls
  | c :: cs => (c.exec P ls).bind fun ls' => libExec P ls' cs

/-- A schedule after `CacheDist::open`, cachedist.h 96-129. -/
def libRun (P : DistParams β) (cmds : List LibCmd) : Option (LibState β) :=
  (CacheList.init P.size P.handDiff).bind fun c =>
    libExec P { st := DistState.start P c, mp := fun _ => none } cmds

end Asagi
