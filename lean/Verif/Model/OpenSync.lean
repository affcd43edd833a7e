import Verif.Model.OpenThreads
import Verif.Model.Sync
/-
`Grid::open` called by all threads of a process with the barriers and broadcasts as they are implemented: the
operations of `Verif.Model.OpenThreads`, grid/grid.cpp 214-249 and numa/numa.cpp 75-154, with the functions
of threads/sync.h (`Verif.Model.Sync`) instead of the counters of arrivals. One `Sync` object is shared by all
threads (m_syncThreads, numa/numa.h 96: registration and final broadcast), others by the masters of the domains
(m_syncDomains, numa.h 99, and one in each communicator, numa/numacomm.h 57).
-/
namespace Asagi

/-- What thread `t` does next in the functions of a `Sync` object, from locking the mutex to releasing it; `none`:
it waits for a condition variable. Spurious wake-ups are not modelled here (C23). sync.h 107-234. -/
def SyncState.next {α : Type} (P : SyncParams α) (t : Nat) (s : SyncState α) : Option (SyncState α) :=
  match s.pc t with
  | .idle => some (if s.finishing then { s with pc := upd s.pc t .waitFin } else s.arrive P t)
  | .sigFin => some (s.arrive P t)
  | .sigCond => some (s.afterCond P t)
  | .sigLast => some (s.leave P t)
  | .waitFin => none
  | .waitCond => none
  | .waitLast => none

/-- The thread is counted in m_syncedThreads: between sync.h 129 and 156. -/
def SyncPc.inside : SyncPc → Bool
  | .waitCond => true
  | .sigCond => true
  | .waitLast => true
  | .sigLast => true
  | _ => false

/-- The next step of the thread includes sync.h 129: `startBarrier` returns, sync.h 107-116. -/
def SyncState.arrives {α : Type} (s : SyncState α) (t : Nat) : Bool :=
  match s.pc t with
  | .idle => !s.finishing
  | .sigFin => true
  | _ => false

/-- Where a thread is within `open`; its place within a barrier or broadcast is in the `Sync` object.
grid.cpp 214-249, numa.cpp 75-154; lines as indicated. -/
inductive OSPc where
  /-- outside, or before numa.cpp 77 -/
  | start
  /-- in `registerThread` after numa.cpp 93, to the end of `waitBarrier`, numa.cpp 138 -/
  | reg
  /-- master thread, at the i-th operation of `Container::init` -/
  | ops (i : Nat)
  /-- at grid.cpp 244 with the value of `err` -/
  | final (e : Error)
  /-- returned NUMA_ERROR from numa.cpp 86, 93 (the thread makes no further call) -/
  | quit
deriving DecidableEq, Repr

/-- Shared state and state of the threads. numa.h 80-99 and the variables of grid.cpp 214-249. -/
structure OSState where
  /-- m_domains and m_masterThreads, numa.h 83-87 -/
  numa : NumaState
  /-- m_initialized, numa.h 93 -/
  initialised : Bool
  /-- Result of the registration of a thread, numa.cpp 148-151 -/
  reg : Nat → Option Registration
  /-- Number of calls the thread has completed -/
  call : Nat → Nat
  pc : Nat → OSPc
  /-- m_syncThreads, numa.h 96; the values are pointers (thread and number of its call of the object) -/
  th : SyncState (Nat × Nat)
  /-- The `Sync` objects of the domains, numa.h 99, numacomm.h 57 -/
  obj : Nat → SyncState (Nat × Nat)
  /-- Result of the k-th call of a thread; `some none`: undefined -/
  res : Nat → Nat → Option (Option Error)

/-- Before any call, numa.cpp 48-56. -/
def OSState.fresh : OSState :=
  ⟨⟨[], []⟩, false, fun _ => none, fun _ => 0, fun _ => .start, .start, fun _ => .start, fun _ _ => none⟩

/-- `threadId()`, numa.h 138-142 (0 if the pointer was never set). -/
def OSState.threadId (s : OSState) (t : Nat) : Nat := ((s.reg t).map Registration.thread).getD 0

/-- `domainId()`, numa.h 147-151. -/
def OSState.domainId (s : OSState) (t : Nat) : Nat := ((s.reg t).map Registration.domain).getD 0

/-- The thread with number 0, the root of the broadcast grid.cpp 244 (numa.h 163-172: `current == root` holds for
it; a thread that never registered would also have number 0, see `C79_extra_thread`). -/
def OSState.rootThread (s : OSState) (n : Nat) : Option Nat :=
  (List.range n).find? fun u => (s.reg u).any fun r => r.thread == 0

/-- Uses of m_syncThreads: the first is the registration (numa.cpp 97-140, a barrier), the others the broadcasts
grid.cpp 244, each with m_totalThreads threads (numa.cpp 138, numa.h 169). -/
def OSState.thParams (P : OpenParams) (s : OSState) : SyncParams (Nat × Nat) :=
  ⟨P.total, fun k => if k = 0 then none else s.rootThread P.n, fun t k => (t, k)⟩

/-- Uses of the objects of the domains: broadcasts from domain 0 to totalDomains() masters, numacomm.h 115-122,
numa.cpp 170. The participants are numbered by `domainId()`. -/
def OSState.domParams (s : OSState) : SyncParams (Nat × Nat) :=
  ⟨s.numa.domains.length, fun _ => some 0, fun t k => (t, k)⟩

/-- grid.cpp 222: masters initialise the container, the others go to grid.cpp 244 with SUCCESS. -/
def OSPc.afterReg (master : Bool) : OSPc := if master then .ops 0 else .final .SUCCESS

/-- sync.h 231: the variable `err` of the thread `m_data` points to, as long as that thread is in grid.cpp 244. -/
def OSState.readErr (s : OSState) : Option (Option (Nat × Nat)) → Option Error
  | some (some (r, _)) => match s.pc r with
    | .final e => some e
    | _ => none
  | _ => none

/-- Steps of the threads. `ob k i` is the `Sync` object of operation `i` of call `k`. grid.cpp 214-249,
numa.cpp 75-154; lines at the steps. -/
inductive OSStep (P : OpenParams) (ob : Nat → Nat → Nat) : OSState → OSState → Prop
  /-- numa.cpp 83-93: the domain of the thread cannot be determined -/
  | noCpu (s : OSState) (t : Nat) : t < P.n → s.pc t = .start → s.call t < P.calls →
      s.initialised = false → P.noCpu t = true →
      OSStep P ob s { s with pc := upd s.pc t .quit }
  /-- numa.cpp 77-93 -/
  | check (s : OSState) (t : Nat) : t < P.n → s.pc t = .start → s.call t < P.calls →
      s.initialised = false → P.noCpu t = false →
      OSStep P ob s { s with pc := upd s.pc t .reg }
  /-- numa.cpp 77-80: a later call -/
  | again (s : OSState) (t : Nat) : t < P.n → s.pc t = .start → s.call t < P.calls →
      s.initialised = true →
      OSStep P ob s { s with pc := upd s.pc t (.afterReg (s.numa.masters[s.threadId t]?.getD false)) }
  /-- numa.cpp 97 waits for the end of the previous use -/
  | regWait (s : OSState) (t : Nat) (th' : SyncState (Nat × Nat)) : t < P.n → s.pc t = .reg →
      (s.th.pc t).inside = false → s.th.arrives t = false → s.th.next (s.thParams P) t = some th' →
      OSStep P ob s { s with th := th' }
  /-- numa.cpp 97-138: registration, and `waitBarrier` until the thread waits or, if it is the last, leaves;
  numa.cpp 134 with `m_totalThreads = 0` compares with 2^32 - 1 -/
  | regArrive (s : OSState) (t : Nat) (th' : SyncState (Nat × Nat)) : t < P.n → s.pc t = .reg →
      s.th.arrives t = true → s.th.next (s.thParams P) t = some th' →
      OSStep P ob s { s with
        numa := (registerThread s.numa s.th.synced (P.node t) P.detect).1
        initialised := s.initialised || decide (0 < P.total ∧ P.total ≤ s.th.synced + 1)
        reg := upd s.reg t (some (registerThread s.numa s.th.synced (P.node t) P.detect).2)
        pc := upd s.pc t (if th'.rnd t = s.th.rnd t then .reg else
          .afterReg (registerThread s.numa s.th.synced (P.node t) P.detect).2.master)
        th := th' }
  /-- numa.cpp 138-153: within `waitBarrier`, until the thread leaves it -/
  | regPass (s : OSState) (t : Nat) (r : Registration) (th' : SyncState (Nat × Nat)) : t < P.n → s.pc t = .reg →
      (s.th.pc t).inside = true → s.reg t = some r → s.th.next (s.thParams P) t = some th' →
      OSStep P ob s { s with
        pc := upd s.pc t (if th'.rnd t = s.th.rnd t then .reg else .afterReg r.master)
        th := th' }
  /-- an operation that does not wait and succeeds, or is not executed by this domain -/
  | opDone (s : OSState) (t i : Nat) : t < P.n → s.pc t = .ops i →
      i < (P.plan (s.call t)).length → (P.plan (s.call t))[i]? ≠ some .sync →
      P.opError (s.call t) (s.domainId t) i = none →
      OSStep P ob s { s with pc := upd s.pc t (.ops (i + 1)) }
  /-- an operation that fails: `Container::init` returns at once -/
  | opFail (s : OSState) (t i : Nat) (e : Error) : t < P.n → s.pc t = .ops i →
      P.opError (s.call t) (s.domainId t) i = some e →
      OSStep P ob s { s with pc := upd s.pc t (.final e) }
  /-- a step of a broadcast among the domains, numacomm.h 115-122, numa.cpp 170 -/
  | sync (s : OSState) (t i : Nat) (o' : SyncState (Nat × Nat)) : t < P.n → s.pc t = .ops i →
      (P.plan (s.call t))[i]? = some .sync →
      (s.obj (ob (s.call t) i)).next s.domParams (s.domainId t) = some o' →
      OSStep P ob s { s with
        obj := upd s.obj (ob (s.call t) i) o'
        pc := upd s.pc t (if o'.rnd (s.domainId t) = (s.obj (ob (s.call t) i)).rnd (s.domainId t) then .ops i
          else .ops (i + 1)) }
  /-- end of `Container::init` -/
  | initDone (s : OSState) (t i : Nat) : t < P.n → s.pc t = .ops i →
      (P.plan (s.call t)).length ≤ i →
      OSStep P ob s { s with pc := upd s.pc t (.final .SUCCESS) }
  /-- a step of the broadcast grid.cpp 244 within which the thread stays -/
  | final (s : OSState) (t : Nat) (e : Error) (th' : SyncState (Nat × Nat)) : t < P.n → s.pc t = .final e →
      s.th.next (s.thParams P) t = some th' → th'.rnd t = s.th.rnd t →
      OSStep P ob s { s with th := th' }
  /-- the step with which the thread leaves the broadcast, sync.h 231, and returns, grid.cpp 248 -/
  | return (s : OSState) (t : Nat) (e : Error) (th' : SyncState (Nat × Nat)) : t < P.n → s.pc t = .final e →
      s.th.next (s.thParams P) t = some th' → th'.rnd t ≠ s.th.rnd t →
      OSStep P ob s { s with
        res := upd s.res t (upd (s.res t) (s.call t) (some (s.readErr (th'.got t (s.th.rnd t)))))
        call := upd s.call t (s.call t + 1)
        pc := upd s.pc t .start
        th := th' }

/-- All states the threads can reach. From numa.cpp 48-56 by any steps. -/
def OSReach (P : OpenParams) (ob : Nat → Nat → Nat) : OSState → Prop :=
  Reachable (fun s => s = OSState.fresh) (OSStep P ob)

/-- The same with condition waits that may return without a broadcast, as POSIX allows; sync.h 142 does not check why
the wait returned. -/
inductive OSStepSpurious (P : OpenParams) (ob : Nat → Nat → Nat) : OSState → OSState → Prop
  | step (s s' : OSState) : OSStep P ob s s' → OSStepSpurious P ob s s'
  /-- sync.h 142 -/
  | wakeCond (s : OSState) (t : Nat) : t < P.n → s.th.pc t = .waitCond →
      OSStepSpurious P ob s { s with th := { s.th with pc := upd s.th.pc t .sigCond } }

/-- From numa.cpp 48-56 by any steps, with spurious wake-ups. -/
def OSReachSpurious (P : OpenParams) (ob : Nat → Nat → Nat) : OSState → Prop :=
  Reachable (fun s => s = OSState.fresh) (OSStepSpurious P ob)

end Asagi
