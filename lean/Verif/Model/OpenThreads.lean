import Verif.Model.Trans
import Verif.Model.Api
import Verif.Model.Params
/-
`Grid::open` called by all threads of a process, grid/grid.cpp 214-249: registration of the threads
(numa/numa.cpp 75-154), initialisation of the container of each NUMA domain by the master thread of the
domain, and the broadcast of the result of thread 0. The barriers and broadcasts (threads/sync.h) are used
here with the meaning proved for them in `Verif.Props.Sync` (C21, C22): a thread leaves the k-th
barrier after the k-th arrival of all participants. Failures of pthread functions, and `Once`
(`m_resizeOnce`, C24), are not modelled here.
-/
namespace Asagi

/-- What the master thread of a domain does in `Container::init`, as far as it can fail or wait.
grid.cpp 236-240, simplecontainer.h 78-112. -/
inductive InitOp where
  /-- done by every domain, can fail -/
  | work
  /-- done by domain 0 only, can fail -/
  | root
  /-- broadcast among the masters of all domains (numacomm.h 115-122, numa.cpp 170) -/
  | sync
deriving DecidableEq, Repr

/-- `n` threads call `open` `calls` times each, after `setThreads(total)`. numa.h 111, grid.cpp 214. -/
structure OpenParams where
  n : Nat
  total : Nat
  calls : Nat
  /-- NUMA node of the CPU of a thread, numa.cpp 91 -/
  node : Nat → Int
  /-- `sched_getcpu` or `numa_node_of_cpu` fails for the thread, numa.cpp 83-93 -/
  noCpu : Nat → Bool
  /-- `NUMA_COMMUNICATION` is not `OFF`, grid.cpp 217-218 -/
  detect : Bool
  /-- Operations of the k-th call, see `initPlan` -/
  plan : Nat → List InitOp
  /-- Result of the i-th operation of the k-th call in a domain: `fail k d i` -/
  fail : Nat → Nat → Nat → Option Error

/-- Where a thread is within `open`. grid.cpp 214-249, numa.cpp 75-154; lines as indicated. -/
inductive OpenPc where
  /-- outside, or before numa.cpp 77 -/
  | start
  /-- waiting in `waitBarrier`, numa.cpp 138 -/
  | waitReg
  /-- master thread, before the i-th operation of `Container::init` -/
  | ops (i : Nat)
  /-- master thread, waiting in the broadcast that is the i-th operation -/
  | waitSync (i : Nat)
  /-- before grid.cpp 244 with the value of `err` -/
  | toFinal (e : Error)
  /-- waiting in the broadcast grid.cpp 244 -/
  | waitFinal
  /-- returned NUMA_ERROR from numa.cpp 86, 93 (the thread makes no further call) -/
  | quit
deriving DecidableEq, Repr

/-- Shared state and state of the threads. numa.h 80-96 and the variables of grid.cpp 214-249. -/
structure OpenState where
  /-- m_domains and m_masterThreads, numa.h 83-87 -/
  numa : NumaState
  /-- m_syncThreads.waiting() in the registration -/
  waiting : Nat
  /-- m_initialized, numa.h 93 -/
  initialised : Bool
  /-- Result of the registration of a thread: the ids in the thread-specific pointer, numa.cpp 148-151 -/
  reg : Nat → Option Registration
  /-- Number of calls the thread has completed -/
  call : Nat → Nat
  pc : Nat → OpenPc
  /-- Number of arrivals at the broadcast that is operation i of call k -/
  cnt : Nat → Nat → Nat
  /-- Number of arrivals at the broadcast grid.cpp 244 in call k -/
  fin : Nat → Nat
  /-- Value of `err` of thread 0 in that broadcast -/
  data : Nat → Option Error
  /-- Result of the k-th call of a thread; `some none`: thread 0 did not take part, the value is undefined -/
  res : Nat → Nat → Option (Option Error)

/-- Before any call, numa.cpp 48-56. -/
def OpenState.fresh : OpenState :=
  ⟨⟨[], []⟩, 0, false, fun _ => none, fun _ => 0, fun _ => .start, fun _ _ => 0, fun _ => 0, fun _ => none,
    fun _ _ => none⟩

/-- `threadId()`, numa.h 138-142 (0 if the pointer was never set). -/
def OpenState.threadId (s : OpenState) (t : Nat) : Nat := ((s.reg t).map Registration.thread).getD 0

/-- `domainId()`, numa.h 147-151. -/
def OpenState.domainId (s : OpenState) (t : Nat) : Nat := ((s.reg t).map Registration.domain).getD 0

/-- grid.cpp 222: masters initialise the container, the others go to grid.cpp 244 with SUCCESS. -/
def afterRegistration (master : Bool) : OpenPc := if master then .ops 0 else .toFinal .SUCCESS

/-- Whether operation `i` of call `k` fails in domain `d`: only domain 0 executes `root`.
numacomm.h 131-150, mpiwinfull.h 115-152, mpithreadfull.h 128-160 and the other functions of `levelPlan`. -/
def OpenParams.opError (P : OpenParams) (k d i : Nat) : Option Error :=
  match (P.plan k)[i]? with
  | some .work => P.fail k d i
  | some .root => if d = 0 then P.fail k d i else none
  | _ => none

/-- Steps of the threads. grid.cpp 214-249, numa.cpp 75-154; lines at the steps. -/
inductive OpenStep (P : OpenParams) : OpenState → OpenState → Prop
  /-- numa.cpp 83-93: the domain of the thread cannot be determined -/
  | noCpu (s : OpenState) (t : Nat) : t < P.n → s.pc t = .start → s.call t < P.calls →
      s.initialised = false → P.noCpu t = true →
      OpenStep P s { s with pc := upd s.pc t .quit }
  /-- numa.cpp 96-136: from locking the mutex to waiting in the barrier. The last thread
  (numa.cpp 134, 138 with `waiting() + 1 = m_totalThreads`) releases the barrier. With
  `m_totalThreads = 0` numa.cpp 134 compares with 2^32 - 1 and the barrier waits for a count of 0. -/
  | register (s : OpenState) (t : Nat) : t < P.n → s.pc t = .start → s.call t < P.calls →
      s.initialised = false → P.noCpu t = false →
      OpenStep P s { s with
        numa := (registerThread s.numa s.waiting (P.node t) P.detect).1
        waiting := s.waiting + 1
        initialised := decide (s.waiting + 1 = P.total)
        reg := upd s.reg t (some (registerThread s.numa s.waiting (P.node t) P.detect).2)
        pc := upd s.pc t .waitReg }
  /-- numa.cpp 138-153 and grid.cpp 222 after the release -/
  | registered (s : OpenState) (t : Nat) (r : Registration) : t < P.n → s.pc t = .waitReg →
      s.initialised = true → s.reg t = some r →
      OpenStep P s { s with pc := upd s.pc t (afterRegistration r.master) }
  /-- numa.cpp 77-80: a later call, or a thread that did not register -/
  | again (s : OpenState) (t : Nat) : t < P.n → s.pc t = .start → s.call t < P.calls →
      s.initialised = true →
      OpenStep P s { s with
        pc := upd s.pc t (afterRegistration (s.numa.masters[s.threadId t]?.getD false)) }
  /-- an operation that does not wait and succeeds, or is not executed by this domain -/
  | opDone (s : OpenState) (t i : Nat) : t < P.n → s.pc t = .ops i →
      i < (P.plan (s.call t)).length → (P.plan (s.call t))[i]? ≠ some .sync →
      P.opError (s.call t) (s.domainId t) i = none →
      OpenStep P s { s with pc := upd s.pc t (.ops (i + 1)) }
  /-- an operation that fails: `Container::init` returns at once -/
  | opFail (s : OpenState) (t i : Nat) (e : Error) : t < P.n → s.pc t = .ops i →
      P.opError (s.call t) (s.domainId t) i = some e →
      OpenStep P s { s with pc := upd s.pc t (.toFinal e) }
  /-- arrival at a broadcast among the domains -/
  | arrive (s : OpenState) (t i : Nat) : t < P.n → s.pc t = .ops i →
      (P.plan (s.call t))[i]? = some .sync →
      OpenStep P s { s with
        cnt := upd s.cnt (s.call t) (upd (s.cnt (s.call t)) i (s.cnt (s.call t) i + 1))
        pc := upd s.pc t (.waitSync i) }
  /-- `totalDomains()` masters have arrived -/
  | leave (s : OpenState) (t i : Nat) : t < P.n → s.pc t = .waitSync i →
      s.cnt (s.call t) i = s.numa.domains.length →
      OpenStep P s { s with pc := upd s.pc t (.ops (i + 1)) }
  /-- end of `Container::init` -/
  | initDone (s : OpenState) (t i : Nat) : t < P.n → s.pc t = .ops i →
      (P.plan (s.call t)).length ≤ i →
      OpenStep P s { s with pc := upd s.pc t (.toFinal .SUCCESS) }
  /-- arrival at grid.cpp 244; the root is thread 0 (numa.h 163-172) -/
  | arriveFinal (s : OpenState) (t : Nat) (e : Error) : t < P.n → s.pc t = .toFinal e →
      OpenStep P s { s with
        fin := upd s.fin (s.call t) (s.fin (s.call t) + 1)
        data := if s.threadId t = 0 then upd s.data (s.call t) (some e) else s.data
        pc := upd s.pc t .waitFinal }
  /-- `m_totalThreads` threads have arrived: all threads take the value of thread 0 and return -/
  | return (s : OpenState) (t : Nat) : t < P.n → s.pc t = .waitFinal →
      s.fin (s.call t) = P.total →
      OpenStep P s { s with
        res := upd s.res t (upd (s.res t) (s.call t) (some (s.data (s.call t))))
        call := upd s.call t (s.call t + 1)
        pc := upd s.pc t .start }

/-- All states the threads can reach. From numa.cpp 48-56 by any steps. -/
def OpenReach (P : OpenParams) : OpenState → Prop :=
  Reachable (fun s => s = OpenState.fresh) (OpenStep P)

/-! ### Operations of the containers -/

/-- `MPITrans::init`, FULL: transfer/mpiwinfull.h 115-152 (create the window; broadcast mutex and
window), mpithreadfull.h 128-160 (register the receiver; broadcast tag and mutex), mpino.h. -/
def MpiTrans.fullPlan : MpiTrans → List InitOp
  | .no => []
  | .thread => [.root, .sync, .sync]
  | .window => [.root, .sync, .sync]

/-- `MPITrans::init`, CACHE: transfer/mpiwincache.h 148-228 (broadcast the cache; `MPICache::init`
mpicache.h 93-120, which ignores a failed allocation, with one broadcast; create both windows; five broadcasts),
mpithreadcache.h 352-446 (`MPICache::init`; register the receivers; nine broadcasts), mpino.h. -/
def MpiTrans.cachePlan : MpiTrans → List InitOp
  | .no => []
  | .thread => .sync :: .root :: List.replicate 9 .sync
  | .window => .sync :: .sync :: .root :: List.replicate 5 .sync

/-- `NumaTrans::init`: transfer/numafull.h 79-97 and numano.h do not wait; numafullcache.h 69-87 and
numacache.h 85-110 broadcast the list of cache managers. -/
def numaPlan (kind : LevelKind) (t : NumaTrans) : List InitOp :=
  match kind, t with
  | .cache, .full => [.sync]
  | _, .fullCache => [.sync]
  | _, _ => []

/-- `Level::open`: passthrough.h 82-99 (file and type check, level.h 215-271), cache.h 87-114 and
cachedist.h 96-129 (then the common cache, numacomm.h 131-150), full.h 86-130 and fulldist.h 99-144 (then the
common storage; the own cache of each domain if the class is FullDist). -/
def levelPlan (c : ContainerType) : List InitOp :=
  match c.kind with
  | .passThrough => [.work]
  | .cache => [.work, .root, .sync] ++ c.mpi.cachePlan ++ numaPlan .cache c.numa
  | .full => [.work, .root, .sync] ++ (if c = .FULL then [] else [.work]) ++ c.mpi.fullPlan ++
      numaPlan .full c.numa

/-- `SimpleContainer::init`, simplecontainer.h 78-112: `comms` level objects are created when the vector
grows (each constructor calls `createComm`, level.h 125-145), then the level is opened. -/
def initPlan (c : ContainerType) (comms : Nat) : List InitOp :=
  List.replicate comms .sync ++ levelPlan c

end Asagi
