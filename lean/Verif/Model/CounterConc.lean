import Verif.Model.Counter
import Verif.Model.Trans
/-
The performance counters of one level with several threads: `Counter::inc` (perf/counter.h 125-135) as its
atomic actions. `locked` is the build option THREADSAFE_COUNTER (a mutex for each counter, counter.h
45-48). The accesses are those of cache.h 122-159, cachedist.h 137-188, fulldist.h 166-181 and
passthrough.h 107-108: first `inc(ACCESS)`, later at most one of `inc(NUMA)`, `inc(MPI)`, `inc(FILE)`.
The other work of an access is left out.
-/
namespace Asagi

/-- `m_counter[type]` counter.h 115. -/
def Counters.native (c : Counters) : CounterType → Nat
  | .access => c.access
  | .numa => c.numa
  | .mpi => c.mpi
  | .file => c.file
  | _ => 0

/-- `m_counter[type] = v` counter.h 115, 134. -/
def Counters.put (c : Counters) (v : Nat) : CounterType → Counters
  | .access => { c with access := v }
  | .numa => { c with numa := v }
  | .mpi => { c with mpi := v }
  | .file => { c with file := v }
  | _ => c

/-- Where a thread is. `next`: the counter that the same access increments afterwards. counter.h 125-135. -/
inductive IncPc where
  | idle
  /-- before line 131 -/
  | want (ty : CounterType) (next : Option CounterType)
  /-- before the read of line 134 -/
  | «have» (ty : CounterType) (next : Option CounterType)
  /-- before the write of line 134 -/
  | got (ty : CounterType) (next : Option CounterType) (v : Nat)
deriving DecidableEq, Repr

/-- `log`: the accesses that have begun, with the transfer or load that each needs.
counter.h 115, and cache.h 120-149, cachedist.h 135-214. -/
structure CtrState where
  c : Counters
  mutex : CounterType → Option Nat
  pc : Nat → IncPc
  log : List (Option CounterType)

/-- The constructor, counter.cpp 45-48; no getter was called. -/
def CtrState.init (s : CtrState) : Prop := s = ⟨{}, fun _ => none, fun _ => .idle, []⟩

/-- The transfers and the load that an access can count. cachedist.h 137-188, cache.h 157-159. -/
def countable (k : Option CounterType) : Prop :=
  k = none ∨ k = some .numa ∨ k = some .mpi ∨ k = some .file

/-- The next thing to do after an `inc`. counter.h 135; cachedist.h 137-188. -/
def IncPc.after : Option CounterType → IncPc
  | none => .idle
  | some ty => .want ty none

/-- Steps of the threads, counter.h 125-135; lines at the steps. -/
inductive CtrStep (n : Nat) (locked : Bool) : CtrState → CtrState → Prop
  /-- A getter starts. -/
  | call {s : CtrState} (t : Nat) (k : Option CounterType) : t < n → s.pc t = .idle → countable k →
      CtrStep n locked s { s with pc := upd s.pc t (.want .access k), log := k :: s.log }
  /-- counter.h 130-132 -/
  | lock {s : CtrState} (t : Nat) (ty : CounterType) (k : Option CounterType) : t < n →
      s.pc t = .want ty k → locked = true → s.mutex ty = none →
      CtrStep n locked s { s with pc := upd s.pc t (.have ty k), mutex := upd s.mutex ty (some t) }
  /-- Without THREADSAFE_COUNTER there is nothing to lock. -/
  | noLock {s : CtrState} (t : Nat) (ty : CounterType) (k : Option CounterType) : t < n →
      s.pc t = .want ty k → locked = false →
      CtrStep n locked s { s with pc := upd s.pc t (.have ty k) }
  /-- `m_counter[type]++`, the read -/
  | read {s : CtrState} (t : Nat) (ty : CounterType) (k : Option CounterType) : t < n →
      s.pc t = .have ty k →
      CtrStep n locked s { s with pc := upd s.pc t (.got ty k (s.c.native ty)) }
  /-- The write, and the end of the scope of the lock. -/
  | write {s : CtrState} (t : Nat) (ty : CounterType) (k : Option CounterType) (v : Nat) : t < n →
      s.pc t = .got ty k v →
      CtrStep n locked s { s with
        c := s.c.put ((v + 1) % ulongRange) ty
        mutex := if locked then upd s.mutex ty none else s.mutex
        pc := upd s.pc t (.after k) }

/-- `get(HIT)`, counter.cpp 61-62, while other threads work: there is no lock, each counter is read at its
own time; the four arguments are the counters at these times. -/
def getHitAt (a b c d : Counters) : Nat := ulongSub (ulongSub (ulongSub a.access b.numa) c.mpi) d.file

end Asagi
