import Verif.Model.CacheCount
import Verif.Model.CounterConc
/-
The performance counters of the domains while threads access a shared CACHE grid or a distributed FULL grid, with the
increment as its atomic actions: `Counter::inc` (perf/counter.h 125-135) of `Verif.Model.CounterConc` inside of the
getters of `Verif.Model.CacheDist` and `Verif.Model.FullDistConc`. `locked` is the build option THREADSAFE_COUNTER.
-/
namespace Asagi
variable {β α : Type}

/-- Where a thread is in `Counter::inc`, counter.h 125-135. -/
inductive AddPc where
  | out
  /-- before line 131 -/
  | want (ty : CounterType)
  /-- before the read of line 134 -/
  | locked (ty : CounterType)
  /-- before the write of line 134 -/
  | got (ty : CounterType) (v : Nat)
deriving DecidableEq, Repr

/-- The caches, the counters of each domain and their mutexes (counter.h 45-48, 115; level.h 119), and the threads in
`Counter::inc`. -/
structure AddState (β : Type) where
  st : DistState β
  c : Nat → Counters
  mutex : Nat → CounterType → Option Nat
  add : Nat → AddPc

/-- A thread enters `inc` after a step that counts something. cachedist.h 137, 160-161, 187-188, 194; cache.h 159. -/
def AddPc.enter : Option CounterType → AddPc
  | none => .out
  | some ty => .want ty

/-- A step of thread `t` in a getter. While a thread is in `inc`, it does nothing else. cachedist.h 135-214. -/
def AddUser (P : DistParams β) (t : Nat) (s s' : AddState β) : Prop :=
  s.add t = .out ∧ UserStep P t s.st s'.st ∧
    s'.add = upd s.add t (.enter (pcCounts (fun _ => .file) (s.st.pc (.user t)) (s'.st.pc (.user t)))) ∧
    s'.c = s.c ∧ s'.mutex = s.mutex

/-- A step of thread `t` in a getter of a distributed FULL grid. fulldist.h 150-199. -/
def AddFullUser (c : LevelCfg α) (F : FullCfg α) (data : Nat → Mem α) (t : Nat) (s s' : AddState α) : Prop :=
  s.add t = .out ∧ (FullStep c F data s.st s'.st ∧ s'.st.pc (.user t) ≠ s.st.pc (.user t)) ∧
    s'.add = upd s.add t (.enter (pcCounts (fullCounter c F t) (s.st.pc (.user t)) (s'.st.pc (.user t)))) ∧
    s'.c = s.c ∧ s'.mutex = s.mutex

/-- Thread `t` accesses block `b` of its own domain and has to count it: fulldist.h 160-163, full.h 137-139. -/
def AddFullLocal (c : LevelCfg α) (F : FullCfg α) (t b : Nat) (s s' : AddState α) : Prop :=
  s.add t = .out ∧ (s.st.pc (.user t) = .idle ∧ F.isLocal c t b) ∧
    s' = { s with add := upd s.add t (.enter (some .access)) }

/-- A step of a thread in `inc`; `dom` are the domains of the threads. Lines of counter.h at the steps. -/
inductive IncStep (dom : Nat → Nat) (locked : Bool) : AddState β → AddState β → Prop
  /-- 130-132 -/
  | lock (s : AddState β) (t : Nat) (ty : CounterType) : s.add t = .want ty →
      locked = true → s.mutex (dom t) ty = none →
      IncStep dom locked s { s with
        mutex := upd s.mutex (dom t) (upd (s.mutex (dom t)) ty (some t))
        add := upd s.add t (.locked ty) }
  /-- without THREADSAFE_COUNTER there is nothing to lock -/
  | noLock (s : AddState β) (t : Nat) (ty : CounterType) : s.add t = .want ty → locked = false →
      IncStep dom locked s { s with add := upd s.add t (.locked ty) }
  /-- 134, the read -/
  | read (s : AddState β) (t : Nat) (ty : CounterType) : s.add t = .locked ty →
      IncStep dom locked s { s with add := upd s.add t (.got ty ((s.c (dom t)).native ty)) }
  /-- 134, the write, and the end of the scope of the lock -/
  | write (s : AddState β) (t : Nat) (ty : CounterType) (v : Nat) : s.add t = .got ty v →
      IncStep dom locked s { s with
        c := upd s.c (dom t) ((s.c (dom t)).put ((v + 1) % ulongRange) ty)
        mutex := if locked then upd s.mutex (dom t) (upd (s.mutex (dom t)) ty none) else s.mutex
        add := upd s.add t .out }

end Asagi
