import Verif.Model.Trans
/-
Barrier and broadcast between the threads of a process, threads/sync.h, and the one-time execution,
threads/once.h.
-/
namespace Asagi

/-- What the threads of one `Sync` object do: `n` threads call the functions of the object; the k-th
call of each thread is a broadcast with root `root k` (`broadcast`, sync.h 219-234) or a barrier
(`none`; `barrier`, sync.h 201-208; in numa.cpp 97-140 with further code between `startBarrier` and
`waitBarrier`). `val t k` is the value of the variable thread `t` passes to its k-th call. -/
structure SyncParams (α : Type) where
  n : Nat
  root : Nat → Option Nat
  val : Nat → Nat → α

/-- Where a thread is. The mutex is held only within the atomic steps below, it is released in
`pthread_cond_wait` and in `endBarrier`. sync.h 107-234; lines as indicated. -/
inductive SyncPc where
  /-- outside -/
  | idle
  /-- waiting for m_finishCondition, sync.h 112 -/
  | waitFin
  /-- woken there, the mutex not yet locked again -/
  | sigFin
  /-- waiting for m_condition, sync.h 142 -/
  | waitCond
  | sigCond
  /-- waiting for m_lastCondition, sync.h 150 -/
  | waitLast
  | sigLast
deriving DecidableEq, Repr

/-- Shared members and the state of the threads. sync.h 57-79. -/
structure SyncState (α : Type) where
  /-- m_syncedThreads, sync.h 58 -/
  synced : Nat
  /-- m_lastThreads, sync.h 67 -/
  last : Nat
  /-- m_finishing, sync.h 73 -/
  finishing : Bool
  /-- m_data, sync.h 79: points to the variable thread `t` passed to its k-th call -/
  data : Option (Nat × Nat)
  pc : Nat → SyncPc
  /-- Number of calls the thread has completed -/
  rnd : Nat → Nat
  /-- Value of the thread's variable after its k-th call; `some none`: m_data was null or its target no
  longer alive -/
  got : Nat → Nat → Option (Option α)

/-- Constructor, sync.h 82-92. -/
def SyncState.start {α : Type} : SyncState α :=
  ⟨0, 0, false, none, fun _ => .idle, fun _ => 0, fun _ _ => none⟩

/-- `pthread_cond_broadcast`: wakes all threads waiting for the condition. sync.h 137, 163, 172. -/
def wake (pc : Nat → SyncPc) (a b : SyncPc) : Nat → SyncPc := fun t => if pc t = a then b else pc t

/-- `current == root` in the current call of the thread, sync.h 225, 228. -/
def SyncParams.isRoot {α : Type} (P : SyncParams α) (s : SyncState α) (t : Nat) : Prop :=
  P.root (s.rnd t) = some t

instance {α : Type} (P : SyncParams α) (s : SyncState α) (t : Nat) : Decidable (P.isRoot s t) :=
  inferInstanceAs (Decidable (_ = _))

/-- `*static_cast<T*>(m_data)`, sync.h 231. The variable lives until its thread leaves the call. -/
def SyncState.deref {α : Type} (P : SyncParams α) (s : SyncState α) : Option α :=
  match s.data with
  | none => none
  | some (r, k) => if s.rnd r = k then some (P.val r k) else none

/-- sync.h 156-176 and 231-233: leave the barrier. -/
def SyncState.leave {α : Type} (P : SyncParams α) (t : Nat) (s : SyncState α) : SyncState α :=
  let synced := s.synced - 1
  let last := if P.isRoot s t then s.last - 1 else s.last
  let pc1 := if synced = last ∧ ¬ P.isRoot s t then wake s.pc .waitLast .sigLast else s.pc
  let pc2 := if synced = 0 then wake pc1 .waitFin .sigFin else pc1
  { synced := synced
    last := last
    finishing := if synced = 0 then false else s.finishing
    data := s.data
    pc := upd pc2 t .idle
    rnd := upd s.rnd t (s.rnd t + 1)
    got := if (P.root (s.rnd t)).isSome then upd s.got t (upd (s.got t) (s.rnd t) (some (s.deref P)))
      else s.got }

/-- sync.h 148-154: the root waits until all other threads have left. -/
def SyncState.afterCond {α : Type} (P : SyncParams α) (t : Nat) (s : SyncState α) : SyncState α :=
  if P.isRoot s t ∧ s.last < s.synced then { s with pc := upd s.pc t .waitLast }
  else s.leave P t

/-- sync.h 225-226 and 129-146: enter the barrier. -/
def SyncState.arrive {α : Type} (P : SyncParams α) (t : Nat) (s : SyncState α) : SyncState α :=
  let s1 := { s with
    data := if P.isRoot s t then some (t, s.rnd t) else s.data
    synced := s.synced + 1
    last := if P.isRoot s t then s.last + 1 else s.last }
  if s1.synced = P.n then
    SyncState.afterCond P t { s1 with finishing := true, pc := wake s.pc .waitCond .sigCond }
  else { s1 with pc := upd s.pc t .waitCond }

/-- Atomic steps (from locking the mutex to releasing it). `spurious`: condition waits may return
without a broadcast. sync.h 107-234; lines at the steps. -/
inductive SyncStep {α : Type} (P : SyncParams α) (spurious : Bool) : SyncState α → SyncState α → Prop
  /-- `startBarrier`, sync.h 109-112, while the previous use is finishing -/
  | waitFinish (s : SyncState α) (t : Nat) : t < P.n → s.pc t = .idle → s.finishing = true →
      SyncStep P spurious s { s with pc := upd s.pc t .waitFin }
  /-- `startBarrier`, sync.h 109-116, otherwise; continues with the barrier -/
  | enter (s : SyncState α) (t : Nat) : t < P.n → s.pc t = .idle → s.finishing = false →
      SyncStep P spurious s (s.arrive P t)
  /-- return from the wait in sync.h 112 -/
  | resume (s : SyncState α) (t : Nat) : t < P.n → s.pc t = .sigFin →
      SyncStep P spurious s (s.arrive P t)
  /-- return from the wait in sync.h 142 -/
  | pass (s : SyncState α) (t : Nat) : t < P.n → s.pc t = .sigCond →
      SyncStep P spurious s (s.afterCond P t)
  /-- return from the wait in sync.h 150 -/
  | rootPass (s : SyncState α) (t : Nat) : t < P.n → s.pc t = .sigLast →
      SyncStep P spurious s (s.leave P t)
  | spuriousFin (s : SyncState α) (t : Nat) : spurious = true → t < P.n → s.pc t = .waitFin →
      SyncStep P spurious s { s with pc := upd s.pc t .sigFin }
  | spuriousCond (s : SyncState α) (t : Nat) : spurious = true → t < P.n → s.pc t = .waitCond →
      SyncStep P spurious s { s with pc := upd s.pc t .sigCond }
  | spuriousLast (s : SyncState α) (t : Nat) : spurious = true → t < P.n → s.pc t = .waitLast →
      SyncStep P spurious s { s with pc := upd s.pc t .sigLast }

/-- All states the threads can reach. From sync.h 82-92 by any steps. -/
def SyncReach {α : Type} (P : SyncParams α) (spurious : Bool) : SyncState α → Prop :=
  Reachable (fun s => s = SyncState.start) (SyncStep P spurious)

/-! ### threads/once.h -/

/-- Where a thread is in `Once::saveExec`. once.h 70-86; lines as indicated. -/
inductive OncePc where
  /-- not yet called, or about to read m_state in once.h 73 -/
  | start
  /-- before locking the mutex, once.h 77 -/
  | lock
  /-- mutex locked, before once.h 78 -/
  | check
  /-- executing the function, once.h 83 -/
  | exec
  /-- the function has returned, before once.h 85 -/
  | store
  /-- returned -/
  | done
deriving DecidableEq, Repr

/-- m_state, m_mutex, the threads, and how often the function was started and has completed. once.h 53-57. -/
structure OnceState where
  state : Bool
  mutex : Option Nat
  pc : Nat → OncePc
  started : Nat
  completed : Nat

/-- Constructor, once.h 60-62. -/
def OnceState.start : OnceState := ⟨false, none, fun _ => .start, 0, 0⟩

/-- Steps of `saveExec`, once.h 70-86, for any number of threads. Reads and writes of `m_state` are
atomic (see DESIGN.md). -/
inductive OnceStep : OnceState → OnceState → Prop
  /-- once.h 73-74 -/
  | fast (s : OnceState) (t : Nat) : s.pc t = .start → s.state = true →
      OnceStep s { s with pc := upd s.pc t .done }
  | slow (s : OnceState) (t : Nat) : s.pc t = .start → s.state = false →
      OnceStep s { s with pc := upd s.pc t .lock }
  /-- once.h 77 -/
  | lock (s : OnceState) (t : Nat) : s.pc t = .lock → s.mutex = none →
      OnceStep s { s with pc := upd s.pc t .check, mutex := some t }
  /-- once.h 78-79, the lock is released by the return -/
  | again (s : OnceState) (t : Nat) : s.pc t = .check → s.state = true →
      OnceStep s { s with pc := upd s.pc t .done, mutex := none }
  /-- once.h 83 -/
  | exec (s : OnceState) (t : Nat) : s.pc t = .check → s.state = false →
      OnceStep s { s with pc := upd s.pc t .exec, started := s.started + 1 }
  | return (s : OnceState) (t : Nat) : s.pc t = .exec →
      OnceStep s { s with pc := upd s.pc t .store, completed := s.completed + 1 }
  /-- once.h 85-86 -/
  | store (s : OnceState) (t : Nat) : s.pc t = .store →
      OnceStep s { s with pc := upd s.pc t .done, mutex := none, state := true }

/-- All states the threads can reach from once.h 60-62 by steps of once.h 70-86. -/
def OnceReach : OnceState → Prop := Reachable (fun s => s = OnceState.start) OnceStep

end Asagi
