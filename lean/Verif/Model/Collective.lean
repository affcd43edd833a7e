import Verif.Model.Trans
/-
Calls that all processes of a grid have to make: opening grids that register at the communication
thread (mpi/commthread.h 220-241, with m_lock held during the reduction) and closing grids (the barrier
in grid.cpp 179-181). Requests during the closing of a grid.
-/
namespace Asagi

/-! ### Orders of collective calls -/

/-- `threads` threads in total. `rank t` is the process of a thread, `members c` the threads that make
the collective call `c`; `locked c`: the call holds m_lock of its process until it returns
(`registerReceiver`, commthread.h 223-230), otherwise it is a barrier (grid.cpp 181). -/
structure CollParams where
  threads : Nat
  rank : Nat → Nat
  members : Nat → List Nat
  locked : Nat → Bool

/-- `prog t`: the collective calls that thread `t` still has to complete, in its order; `inside t`:
it is inside the first of them; `lock r`: the thread that holds m_lock of process `r`.
commthread.h 223-241, grid.cpp 181. -/
structure CollState where
  prog : Nat → List Nat
  inside : Nat → Bool
  lock : Nat → Option Nat

/-- Steps of the collective calls: commthread.h 220-241, grid.cpp 177-181. -/
inductive CollStep (P : CollParams) : CollState → CollState → Prop
  /-- A thread calls `registerReceiver`, commthread.h 223: it gets m_lock and enters MPI_Allreduce. -/
  | enterLocked {s : CollState} (t c : Nat) (rest : List Nat) : t < P.threads →
      s.prog t = c :: rest → s.inside t = false → P.locked c = true → s.lock (P.rank t) = none →
      CollStep P s { s with inside := upd s.inside t true
                            lock := upd s.lock (P.rank t) (some t) }
  /-- A thread enters MPI_Barrier, grid.cpp 181. -/
  | enter {s : CollState} (t c : Nat) (rest : List Nat) : t < P.threads →
      s.prog t = c :: rest → s.inside t = false → P.locked c = false →
      CollStep P s { s with inside := upd s.inside t true }
  /-- All members are inside: the collective operation completes, m_lock is released (commthread.h 241).
  Simplification: they return at the same time. -/
  | complete {s : CollState} (c : Nat) : P.members c ≠ [] →
      (∀ t ∈ P.members c, s.inside t = true ∧ ∃ rest, s.prog t = c :: rest) →
      CollStep P s {
        prog := fun t => if t ∈ P.members c then (s.prog t).tail else s.prog t
        inside := fun t => if t ∈ P.members c then false else s.inside t
        lock := fun r => match s.lock r with
          | some t => if t ∈ P.members c then none else some t
          | none => none }

/-- Before the first call: the programs of the threads.
No thread is inside of commthread.h 220-241 or grid.cpp 181. -/
def CollState.init (prog : Nat → List Nat) (s : CollState) : Prop :=
  s = ⟨prog, fun _ => false, fun _ => none⟩

/-! ### Closing a grid while other processes still use it -/

/-- `closing p`: process `p` has called `close` (it waits in the barrier, grid.cpp 181); `closed p`: it
has left the barrier and removed its receivers (mpithreadfull.h 109-116). `pend`: requests on their way
or being answered, as (process, thread, asked process). `lost`: requests without receiver
(commthread.h 306), whose senders wait forever. -/
structure CloseState where
  closing : Nat → Bool
  closed : Nat → Bool
  pend : List (Nat × Nat × Nat)
  answered : List (Nat × Nat × Nat)
  lost : List (Nat × Nat × Nat)

/-- All grids are open (after grid.cpp 214-249) and nothing was requested. -/
def CloseState.init (s : CloseState) : Prop :=
  s = ⟨fun _ => false, fun _ => false, [], [], []⟩

/-- Steps of requests and of closing: grid.cpp 177-191, mpithreadfull.h 109-191, commthread.h 282-312. -/
inductive CloseStep (n : Nat) : CloseState → CloseState → Prop
  /-- A thread of process `p` needs a block from process `q` (mpithreadfull.h 169-180,
  mpithreadcache.h 211-251). It makes one request at a time. -/
  | request {s : CloseState} (p t q : Nat) : p < n → q < n → s.closing p = false →
      (∀ q', (p, t, q') ∉ s.pend) →
      CloseStep n s { s with pend := (p, t, q) :: s.pend }
  /-- The communication thread of `q` receives the request. -/
  | handle {s : CloseState} (a b : List (Nat × Nat × Nat)) (p t q : Nat) :
      s.pend = a ++ (p, t, q) :: b →
      CloseStep n s { s with
        pend := a ++ b
        answered := if s.closed q then s.answered else (p, t, q) :: s.answered
        lost := if s.closed q then (p, t, q) :: s.lost else s.lost }
  /-- `close`: after the getters of this process have returned. -/
  | callClose {s : CloseState} (p : Nat) : p < n → s.closing p = false →
      (∀ t q, (p, t, q) ∉ s.pend) →
      CloseStep n s { s with closing := upd s.closing p true }
  /-- The barrier of grid.cpp 181 lets the process through; the receivers are removed. -/
  | leave {s : CloseState} (p : Nat) : p < n → s.closing p = true → s.closed p = false →
      (∀ q, q < n → s.closing q = true) →
      CloseStep n s { s with closed := upd s.closed p true }

end Asagi
