import Verif.Model.ManyComm
import Verif.Model.CloseMsg
import Verif.Model.CloseFull
/-
Several grids, some of them with the communication thread, that are used and closed at the same time:
`Verif.Model.ManyComm` with `asagi_grid_close`, grid/grid.cpp 177-191. A process that closes one grid goes on
to use the others, and its communication thread goes on to serve them: the thread removes the receivers of
the grid that is closed between two messages of any grid (mpi/commthread.h 286-312).

All grids are opened by all processes. The threads that call `close` are not threads that are inside of a getter at the
same time; they have no names here. That unregistering by several threads is done one after the other
(commthread.h 246-261) is in `Verif.Model.RecvTable`; here `unregister` is one step.
-/
namespace Asagi
variable {α : Type}

/-- A level that is used and closed, as the other levels and the communication threads see it.
grid.cpp 177-191, commthread.h 280-315 and the getters, fulldist.h 150-199, cachedist.h 135-214. -/
structure CloseSys (α : Type) extends CommSys α where
  /-- how far `close` is in a process: 0: not called, 1: in the barrier, grid.cpp 180-181, `closed`: done -/
  stage : S → Nat → Nat
  closed : Nat
  /-- in the next step `close` lets the communication thread remove a receiver, commthread.h 246-261 -/
  unreg : Nat → Bool

/-- CACHE with the communication thread, `Verif.Model.CloseMsg`. mpithreadcache.h 324-338. -/
def MsgParams.closeSys (c : LevelCfg α) (C : MsgParams α) (procs : Nat) : CloseSys α :=
  { S := CloseSt α
    start := fun s => ∃ l, CacheList.init C.P.size C.P.handDiff = some l ∧ s = CloseSt.start C l
    step := CloseMsgStep C procs true
    busy := fun s t => (C.commSys c).busy s.ms t
    uses := fun k s t => (C.commSys c).uses k s.ms t
    called := fun t pos s s' => (C.commSys c).called t pos s.ms s'.ms
    returns := fun t s v => (C.commSys c).returns t s.ms v
    sync := CloseMsgStep C procs false
    tags := (C.commSys c).tags
    inbox := fun s => (C.commSys c).inbox s.ms
    serving := fun s r => (C.commSys c).serving s.ms r
    refused := fun s s' => (C.commSys c).refused s.ms s'.ms
    stage := CloseSt.stage
    closed := 8
    unreg := fun k => decide (3 ≤ k ∧ k < 7) }

/-- Distributed FULL with the communication thread, `Verif.Model.CloseFull`. mpithreadfull.h 109-116. -/
def XferCfg.closeSys (c : LevelCfg α) (X : XferCfg α) (data : Nat → Mem α) (procs : Nat) : CloseSys α :=
  { S := CloseFullSt α
    start := fun s => ∃ l, CacheList.init X.F.cacheSize X.F.handDiff = some l ∧ s = CloseFullSt.start c X l
    step := CloseFullStep c X data procs true
    busy := fun s t => (X.commSys c data).busy s.x t
    uses := fun k s t => (X.commSys c data).uses k s.x t
    called := fun t pos s s' => (X.commSys c data).called t pos s.x s'.x
    returns := fun t s v => (X.commSys c data).returns t s.x v
    sync := CloseFullStep c X data procs false
    tags := (X.commSys c data).tags
    inbox := fun s => (X.commSys c data).inbox s.x
    serving := fun s r => (X.commSys c data).serving s.x r
    refused := fun s s' => (X.commSys c data).refused s.x s'.x
    stage := CloseFullSt.stage
    closed := 5
    unreg := fun k => decide (k = 3) }

/-- A level without communication thread, in `procs` processes, and how far `close` is in each.
grid.cpp 177-191; lines at the steps. -/
inductive LevelCloseStep (L : LevelSys α) (rank : Nat → Nat) (procs : Nat) :
    L.S × (Nat → Nat) → L.S × (Nat → Nat) → Prop
  /-- a thread calls a getter, or continues in it, in a process that has not called `close`. All steps of these
  levels are of such threads. -/
  | use (s x : L.S) (k : Nat → Nat) : L.step s x → (∃ t, k (rank t) = 0 ∧ (L.busy s t ∨ L.busy x t)) →
      (∀ t, k (rank t) ≠ 0 → ¬ L.busy x t) → LevelCloseStep L rank procs (s, k) (x, k)
  /-- `close` is called, after all getters of the process have returned -/
  | call (s : L.S) (k : Nat → Nat) (r : Nat) : r < procs → k r = 0 → (∀ t, rank t = r → ¬ L.busy s t) →
      LevelCloseStep L rank procs (s, k) (s, upd k r 1)
  /-- the barrier: all processes are here, grid.cpp 181 -/
  | pass (s : L.S) (k : Nat → Nat) (r : Nat) : k r = 1 → (∀ q, q < procs → 1 ≤ k q) →
      LevelCloseStep L rank procs (s, k) (s, upd k r 2)
  /-- the containers are destroyed, grid.cpp 183-190. The details, with MPI windows, are in `Verif.Model.CloseWin` and
  `Verif.Model.CloseFull`. -/
  | free (s : L.S) (k : Nat → Nat) (r : Nat) : k r = 2 → LevelCloseStep L rank procs (s, k) (s, upd k r 3)

/-- A level without communication thread. grid.cpp 177-191, and e.g. passthrough.h 105-122. -/
def LevelSys.closeSys (L : LevelSys α) (rank : Nat → Nat) (procs : Nat) : CloseSys α :=
  { S := L.S × (Nat → Nat)
    start := fun s => L.start s.1 ∧ s.2 = fun _ => 0
    step := LevelCloseStep L rank procs
    busy := fun s t => L.busy s.1 t
    uses := fun k s t => L.uses k s.1 t
    called := fun t pos s s' => L.called t pos s.1 s'.1
    returns := fun t s v => L.returns t s.1 v
    sync := LevelCloseStep L rank procs
    tags := fun _ => []
    inbox := fun _ _ _ => []
    serving := fun _ _ => False
    refused := fun _ _ => False
    stage := fun s => s.2
    closed := 3
    unreg := fun _ => false }

/-- `n` levels that are used and closed by `procs` processes; `rank t` is the process of thread `t`; `owner r tag`: the
level to which a tag belongs in process `r`, `m_receiver`, commthread.h 111; `closes i`: the program closes level `i`;
`before r j i`: process `r` calls `close` for level `i` after `close` of level `j` has returned. -/
structure ManyClose (α : Type) where
  n : Nat
  procs : Nat
  rank : Nat → Nat
  L : Nat → CloseSys α
  owner : Nat → Nat → Option Nat
  closes : Nat → Prop
  before : Nat → Nat → Nat → Prop

/-- The states of all levels, and the tags of the messages on their way, as in `ManyComm.St`. commthread.h 264-286. -/
structure ManyClose.St (G : ManyClose α) where
  lv : ∀ i, (G.L i).S
  net : Nat → Nat → List Nat

/-- A thread, a communication thread, or a process in `close`, takes a step in level `i`. As in `ManyCommStep`, a thread
is inside of one getter at a time, the locks of the libraries are shared, and a communication thread takes the oldest
message of a process when it has nothing else to do; also a receiver is removed only then, commthread.h 286-301.
A message for a level that has no receiver any more is dropped by the level, commthread.h 304-306.
grid.cpp 177-191, commthread.h 280-315, fulldist.h 150-199, cachedist.h 135-214. -/
inductive ManyCloseStep (G : ManyClose α) (early : Bool) : G.St → G.St → Prop
  | level (s : G.St) (i : Nat) (x : (G.L i).S) (net' : Nat → Nat → List Nat) : i < G.n →
      (G.L i).stepIf early (s.lv i) x →
      (∀ t, (G.L i).busy x t → ¬ (G.L i).busy (s.lv i) t → ∀ j, j < G.n → ¬ (G.L j).busy (s.lv j) t) →
      (∀ k t, (G.L i).uses k x t → ¬ (G.L i).uses k (s.lv i) t →
        ∀ j u, j < G.n → G.rank u = G.rank t → ¬ (G.L j).uses k (s.lv j) u) →
      (∀ q r, NetStep (G.owner r) i (∀ j, j < G.n → ¬ (G.L j).serving (s.lv j) r)
        ((G.L i).inbox (s.lv i) q r) ((G.L i).inbox x q r) (s.net q r) (net' q r)) →
      (∀ r, (G.L i).stage x r ≠ (G.L i).stage (s.lv i) r → G.closes i ∧
        (∀ j, G.before r j i → (G.L j).stage (s.lv j) r = (G.L j).closed) ∧
        ((G.L i).unreg ((G.L i).stage (s.lv i) r) = true → ∀ j, j < G.n → ¬ (G.L j).serving (s.lv j) r)) →
      ManyCloseStep G early s ⟨Function.update s.lv i x, net'⟩

/-- Reachable states. After all grids were opened (grid.cpp 214-249), by any steps. -/
def ManyCloseReach (G : ManyClose α) : G.St → Prop :=
  Reachable (fun s => (∀ i, (G.L i).start (s.lv i)) ∧ ∀ q r, s.net q r = []) (ManyCloseStep G true)

end Asagi
