import Verif.Model.FullMsg
/-
`asagi_grid_close` of a distributed FULL grid: the barrier in the destructor of the grid,
grid/grid.cpp 177-191, the destructors of the level and of the transfer class, grid/level/fulldist.h
91-94, transfer/mpithreadfull.h 109-116, transfer/mpiwinfull.h 95-103, and the memory that is freed
after them, grid/level/full.h 77-81.

The container of the first NUMA domain is destroyed first (grid.cpp 185-187), and its destructors do
all of this; those of the other domains only free their cache.

Simplifications. One grid with one level. Taking the message of `unregisterReceiver` and removing the
receiver (mpi/commthread.h 253-254, 295-301) are one step, see `Verif.Model.CloseMsg`.
-/
namespace Asagi
variable {α : Type}

/-- `stage r`: how far `close` is in process `r`.
0: not called; 1: in the barrier, grid.cpp 180-181; 2: after the barrier (`delete m_type`, 183);
3: the cache is freed, fulldist.h 93; 4: the receiver is removed, mpithreadfull.h 112, or the window is
freed, mpiwinfull.h 101; 5: the memory of the blocks is freed, full.h 79-80. -/
structure CloseFullSt (α : Type) where
  x : XferSt α
  stage : Nat → Nat

/-- The grid is opened everywhere. fulldist.h 99-144. -/
def CloseFullSt.start (c : LevelCfg α) (X : XferCfg α) (l : CacheList) : CloseFullSt α :=
  { x := XferSt.start c X l, stage := fun _ => 0 }

/-- One step of the `procs` processes of the grid. fulldist.h 91-94, 150-199, grid.cpp 177-191; lines at the steps. -/
inductive CloseFullStep (c : LevelCfg α) (X : XferCfg α) (data : Nat → Mem α) (procs : Nat)
    (early : Bool) : CloseFullSt α → CloseFullSt α → Prop
  /-- any step of the getters and of the communication threads; the grid is not used in a process
  after `close` was called there, and a message reaches a receiver that is still there -/
  | use (s) (x' : XferSt α) : XferStep c X data early s.x x' →
      (∀ t, s.stage (X.rankT t) ≠ 0 → x'.st.pc (.user t) = s.x.st.pc (.user t)) →
      (∀ src r m rest, s.x.wire src r = m :: rest → x'.wire src r = rest →
        m.tag = X.tag ∧ s.stage r < 4) →
      CloseFullStep c X data procs early s { s with x := x' }
  /-- a message without receiver is ignored, commthread.h 304-306 -/
  | drop (s) (src r : Nat) (m : Msg) (rest : List Msg) : s.x.comm r = none →
      s.x.wire src r = m :: rest → ¬ (m.tag = X.tag ∧ s.stage r < 4) →
      CloseFullStep c X data procs early s { s with
        x := { s.x with wire := upd s.x.wire src (upd (s.x.wire src) r rest) } }
  /-- `close` is called, after all getters of the process have returned -/
  | call (s) (r : Nat) : r < procs → s.stage r = 0 →
      (∀ t, X.rankT t = r → s.x.st.pc (.user t) = .idle) →
      CloseFullStep c X data procs early s { s with stage := upd s.stage r 1 }
  /-- the barrier: all processes are here, grid.cpp 181 -/
  | pass (s) (r : Nat) : s.stage r = 1 → (∀ q, q < procs → 1 ≤ s.stage q) →
      CloseFullStep c X data procs early s { s with stage := upd s.stage r 2 }
  /-- fulldist.h 93 -/
  | freeCache (s) (r : Nat) : s.stage r = 2 →
      CloseFullStep c X data procs early s { s with stage := upd s.stage r 3 }
  /-- mpithreadfull.h 112 -/
  | unregister (s) (r : Nat) : X.win = false → s.stage r = 3 → s.x.comm r = none →
      CloseFullStep c X data procs early s { s with stage := upd s.stage r 4 }
  /-- `MPI_Win_free` is collective: all processes are here, mpiwinfull.h 101 -/
  | winFree (s) (r : Nat) : X.win = true → s.stage r = 3 → (∀ q, q < procs → 3 ≤ s.stage q) →
      CloseFullStep c X data procs early s { s with stage := upd s.stage r 4 }
  /-- full.h 79-80 -/
  | free (s) (r : Nat) : s.stage r = 4 →
      CloseFullStep c X data procs early s { s with stage := upd s.stage r 5 }

/-- Reachable states, if MPI may or may not buffer messages. From fulldist.h 99-144 by any steps. -/
def CloseFullReach (c : LevelCfg α) (X : XferCfg α) (data : Nat → Mem α) (procs : Nat) :
    CloseFullSt α → Prop :=
  Reachable (fun s => ∃ l, CacheList.init X.F.cacheSize X.F.handDiff = some l ∧
    s = CloseFullSt.start c X l) (CloseFullStep c X data procs true)

end Asagi
