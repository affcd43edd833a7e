import Verif.Model.WinCache
/-
`asagi_grid_close` of a cached grid with MPI windows: the barrier in the destructor of the grid,
grid/grid.cpp 177-191, the destructor of the transfer class, transfer/mpiwincache.h 120-134, and what
is freed after it: the directory (transfer/mpicache.h 83-87) and the caches (grid/level/cache.h 78-82).

The container of the first NUMA domain is destroyed first (grid.cpp 184-187), and its destructors do
all of this; those of the other domains free less.

Simplifications. One grid with one level. `MPI_Win_free` returns in a process only after all processes
have called it, as the standard demands.
-/
namespace Asagi
variable {β : Type}

/-- `stage r`: how far `close` is in process `r`.
0: not called; 1: in the barrier, grid.cpp 180-181; 2: after the barrier (`delete m_type`, 183);
3: the mutexes are deleted and the process is in `MPI_Win_free` of the directory, mpiwincache.h 124-129;
4: the window of the directory is freed, in `MPI_Win_free` of the cache, 131; 5: this window is freed,
too; 6: directory and cache are freed, mpicache.h 85-86, cache.h 80-81. -/
structure CloseWinSt (β : Type) where
  ws : WinState β
  stage : Nat → Nat

/-- The grid is opened everywhere. cachedist.h 96-129, mpiwincache.h 148-228. -/
def CloseWinSt.start (C : WinParams β) (c : CacheList) : CloseWinSt β :=
  { ws := WinState.start C c, stage := fun _ => 0 }

/-- One step of the `procs` processes of the grid.
cachedist.h 135-214, grid.cpp 177-191, mpiwincache.h 120-134; lines at the steps. -/
inductive CloseWinStep (C : WinParams β) (procs : Nat) : CloseWinSt β → CloseWinSt β → Prop
  /-- any step of the getters; the grid is not used in a process after `close` was called there -/
  | use (s) (ws' : WinState β) : WinStep C s.ws ws' →
      (∀ t, s.stage (C.P.rankT t) ≠ 0 → ws'.st.pc (.user t) = s.ws.st.pc (.user t)) →
      CloseWinStep C procs s { s with ws := ws' }
  /-- `close` is called, after all getters of the process have returned -/
  | call (s) (r : Nat) : r < procs → s.stage r = 0 →
      (∀ t, C.P.rankT t = r → s.ws.st.pc (.user t) = .idle) →
      CloseWinStep C procs s { s with stage := upd s.stage r 1 }
  /-- the barrier: all processes are here, grid.cpp 181 -/
  | pass (s) (r : Nat) : s.stage r = 1 → (∀ q, q < procs → 1 ≤ s.stage q) →
      CloseWinStep C procs s { s with stage := upd s.stage r 2 }
  /-- mpiwincache.h 124-126 -/
  | mutexes (s) (r : Nat) : s.stage r = 2 →
      CloseWinStep C procs s { s with stage := upd s.stage r 3 }
  /-- `MPI_Win_free` is collective: all processes are here, mpiwincache.h 129 -/
  | dictWin (s) (r : Nat) : s.stage r = 3 → (∀ q, q < procs → 3 ≤ s.stage q) →
      CloseWinStep C procs s { s with stage := upd s.stage r 4 }
  /-- 131 -/
  | cacheWin (s) (r : Nat) : s.stage r = 4 → (∀ q, q < procs → 4 ≤ s.stage q) →
      CloseWinStep C procs s { s with stage := upd s.stage r 5 }
  /-- mpicache.h 85-86, cache.h 80-81 -/
  | free (s) (r : Nat) : s.stage r = 5 →
      CloseWinStep C procs s { s with stage := upd s.stage r 6 }

/-- Reachable states. From cachedist.h 96-129 by any steps. -/
def CloseWinReach (C : WinParams β) (procs : Nat) : CloseWinSt β → Prop :=
  Reachable (fun s => ∃ c, CacheList.init C.P.size C.P.handDiff = some c ∧ s = CloseWinSt.start C c)
    (CloseWinStep C procs)

end Asagi
