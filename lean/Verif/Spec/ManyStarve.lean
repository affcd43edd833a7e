import Verif.Spec.ManyLevels
import Verif.Spec.Starvation
/-
Executions of several levels with any number of calls of getters, see `Verif.Spec.Starvation`.
-/
namespace Asagi.Spec
open Asagi Asagi.Props
variable {α : Type}

/-- The position of a thread in the code of a level. -/
structure LevelPos (L : LevelSys α) where
  Pos : Type
  pos : L.S → Nat → Pos

/-- A step in which thread `t` changes its position in some level. -/
def ManyMoves (G : Many α) (p : ∀ i, LevelPos (G.L i)) (t : Nat) (s s' : G.St) : Prop :=
  ManyStep G s s' ∧ ∃ i, i < G.n ∧ (p i).pos (s' i) t ≠ (p i).pos (s i) t

/-- Level `L` is an opened level for the file `f` as in `ProperLevel`, and `p` are the positions of the
threads in its getters: in the functions of the caches (`Pc`), of the lock of the directory (`MtxPc`), of
the transfer of FULL grids (`XferPc`) and of PASS_THROUGH grids (`PassPc`). -/
inductive LiveLevel : (rank : Nat → Nat) → (f : OpenedFile α) → (L : LevelSys α) → LevelPos L → Prop
  /-- CACHE with MPI windows -/
  | cacheWindow {rank f} (c : LevelCfg α) (S : SharedCfg α) (C : WinParams α) : Opened f.fp f.cc f.nc f.val c →
      C.P = c.shared S → LegalWin C → (∀ t, C.P.rankT t = rank t) →
      LiveLevel rank f (C.sys c) ⟨Pc α × MtxPc, fun ws t => (ws.st.pc (.user t), ws.mtx.pc (C.thr t))⟩
  /-- CACHE without communication between processes -/
  | cache {rank f} (c : LevelCfg α) (S : SharedCfg α) : Opened f.fp f.cc f.nc f.val c →
      Legal (c.shared S) → (c.shared S).mode = .none → (∀ t, (c.shared S).rankT t = rank t) →
      LiveLevel rank f ((c.shared S).sys c) ⟨Pc α, fun st t => st.pc (.user t)⟩
  /-- distributed FULL with MPI windows, or without MPI -/
  | full {rank f} (c : LevelCfg α) (X : XferCfg α) (s0 : FullDist α) (lib : Bool) : Opened f.fp f.cc f.nc f.val c →
      FullOpened c X.F s0 → X.win = true → (∀ t, X.rankT t = rank t) →
      LiveLevel rank f (X.sys c s0.data lib) ⟨Pc α × XferPc α, fun x t => (x.st.pc (.user t), x.call t)⟩
  /-- PASS_THROUGH in process `r`, used by the threads `team` that have been registered (C76) -/
  | passThrough {rank f} (c : LevelCfg α) (slot : Nat → Nat) (r : Nat) (team : Nat → Prop) (buf0 : Mem α) :
      Opened f.fp f.cc f.nc f.val c → (∀ t, team t → rank t = r) → (∀ t, team t → slot t < buf0.length) →
      (∀ t u, team t → team u → slot t = slot u → t = u) →
      LiveLevel rank f (passSys c slot team buf0) ⟨PassPc α, fun s t => s.pc t⟩
  /-- opened by some of the processes, and used by their threads; `rank'` are the ranks of the communicator -/
  | some {rank f} (L : LevelSys α) (p : LevelPos L) (R : Ranks) (rank' : Nat → Nat) (team : Nat → Prop) :
      LiveLevel rank' f L p → ProperRanks R →
      (∀ t, team t → R.global (rank' t) = rank t) → LiveLevel rank f (L.only team) ⟨p.Pos, fun s t => p.pos s t⟩

end Asagi.Spec
