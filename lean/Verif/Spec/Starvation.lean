import Verif.Spec.SharedLib
import Verif.Spec.FullConc
import Verif.Model.PassConc
import Verif.Spec.WinCache
import Verif.Spec.FullMsg
/-
Executions with any number of calls of getters, and what is assumed about the scheduler and the
locks of the operating system and of MPI in them.
-/
namespace Asagi.Spec
open Asagi
variable {α β S A : Type}

/-- An infinite execution of a system with the steps `step`: in every step some thread does something,
in particular it may call a getter, or nothing happens. -/
def CourseOf (step : S → S → Prop) (σ : Nat → S) : Prop :=
  ∀ n, step (σ n) (σ (n + 1)) ∨ σ (n + 1) = σ n

/-- No thread is stopped for ever inside of a getter, and a lock that is free again and again is
finally granted to a thread that waits for it: at any time, a thread is later outside of the getters
(`out`) or makes a step (`moves`), or there is a time from which on it can never continue. -/
def FairLocksOf (moves : A → S → S → Prop) (out : A → S → Prop) (σ : Nat → S) : Prop :=
  ∀ t n, ∃ m, n ≤ m ∧ (out t (σ m) ∨ moves t (σ m) (σ (m + 1)) ∨
    ∀ k, m ≤ k → ∀ s', ¬ moves t (σ k) s')

/-- The weaker assumption that no thread is stopped for ever inside of a getter while it can continue all
the time. It says nothing about a lock that is taken and released again and again. -/
def FairStepsOf (moves : A → S → S → Prop) (out : A → S → Prop) (σ : Nat → S) : Prop :=
  ∀ t n, ∃ m, n ≤ m ∧ (out t (σ m) ∨ moves t (σ m) (σ (m + 1)) ∨ ∀ s', ¬ moves t (σ m) s')

/-- CACHE grids. -/
def Course (P : DistParams β) : (Nat → DistState β) → Prop := CourseOf (DistStep P)

def FairLocks (P : DistParams β) : (Nat → DistState β) → Prop :=
  FairLocksOf (UserStep P) (fun t st => st.pc (.user t) = .idle)

/-- CACHE grids in builds with THREADSAFE_MPI: a step in which thread `t` changes its position or gets
the lock of the library. -/
def LibMoves (P : DistParams β) (t : Nat) (ls ls' : LibState β) : Prop :=
  LibStep P ls ls' ∧ (ls'.st.pc (.user t) ≠ ls.st.pc (.user t) ∨
    (ls'.mp (P.rankT t) = some t ∧ ls.mp (P.rankT t) ≠ some t))

/-- Distributed FULL grids: a step in which thread `t` changes its position. -/
def FullMoves (c : LevelCfg α) (F : FullCfg α) (data : Nat → Mem α) (t : Nat) (st st' : DistState α) :
    Prop :=
  FullStep c F data st st' ∧ st'.pc (.user t) ≠ st.pc (.user t)

/-- PASS_THROUGH grids: a step in which thread `t` changes its position. -/
def PassMoves (c : LevelCfg α) (slot : Nat → Nat) (may : Nat → Prop) (t : Nat) (s s' : PassState α) :
    Prop :=
  PassStep c slot may s s' ∧ s'.pc t ≠ s.pc t

/-- The distributed lock: a step in which thread `t` changes its position. -/
def MtxMoves (P : MtxParams) (t : Thr) (s s' : MtxState) : Prop :=
  MtxStep P false s s' ∧ s'.pc t ≠ s.pc t

/-- CACHE grids with MPI windows and the lock of the directory as it is implemented: a step in which
thread `t` changes its position in the getter or in the functions of the lock. -/
def WinMoves (C : WinParams β) (t : Nat) (ws ws' : WinState β) : Prop :=
  WinStep C ws ws' ∧ (ws'.st.pc (.user t) ≠ ws.st.pc (.user t) ∨
    ws'.mtx.pc (C.thr t) ≠ ws.mtx.pc (C.thr t))

/-- What has to be done in distributed FULL grids with the implemented transfers: the getter of a thread,
the receipt of the requests from process `src` at process `r`, and the end of `MPI_Send` of a reply. -/
inductive XferAgent where
  | user (t : Nat)
  | request (src r : Nat)
  | reply (r : Nat)

/-- A step in which thread `t` changes its position in the getter or in the transfer, the communication
thread of `r` receives a request of `src`, or its send of a reply ends. -/
def XferMoves (c : LevelCfg α) (X : XferCfg α) (data : Nat → Mem α) (early : Bool) (a : XferAgent)
    (x x' : XferSt α) : Prop :=
  XferStep c X data early x x' ∧ match a with
    | .user t => x'.st.pc (.user t) ≠ x.st.pc (.user t) ∨ x'.call t ≠ x.call t
    | .request src r => (x'.wire src r).length < (x.wire src r).length
    | .reply r => x.comm r ≠ none ∧ x'.comm r = none

/-- There is nothing to do. -/
def XferOut (a : XferAgent) (x : XferSt α) : Prop :=
  match a with
  | .user t => x.st.pc (.user t) = .idle
  | .request src r => x.wire src r = []
  | .reply r => x.comm r = none

end Asagi.Spec
