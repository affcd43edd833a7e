import Verif.Model.ManySessions
import Verif.Props.Values
import Verif.Spec.WinCache
import Verif.Spec.FullMsg
/-
Specification vocabulary for several levels that are used at the same time.
-/
namespace Asagi.Spec
open Asagi Asagi.Props
variable {α : Type}

/-- What `open` was given for a level: rounding, cell centred data, axes and values of the variable. -/
structure OpenedFile (α : Type) where
  fp : Fp
  cc : Bool
  nc : List NcAxis
  val : List Nat → α

/-- Different ranks of a communicator are different processes. -/
def ProperRanks (R : Ranks) : Prop := ∀ P r, R.rank P = some r ↔ R.global r = P

/-- Level `L` is an opened level of one of the kinds, for the file `f`, in a program in which thread `t` belongs to
process `rank t`. -/
inductive ProperLevel : (rank : Nat → Nat) → (f : OpenedFile α) → LevelSys α → Prop
  /-- CACHE with MPI windows -/
  | cacheWindow {rank f} (c : LevelCfg α) (S : SharedCfg α) (C : WinParams α) : Opened f.fp f.cc f.nc f.val c →
      C.P = c.shared S → LegalWin C → (∀ t, C.P.rankT t = rank t) → ProperLevel rank f (C.sys c)
  /-- CACHE without communication between processes -/
  | cache {rank f} (c : LevelCfg α) (S : SharedCfg α) : Opened f.fp f.cc f.nc f.val c →
      Legal (c.shared S) → (c.shared S).mode = .none → (∀ t, (c.shared S).rankT t = rank t) →
      ProperLevel rank f ((c.shared S).sys c)
  /-- distributed FULL with MPI windows, or without MPI -/
  | full {rank f} (c : LevelCfg α) (X : XferCfg α) (s0 : FullDist α) (lib : Bool) : Opened f.fp f.cc f.nc f.val c →
      FullOpened c X.F s0 → X.win = true → (∀ t, X.rankT t = rank t) →
      ProperLevel rank f (X.sys c s0.data lib)
  /-- PASS_THROUGH in process `r`, used by the threads `team` that have been registered (C76) -/
  | passThrough {rank f} (c : LevelCfg α) (slot : Nat → Nat) (r : Nat) (team : Nat → Prop) (buf0 : Mem α) :
      Opened f.fp f.cc f.nc f.val c → (∀ t, team t → rank t = r) → (∀ t, team t → slot t < buf0.length) →
      (∀ t u, team t → team u → slot t = slot u → t = u) →
      ProperLevel rank f (passSys c slot team buf0)
  /-- opened by some of the processes, and used by their threads; `rank'` are the ranks of the communicator -/
  | some {rank f} (L : LevelSys α) (R : Ranks) (rank' : Nat → Nat) (team : Nat → Prop) :
      ProperLevel rank' f L → ProperRanks R →
      (∀ t, team t → R.global (rank' t) = rank t) → ProperLevel rank f (L.only team)

/-- Thread `t`, in a getter of a level, is inside of a library. netCDF: it reads a block or a value of the file. MPI, in
a build with THREADSAFE_MPI: it is in one of the functions of `MPIWinCache` or between `startTransfer` and `endTransfer`
(after it has entered the library), or it copies a block in `MPIWinFull::transfer`. -/
inductive InLibrary : LibLock → (L : LevelSys α) → L.S → Nat → Prop
  | readWindow (c : LevelCfg α) (C : WinParams α) (ws : WinState α) (t b off s k : Nat) :
      ws.st.pc (.user t) = .own b off s (.load k) → 0 < k → InLibrary .netcdf (C.sys c) ws t
  | read (c : LevelCfg α) (P : DistParams α) (st : DistState α) (t b off s k : Nat) :
      st.pc (.user t) = .own b off s (.load k) → 0 < k → InLibrary .netcdf (P.sys c) st t
  | readValue (c : LevelCfg α) (slot : Nat → Nat) (may : Nat → Prop) (buf0 : Mem α) (s : PassState α) (t : Nat)
      (pos : List Dbl) : s.pc t = .loading pos → InLibrary .netcdf (passSys c slot may buf0) s t
  | window (c : LevelCfg α) (C : WinParams α) (ws : WinState α) (t : Nat) : C.lib = true →
      ws.mtx.pc (C.thr t) ≠ .idle → (∀ l, ws.mtx.pc (C.thr t) ≠ .wantProc l) → InLibrary .mpi (C.sys c) ws t
  | transfer (c : LevelCfg α) (X : XferCfg α) (data : Nat → Mem α) (x : XferSt α) (t : Nat) : x.call t ≠ .out →
      InLibrary .mpi (X.sys c data true) x t
  /-- FULL with accesses that only read memory -/
  | withLocal (k : LibLock) (L : LevelSys α) (read : Nat → List Dbl → Option α) (s : L.S × (Nat → Option α)) (t : Nat) :
      InLibrary k L s.1 t → InLibrary k (L.withLocal read) s t
  /-- a level that is used by some threads -/
  | only (k : LibLock) (L : LevelSys α) (team : Nat → Prop) (s : L.S) (t : Nat) :
      InLibrary k L s t → InLibrary k (L.only team) s t

/-- From `s` to `s'` by any steps of any thread in any level, while thread `t` stays inside of its call of a getter of
level `i`. -/
inductive ManyDuring (G : Many α) (i t : Nat) : G.St → G.St → Prop
  | refl (s) : ManyDuring G i t s s
  | tail {s s1 s2} : ManyDuring G i t s s1 → ManyStep G s1 s2 → (G.L i).busy (s2 i) t →
      ManyDuring G i t s s2

/-- Thread `t` is inside of a getter. -/
def ManyBusy (G : Many α) (s : G.St) (t : Nat) : Prop := ∃ i, i < G.n ∧ (G.L i).busy (s i) t

/-- A step without a new call of a getter. -/
def ManyQuiet (G : Many α) (s s' : G.St) : Prop :=
  ManyStep G s s' ∧ ∀ t, ManyBusy G s' t → ManyBusy G s t

/-- `n` steps without new calls. -/
inductive ManyQuietRun (G : Many α) : Nat → G.St → G.St → Prop
  | zero (s) : ManyQuietRun G 0 s s
  | succ {n s s1 s2} : ManyQuietRun G n s s1 → ManyQuiet G s1 s2 → ManyQuietRun G (n + 1) s s2

end Asagi.Spec
