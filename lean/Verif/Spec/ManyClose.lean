import Verif.Model.CloseSessions
import Verif.Spec.ManyComm
import Verif.Spec.CloseMsg
/-
Specification vocabulary for several grids that are used and closed at the same time.
-/
namespace Asagi.Spec
open Asagi Asagi.Props
variable {α : Type}

/-- Level `L` is an opened level of one of the kinds, for the file `f`, in a program of `procs` processes in which
thread `t` belongs to process `rank t`. -/
inductive ProperClose (rank : Nat → Nat) (procs : Nat) (f : OpenedFile α) : CloseSys α → Prop
  /-- without communication thread -/
  | other (L : LevelSys α) : ProperLevel rank f L → ProperClose rank procs f (L.closeSys rank procs)
  /-- distributed FULL with the communication thread -/
  | full (c : LevelCfg α) (X : XferCfg α) (s0 : FullDist α) : Opened f.fp f.cc f.nc f.val c →
      FullOpened c X.F s0 → X.win = false → (∀ t, X.rankT t = rank t) →
      ProperClose rank procs f (X.closeSys c s0.data procs)
  /-- CACHE with the communication thread -/
  | cache (c : LevelCfg α) (S : SharedCfg α) (C : MsgParams α) : Opened f.fp f.cc f.nc f.val c →
      C.P = c.shared S → LegalMsg C → (∀ t, C.P.rankT t = rank t) → ProperClose rank procs f (C.closeSys c procs)

/-- Opened levels; in each process each registered tag belongs to its level (C40). -/
structure ProperClosing (G : ManyClose α) (f : Nat → OpenedFile α) : Prop where
  level : ∀ i, i < G.n → ProperClose G.rank G.procs (f i) (G.L i)
  owner : ∀ i, i < G.n → ∀ r, ∀ tag ∈ (G.L i).tags r, G.owner r tag = some i
  ranks : ∀ t, G.rank t < G.procs

/-- The grids that one process closes before another grid have smaller numbers, in all processes: the processes can
close the grids in one order. -/
def OneOrder (G : ManyClose α) : Prop := ∀ r j i, G.before r j i → j < i ∧ G.closes j

/-- Thread `t` is inside of a getter. -/
def CloseBusy (G : ManyClose α) (s : G.St) (t : Nat) : Prop := ∃ i, i < G.n ∧ (G.L i).busy (s.lv i) t

/-- Process `r` has closed level `i`. -/
def ClosedBy (G : ManyClose α) (s : G.St) (i r : Nat) : Prop := (G.L i).stage (s.lv i) r = (G.L i).closed

/-- From `s` to `s'` by any steps in any level, while thread `t` stays inside of its call of a getter of level `i`. -/
inductive CloseDuring (G : ManyClose α) (i t : Nat) : G.St → G.St → Prop
  | refl (s) : CloseDuring G i t s s
  | tail {s s1 s2} : CloseDuring G i t s s1 → ManyCloseStep G true s1 s2 → (G.L i).busy (s2.lv i) t →
      CloseDuring G i t s s2

/-- A step without a new call of a getter. -/
def CloseQuiet (G : ManyClose α) (early : Bool) (s s' : G.St) : Prop :=
  ManyCloseStep G early s s' ∧ ∀ t, CloseBusy G s' t → CloseBusy G s t

/-- A request for a block of one of the levels is refused. -/
def CloseRefused (G : ManyClose α) (s s' : G.St) : Prop := ∃ i, i < G.n ∧ (G.L i).refused (s.lv i) (s'.lv i)

/-- `n` steps without new calls of getters, among them `k` refusals. -/
inductive CloseQuietRun (G : ManyClose α) (early : Bool) : (n k : Nat) → G.St → G.St → Prop
  | zero (s) : CloseQuietRun G early 0 0 s s
  | served {n k s s1 s2} : CloseQuietRun G early n k s s1 → CloseQuiet G early s1 s2 → ¬ CloseRefused G s1 s2 →
      CloseQuietRun G early (n + 1) k s s2
  | refused {n k s s1 s2} : CloseQuietRun G early n k s s1 → CloseQuiet G early s1 s2 → CloseRefused G s1 s2 →
      CloseQuietRun G early (n + 1) (k + 1) s s2

/-- Thread `t`, in a getter, is inside of a library (see `InLibrary`). -/
inductive CloseInLibrary : LibLock → (L : CloseSys α) → L.S → Nat → Prop
  | other (k : LibLock) (L : LevelSys α) (rank : Nat → Nat) (procs : Nat) (s : (L.closeSys rank procs).S) (t : Nat) :
      InLibrary k L s.1 t → CloseInLibrary k (L.closeSys rank procs) s t
  | read (c : LevelCfg α) (C : MsgParams α) (procs : Nat) (s : CloseSt α) (t b off sl k : Nat) :
      s.ms.st.pc (.user t) = .own b off sl (.load k) → 0 < k → CloseInLibrary .netcdf (C.closeSys c procs) s t
  | withLocal (k : LibLock) (L : CloseSys α) (rank : Nat → Nat) (read : Nat → List Dbl → Option α)
      (s : (L.withLocal rank read).S) (t : Nat) : CloseInLibrary k L s.1 t → CloseInLibrary k (L.withLocal rank read) s t
  | only (k : LibLock) (L : CloseSys α) (team : Nat → Prop) (s : L.S) (t : Nat) : CloseInLibrary k L s t →
      CloseInLibrary k (L.only team) s t
  | translate (k : LibLock) (L : CloseSys α) (R : Ranks) (s : L.S) (t : Nat) : CloseInLibrary k L s t →
      CloseInLibrary k (L.translate R) s t

/-- The communication thread of process `r` is in `recv` of this level. -/
inductive InCloseRecv : (L : CloseSys α) → L.S → Nat → Prop
  /-- it sends a block of a FULL grid -/
  | full (c : LevelCfg α) (X : XferCfg α) (data : Nat → Mem α) (procs : Nat) (s : CloseFullSt α) (r : Nat) :
      s.x.comm r ≠ none → InCloseRecv (X.closeSys c data procs) s r
  /-- it works on a request for a block of a CACHE grid, or it waits for the end of a send -/
  | cache (c : LevelCfg α) (C : MsgParams α) (procs : Nat) (s : CloseSt α) (r : Nat) :
      CommInside s.ms r → InCloseRecv (C.closeSys c procs) s r
  | withLocal (L : CloseSys α) (rank : Nat → Nat) (read : Nat → List Dbl → Option α) (s : (L.withLocal rank read).S)
      (r : Nat) : InCloseRecv L s.1 r → InCloseRecv (L.withLocal rank read) s r
  | only (L : CloseSys α) (team : Nat → Prop) (s : L.S) (r : Nat) : InCloseRecv L s r → InCloseRecv (L.only team) s r
  /-- process `P` has rank `r` in the communicator of the grid -/
  | translate (L : CloseSys α) (R : Ranks) (s : L.S) (r P : Nat) : R.rank P = some r → InCloseRecv L s r →
      InCloseRecv (L.translate R) s P

/-- `l` are the tags of the messages of this level that process `q` has sent to the communication thread of process
`r`, which has not yet received them. -/
inductive OnTheWayTo : (L : CloseSys α) → L.S → (q r : Nat) → (l : List Nat) → Prop
  | full (c : LevelCfg α) (X : XferCfg α) (data : Nat → Mem α) (procs : Nat) (s : CloseFullSt α) (q r : Nat) :
      OnTheWayTo (X.closeSys c data procs) s q r ((s.x.wire q r).map Msg.tag)
  | cache (c : LevelCfg α) (C : MsgParams α) (procs : Nat) (s : CloseSt α) (q r : Nat) :
      OnTheWayTo (C.closeSys c procs) s q r ((s.ms.wire q r).map Msg.tag)
  | other (L : LevelSys α) (rank : Nat → Nat) (procs : Nat) (s : (L.closeSys rank procs).S) (q r : Nat) :
      OnTheWayTo (L.closeSys rank procs) s q r []
  | withLocal (L : CloseSys α) (rank : Nat → Nat) (read : Nat → List Dbl → Option α) (s : (L.withLocal rank read).S)
      (q r : Nat) (l : List Nat) : OnTheWayTo L s.1 q r l → OnTheWayTo (L.withLocal rank read) s q r l
  | only (L : CloseSys α) (team : Nat → Prop) (s : L.S) (q r : Nat) (l : List Nat) : OnTheWayTo L s q r l →
      OnTheWayTo (L.only team) s q r l
  /-- processes `Q` and `P` have ranks `q` and `r` in the communicator of the grid -/
  | translate (L : CloseSys α) (R : Ranks) (s : L.S) (q r Q P : Nat) (l : List Nat) : R.rank Q = some q →
      R.rank P = some r → OnTheWayTo L s q r l → OnTheWayTo (L.translate R) s Q P l
  /-- one of the processes is not in the communicator -/
  | outside (L : CloseSys α) (R : Ranks) (s : L.S) (Q P : Nat) : R.rank Q = none ∨ R.rank P = none →
      OnTheWayTo (L.translate R) s Q P []

end Asagi.Spec
