import Verif.Model.CommSessions
import Verif.Spec.ManyLevels
import Verif.Spec.MsgCache
/-
Specification vocabulary for several grids that use the same communication threads.
-/
namespace Asagi.Spec
open Asagi Asagi.Props
variable {α : Type}

/-- Level `L` is an opened level of one of the kinds, for the file `f`, in a program in which thread `t` belongs to
process `rank t`. -/
inductive ProperComm : (rank : Nat → Nat) → (f : OpenedFile α) → CommSys α → Prop
  /-- without communication thread -/
  | other {rank f} (L : LevelSys α) : ProperLevel rank f L → ProperComm rank f L.noComm
  /-- distributed FULL with the communication thread -/
  | full {rank f} (c : LevelCfg α) (X : XferCfg α) (s0 : FullDist α) : Opened f.fp f.cc f.nc f.val c →
      FullOpened c X.F s0 → X.win = false → (∀ t, X.rankT t = rank t) →
      ProperComm rank f (X.commSys c s0.data)
  /-- CACHE with the communication thread -/
  | cache {rank f} (c : LevelCfg α) (S : SharedCfg α) (C : MsgParams α) : Opened f.fp f.cc f.nc f.val c →
      C.P = c.shared S → LegalMsg C → (∀ t, C.P.rankT t = rank t) → ProperComm rank f (C.commSys c)
  /-- opened by some of the processes, and used by their threads -/
  | some {rank f} (L : CommSys α) (R : Ranks) (rank' : Nat → Nat) (team : Nat → Prop) :
      ProperComm rank' f L → ProperRanks R →
      (∀ t, team t → R.global (rank' t) = rank t) → ProperComm rank f ((L.translate R).only team)

/-- Opened levels; in each process each registered tag belongs to its level (C40). -/
structure ProperGrids (G : ManyComm α) (f : Nat → OpenedFile α) : Prop where
  level : ∀ i, i < G.n → ProperComm G.rank (f i) (G.L i)
  owner : ∀ i, i < G.n → ∀ r, ∀ tag ∈ (G.L i).tags r, G.owner r tag = some i

/-- Thread `t`, in a getter, is inside of a library (see `InLibrary`). -/
inductive CommInLibrary : LibLock → (L : CommSys α) → L.S → Nat → Prop
  | other (k : LibLock) (L : LevelSys α) (s : L.S) (t : Nat) : InLibrary k L s t → CommInLibrary k L.noComm s t
  | read (c : LevelCfg α) (C : MsgParams α) (ms : MsgSt α) (t b off s k : Nat) :
      ms.st.pc (.user t) = .own b off s (.load k) → 0 < k → CommInLibrary .netcdf (C.commSys c) ms t
  | withLocal (k : LibLock) (L : CommSys α) (read : Nat → List Dbl → Option α) (s : (L.withLocal read).S) (t : Nat) :
      CommInLibrary k L s.1 t → CommInLibrary k (L.withLocal read) s t
  | only (k : LibLock) (L : CommSys α) (team : Nat → Prop) (s : L.S) (t : Nat) : CommInLibrary k L s t →
      CommInLibrary k (L.only team) s t
  | translate (k : LibLock) (L : CommSys α) (R : Ranks) (s : L.S) (t : Nat) : CommInLibrary k L s t →
      CommInLibrary k (L.translate R) s t

/-- The communication thread of process `r` is in `recv` of this level. -/
inductive InRecv : (L : CommSys α) → L.S → Nat → Prop
  /-- it sends a block of a FULL grid -/
  | full (c : LevelCfg α) (X : XferCfg α) (data : Nat → Mem α) (x : XferSt α) (r : Nat) : x.comm r ≠ none →
      InRecv (X.commSys c data) x r
  /-- it works on a request for a block of a CACHE grid, or it waits for the end of a send -/
  | cache (c : LevelCfg α) (C : MsgParams α) (ms : MsgSt α) (r : Nat) : ms.st.pc (.comm r) ≠ .idle ∨ ms.wait r ≠ none →
      InRecv (C.commSys c) ms r
  | withLocal (L : CommSys α) (read : Nat → List Dbl → Option α) (s : (L.withLocal read).S) (r : Nat) :
      InRecv L s.1 r → InRecv (L.withLocal read) s r
  | only (L : CommSys α) (team : Nat → Prop) (s : L.S) (r : Nat) : InRecv L s r → InRecv (L.only team) s r
  /-- process `P` has rank `r` in the communicator of the grid -/
  | translate (L : CommSys α) (R : Ranks) (s : L.S) (r P : Nat) : R.rank P = some r → InRecv L s r →
      InRecv (L.translate R) s P

/-- A step of a level while MPI does not buffer messages: each send waits for its receiver. -/
inductive UnbufferedStep : (L : CommSys α) → L.S → L.S → Prop
  | full (c : LevelCfg α) (X : XferCfg α) (data : Nat → Mem α) (x x' : XferSt α) : XferStep c X data false x x' →
      UnbufferedStep (X.commSys c data) x x'
  | cache (c : LevelCfg α) (C : MsgParams α) (ms ms' : MsgSt α) : MsgCacheStep C false ms ms' →
      UnbufferedStep (C.commSys c) ms ms'
  | other (L : LevelSys α) (s s' : L.S) : L.step s s' → UnbufferedStep L.noComm s s'
  | withLocal (L : CommSys α) (read : Nat → List Dbl → Option α) (s s' : (L.withLocal read).S) :
      UnbufferedStep L s.1 s'.1 → s'.2 = s.2 → UnbufferedStep (L.withLocal read) s s'
  /-- a thread reads the memory of its process -/
  | direct (L : CommSys α) (read : Nat → List Dbl → Option α) (s s' : (L.withLocal read).S) : s'.1 = s.1 →
      UnbufferedStep (L.withLocal read) s s'
  | only (L : CommSys α) (team : Nat → Prop) (s s' : L.S) : UnbufferedStep L s s' → UnbufferedStep (L.only team) s s'
  | translate (L : CommSys α) (R : Ranks) (s s' : L.S) : UnbufferedStep L s s' → UnbufferedStep (L.translate R) s s'

/-- `l` are the tags of the messages of this level that process `q` has sent to the communication thread of process
`r`, which has not yet received them. -/
inductive OnTheWay : (L : CommSys α) → L.S → (q r : Nat) → (l : List Nat) → Prop
  | full (c : LevelCfg α) (X : XferCfg α) (data : Nat → Mem α) (x : XferSt α) (q r : Nat) :
      OnTheWay (X.commSys c data) x q r ((x.wire q r).map Msg.tag)
  | cache (c : LevelCfg α) (C : MsgParams α) (ms : MsgSt α) (q r : Nat) :
      OnTheWay (C.commSys c) ms q r ((ms.wire q r).map Msg.tag)
  | other (L : LevelSys α) (s : L.S) (q r : Nat) : OnTheWay L.noComm s q r []
  | withLocal (L : CommSys α) (read : Nat → List Dbl → Option α) (s : (L.withLocal read).S) (q r : Nat) (l : List Nat) :
      OnTheWay L s.1 q r l → OnTheWay (L.withLocal read) s q r l
  | only (L : CommSys α) (team : Nat → Prop) (s : L.S) (q r : Nat) (l : List Nat) : OnTheWay L s q r l →
      OnTheWay (L.only team) s q r l
  | translate (L : CommSys α) (R : Ranks) (s : L.S) (q r Q P : Nat) (l : List Nat) : R.rank Q = some q →
      R.rank P = some r → OnTheWay L s q r l → OnTheWay (L.translate R) s Q P l
  /-- processes that have not opened the grid send and get no messages of it -/
  | outside (L : CommSys α) (R : Ranks) (s : L.S) (Q P : Nat) : R.rank Q = none ∨ R.rank P = none →
      OnTheWay (L.translate R) s Q P []

/-- Thread `t` is inside of a getter. -/
def CommBusy (G : ManyComm α) (s : G.St) (t : Nat) : Prop := ∃ i, i < G.n ∧ (G.L i).busy (s.lv i) t

/-- From `s` to `s'` by any steps of any thread and communication thread in any level, while thread `t` stays inside of
its call of a getter of level `i`. -/
inductive CommDuring (G : ManyComm α) (i t : Nat) : G.St → G.St → Prop
  | refl (s) : CommDuring G i t s s
  | tail {s s1 s2} : CommDuring G i t s s1 → ManyCommStep G true s1 s2 → (G.L i).busy (s2.lv i) t →
      CommDuring G i t s s2

/-- A step without a new call of a getter. -/
def CommQuiet (G : ManyComm α) (early : Bool) (s s' : G.St) : Prop :=
  ManyCommStep G early s s' ∧ ∀ t, CommBusy G s' t → CommBusy G s t

/-- A request for a block of one of the levels is refused. -/
def CommRefused (G : ManyComm α) (s s' : G.St) : Prop := ∃ i, i < G.n ∧ (G.L i).refused (s.lv i) (s'.lv i)

/-- `n` steps without new calls, among them `k` refusals. -/
inductive CommQuietRun (G : ManyComm α) (early : Bool) : (n k : Nat) → G.St → G.St → Prop
  | zero (s) : CommQuietRun G early 0 0 s s
  | served {n k s s1 s2} : CommQuietRun G early n k s s1 → CommQuiet G early s1 s2 → ¬ CommRefused G s1 s2 →
      CommQuietRun G early (n + 1) k s s2
  | refused {n k s s1 s2} : CommQuietRun G early n k s s1 → CommQuiet G early s1 s2 → CommRefused G s1 s2 →
      CommQuietRun G early (n + 1) (k + 1) s s2

end Asagi.Spec
