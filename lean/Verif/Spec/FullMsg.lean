import Verif.Model.FullMsg
import Verif.Spec.FullConc
import Verif.Spec.Grid
/-
Specification vocabulary for distributed FULL grids with the implemented transfers.
-/
namespace Asagi.Spec
open Asagi
variable {α : Type}

/-- Thread `t` has sent a request for block `b` to process `r` and has not yet received the reply. -/
def AwaitsReply (c : LevelCfg α) (X : XferCfg α) (x : XferSt α) (r t b : Nat) : Prop :=
  X.home c b = r ∧ (∃ off s, x.st.pc (.user t) = .own b off s (.load 0)) ∧
    (x.call t = .waiting ∨ ∃ k, x.call t = .sending k)

/-- The values of `buf` are those of block `b` of the file. -/
def IsFileBlock (c : LevelCfg α) (val : List Nat → α) (b : Nat) (buf : List α) : Prop :=
  ∀ idx, InBox c.file.size idx → blockByCoords c.geom idx = b →
    buf[calcOffsetInBlock c.geom idx]? = some (val idx)

/-- From `x` to `x'` by any steps of any thread, while thread `t` stays inside of one call. -/
inductive XferDuring (c : LevelCfg α) (X : XferCfg α) (data : Nat → Mem α) (t : Nat) :
    XferSt α → XferSt α → Prop
  | refl (x) : XferDuring c X data t x x
  | tail {x x1 x2} : XferDuring c X data t x x1 → XferStep c X data true x1 x2 →
      x2.st.pc (.user t) ≠ .idle → XferDuring c X data t x x2

/-- A step without a new call of a getter. -/
def XferQuiet (c : LevelCfg α) (X : XferCfg α) (data : Nat → Mem α) (early : Bool) (x x' : XferSt α) :
    Prop :=
  XferStep c X data early x x' ∧ ∀ t, x.st.pc (.user t) = .idle → x'.st.pc (.user t) = .idle

/-- `n` steps without new calls. -/
inductive XferQuietRun (c : LevelCfg α) (X : XferCfg α) (data : Nat → Mem α) (early : Bool) :
    Nat → XferSt α → XferSt α → Prop
  | zero (x) : XferQuietRun c X data early 0 x x
  | succ {n x x1 x2} : XferQuietRun c X data early n x x1 → XferQuiet c X data early x1 x2 →
      XferQuietRun c X data early (n + 1) x x2

/-- Thread `t` calls a getter for `pos`, the block is not stored by its own domain; nothing else
happens. -/
def XferCalled (c : LevelCfg α) (X : XferCfg α) (t : Nat) (pos : List Dbl) (x x' : XferSt α) : Prop :=
  ∃ st', FullCalled c X.F t pos x.st st' ∧ x' = { x with st := st' }

end Asagi.Spec
