import Verif.Model.Fortran
/-
Specification for C72: the same program in C++. Grids are numbered in the order of their creation; a
variable that holds the pointer to grid `k` is written as `k`. The default arguments are those of
include/asagi.h: type FLOAT, level 0. A Fortran string stands for its text without the trailing blanks.
-/
namespace Asagi.Spec
open Asagi

/-- The C++ program. -/
inductive CxxCall (P : Type) where
  | create (kind : GridKind)
  | call (grid : Nat) (c : GridCall P)
  | close (grid : Nat)

/-- The C++ semantics: the state of each grid, `none` after it has been closed. Using a grid that does not
exist is undefined. -/
def cxxStep {σ P V : Type} (L : GridClass σ P V) (gs : List (Option σ)) :
    CxxCall P → Option (List (Option σ) × FortranRet V)
  | .create k => some (gs ++ [some (L.create k)], .handle gs.length)
  | .call g c => do
    let x ← (← gs[g]?)
    let (x', v) ← L.call x c
    pure (gs.set g (some x'), .value v)
  | .close g => do
    let _ ← (← gs[g]?)
    pure (gs.set g none, .unit)

def cxxRun {σ P V : Type} (L : GridClass σ P V) (gs : List (Option σ)) :
    List (CxxCall P) → Option (List (FortranRet V))
  | [] => some []
  | c :: cs => do
    let (gs', r) ← cxxStep L gs c
    let rs ← cxxRun L gs' cs
    pure (r :: rs)

/-- The text of a Fortran string. -/
def text (s : Str) : Str := (s.reverse.dropWhile (· = ' ')).reverse

/-- The same call in C++. -/
def cxx {P : Type} : FortranCall P → CxxCall P
  | .create t => .create (.basic (t.getD 3))
  | .createArray t => .create (.array (t.getD 3))
  | .createStruct n b d t => .create (.struct n.toNat (b.map Int.toNat) (d.map Int.toNat) t)
  | .setComm g c => .call g.toNat (.setComm c)
  | .setThreads g n => .call g.toNat (.setThreads n.toNat)
  | .setParam g n v l => .call g.toNat (.setParam (text n) (text v) (l.getD 0).toNat)
  | .open g f l => .call g.toNat (.open (text f) (l.getD 0).toNat)
  | .dimensions g => .call g.toNat .getDimensions
  | .min g n => .call g.toNat (.getMin n.toNat)
  | .max g n => .call g.toNat (.getMax n.toNat)
  | .delta g n l => .call g.toNat (.getDelta n.toNat (l.getD 0).toNat)
  | .varSize g => .call g.toNat .getVarSize
  | .getByte g p l => .call g.toNat (.getByte p (l.getD 0).toNat)
  | .getInt g p l => .call g.toNat (.getInt p (l.getD 0).toNat)
  | .getLong g p l => .call g.toNat (.getLong p (l.getD 0).toNat)
  | .getFloat g p l => .call g.toNat (.getFloat p (l.getD 0).toNat)
  | .getDouble g p l => .call g.toNat (.getDouble p (l.getD 0).toNat)
  | .getBuf g p l => .call g.toNat (.getBuf p (l.getD 0).toNat)
  | .close g => .close g.toNat

/-- A Fortran integer argument that has an unsigned counterpart. -/
def count (i : Int) : Prop := 0 ≤ i ∧ i < 2 ^ 31

/-- A `long` with an unsigned counterpart. -/
def offset (i : Int) : Prop := 0 ≤ i ∧ i < 2 ^ 63

/-- An optional level that is not negative. -/
def level (l : Option Int) : Prop := ∀ i, l = some i → count i

/-- A string without a null character. -/
def noNull (s : Str) : Prop := '\x00' ∉ s

/-- Arguments that have a counterpart in C++: handles, levels, numbers and sizes are not negative, strings
contain no null character. -/
def ok {P : Type} : FortranCall P → Prop
  | .create _ | .createArray _ => True
  | .createStruct n b d _ => count n ∧ (∀ i ∈ b, count i) ∧ (∀ i ∈ d, offset i)
  | .setComm g _ => count g
  | .setThreads g n => count g ∧ count n
  | .setParam g n v l => count g ∧ noNull n ∧ noNull v ∧ level l
  | .open g f l => count g ∧ noNull f ∧ level l
  | .dimensions g | .varSize g | .close g => count g
  | .min g n | .max g n => count g ∧ count n
  | .delta g n l => count g ∧ count n ∧ level l
  | .getByte g _ l | .getInt g _ l | .getLong g _ l | .getFloat g _ l | .getDouble g _ l
  | .getBuf g _ l => count g ∧ level l

/-- No string of the call ends with a blank. -/
def unpadded {P : Type} : FortranCall P → Prop
  | .setParam _ n v _ => text n = n ∧ text v = v
  | .open _ f _ => text f = f
  | _ => True

end Asagi.Spec
