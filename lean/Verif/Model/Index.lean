import Mathlib.Data.Rat.Floor
/-
Model of the coordinate handling: grid/level/level.h 210-271 (open), 175-204 (min, max,
delta), 356-371 (pos2index), 398-412 and io/netcdfreader.h 132-183.

A `double` is a rational number, an infinity or NaN.  The result of each arithmetic
operation on finite numbers is passed through a rounding function `rnd`, a parameter of the
model: `Fp.exact` computes without rounding errors, other choices describe IEEE rounding
(including overflow to infinity).  Signed zeros are not distinguished.
-/
namespace Asagi

/-- A value of type `double`. `inf true` is minus infinity. The type of positions and coordinates, level.h 102-116. -/
inductive Dbl where
  | fin (q : ℚ)
  | inf (neg : Bool)
  | nan
deriving DecidableEq

/-- Floating point arithmetic: the rounding of exact results. Arithmetic of level.h 210-271, 356-371. -/
structure Fp where
  rnd : ℚ → Dbl

/-- Arithmetic without rounding errors and overflow. Idealisation of the arithmetic of level.h 210-271, 356-371. -/
def Fp.exact : Fp := ⟨Dbl.fin⟩

namespace Dbl

/-- unary minus Part of subtraction, level.h 359. -/
def neg : Dbl → Dbl
  | fin q => fin (-q)
  | inf s => inf (!s)
  | nan => nan

/-- `a < b` level.h 257-258, 361-363. -/
def lt : Dbl → Dbl → Bool
  | nan, _ => false
  | _, nan => false
  | fin a, fin b => decide (a < b)
  | fin _, inf s => !s
  | inf s, fin _ => s
  | inf s, inf t => s && !t

/-- `std::isinf` level.h 243, 400. -/
def isInf : Dbl → Bool
  | inf _ => true
  | _ => false

/-- `std::abs` level.h 259. -/
def abs : Dbl → Dbl
  | fin q => fin |q|
  | inf _ => inf false
  | nan => nan

/-- `std::floor` (exact in IEEE arithmetic) level.h 411. -/
def floor : Dbl → Dbl
  | fin q => fin ⌊q⌋
  | inf s => inf s
  | nan => nan

/-- `std::min(a, b)`: `(b < a) ? b : a` level.h 257. -/
def min (a b : Dbl) : Dbl := if b.lt a then b else a

/-- `std::max(a, b)`: `(a < b) ? b : a` level.h 258. -/
def max (a b : Dbl) : Dbl := if a.lt b then b else a

/-- Conversion `double -> size_t`: truncation; undefined behaviour (`none`) if the truncated
value is not representable. level.h 369. -/
def toSizeT : Dbl → Option Nat
  | fin q => if -1 < q ∧ q < 2 ^ 64 then some ⌊q⌋.toNat else none
  | _ => none

end Dbl

namespace Fp
open Dbl

/-- `a + b` level.h 249-254, 411. -/
def add (fp : Fp) : Dbl → Dbl → Dbl
  | fin a, fin b => fp.rnd (a + b)
  | nan, _ => nan
  | _, nan => nan
  | inf s, fin _ => inf s
  | fin _, inf s => inf s
  | inf s, inf t => if s = t then inf s else nan

/-- `a - b` level.h 249-254, 359. -/
def sub (fp : Fp) (a b : Dbl) : Dbl := fp.add a b.neg

/-- `a * b` level.h 249-254, 359. -/
def mul (fp : Fp) : Dbl → Dbl → Dbl
  | fin a, fin b => fp.rnd (a * b)
  | nan, _ => nan
  | _, nan => nan
  | inf s, fin b => if b = 0 then nan else inf (s != decide (b < 0))
  | fin a, inf s => if a = 0 then nan else inf (s != decide (a < 0))
  | inf s, inf t => inf (s != t)

/-- `a / b` with a non-zero finite divisor (the only divisions in the modelled code are
netcdfreader.h 182, where the divisor is at least one, and level.h 403, where it is not
zero); other divisors do not occur and yield NaN. -/
def div (fp : Fp) : Dbl → Dbl → Dbl
  | fin a, fin b => if b = 0 then nan else fp.rnd (a / b)
  | inf s, fin b => if b = 0 then nan else inf (s != decide (b < 0))
  | _, _ => nan

/-- Conversion of an integer to double. level.h 249, 361, 366. -/
def ofNat (fp : Fp) (n : Nat) : Dbl := fp.rnd n

end Fp

/-- One dimension of the netCDF variable: its size and the values of the coordinate variable
(`none`: the file has no variable with the name of the dimension). The coordinate values are
finite. netcdfreader.h 132-183. -/
structure NcAxis where
  size : Nat
  coords : Option (Nat → ℚ)

/-- `getOffset`, netcdfreader.h 142-156. -/
def NcAxis.getOffset (a : NcAxis) : Dbl :=
  match a.coords with
  | none => .fin 0
  | some c => .fin (c 0)

/-- `getScaling`, netcdfreader.h 162-183. -/
def NcAxis.getScaling (fp : Fp) (a : NcAxis) : Dbl :=
  if a.size = 1 then .inf false
  else match a.coords with
    | none => .fin 1
    | some c => fp.div (fp.sub (.fin (c (a.size - 1))) (.fin (c 0))) (fp.ofNat (a.size - 1))

/-- Members of `Level` for one dimension, level.h 98-119. -/
structure Axis where
  size : Nat
  offset : Dbl
  scaling : Dbl
  min : Dbl
  max : Dbl
  scalingInv : Dbl

/-- `NUMERIC_PRECISION`, level.h 392. -/
def numericPrecision : ℚ := 1 / 10 ^ 10

/-- `getInvScaling`, level.h 398-404. -/
def getInvScaling (fp : Fp) (scaling : Dbl) : Dbl :=
  if scaling = .fin 0 ∨ scaling.isInf then .fin 0 else fp.div (.fin 1) scaling

/-- The body of the two loops of `Level::open` for one dimension, level.h 227-262. -/
def openAxis (fp : Fp) (cellCentered : Bool) (a : NcAxis) : Axis :=
  let offset := a.getOffset
  let scaling := a.getScaling fp
  let scalingInv := getInvScaling fp scaling
  if scaling.isInf then
    { size := a.size, offset, scaling, min := .inf true, max := .inf false, scalingInv }
  else
    let min := offset
    let max := fp.add offset (fp.mul scaling (fp.ofNat (a.size - 1)))
    let half := fp.mul scaling (fp.sub (.fin (1 / 2)) (fp.rnd numericPrecision))
    let min := if cellCentered then fp.sub min half else min
    let max := if cellCentered then fp.add max half else max
    { size := a.size, offset, scaling := scaling.abs, min := Dbl.min min max,
      max := Dbl.max min max, scalingInv }

/-- `Level::open`, level.h 227-262: all dimensions, in file order. -/
def openAxes (fp : Fp) (cellCentered : Bool) (file : List NcAxis) : List Axis :=
  file.map (openAxis fp cellCentered)

/-- `round`, level.h 409-412. -/
def dblRound (fp : Fp) (x : Dbl) : Dbl := (fp.add x (.fin (1 / 2))).floor

/-- Loop body of `pos2index`, level.h 358-370. `none`: the conversion in line 369 is
undefined behaviour. -/
def pos2indexDim (fp : Fp) (a : Axis) (pos : Dbl) : Option Nat :=
  let x := dblRound fp (fp.mul (fp.sub pos a.offset) a.scalingInv)
  let x := if x.lt (.fin 0) then .fin 0
    else if ¬ x.lt (fp.ofNat a.size) ∧ x ≠ .nan then fp.ofNat (a.size - 1)
    else x
  x.toSizeT

/-- `pos2index`, level.h 356-371. `pos` is in API order, the result in file order. `none`:
undefined behaviour (also if `pos` has too few components). -/
def pos2index (fp : Fp) (axes : List Axis) (pos : List Dbl) : Option (List Nat) :=
  (List.range axes.length).mapM fun i => do
    let a ← axes[i]?
    let p ← pos[axes.length - i - 1]?
    pos2indexDim fp a p

/-- `Level::min(n)`, level.h 175-180. `none`: array index out of bounds. -/
def getMin (axes : List Axis) (n : Nat) : Option Dbl :=
  if n < axes.length then axes[axes.length - n - 1]?.map Axis.min else none

/-- `Level::max(n)`, level.h 187-192. -/
def getMax (axes : List Axis) (n : Nat) : Option Dbl :=
  if n < axes.length then axes[axes.length - n - 1]?.map Axis.max else none

/-- `Level::delta(n)`, level.h 199-204. -/
def getDelta (axes : List Axis) (n : Nat) : Option Dbl :=
  if n < axes.length then axes[axes.length - n - 1]?.map Axis.scaling else none

end Asagi
