import Mathlib.Data.Int.Log
import Verif.Model.Index
/-
IEEE 754 binary64 rounding, the arithmetic in which `Level::open` and `Level::pos2index`
(grid/level/level.h 210-271, 356-371) and `NetCdfReader::getScaling` (io/netcdfreader.h 162-183)
compute: `double`, round to nearest, ties to even, gradual underflow, overflow to infinity.
Assumed of the compiler: each operation is rounded once to binary64 (no extended precision, no fused
multiply-add, no -ffast-math).
-/
namespace Asagi

/-- The integer nearest to `x`, the even one on ties. Arithmetic of level.h 210-271, 356-371. -/
def rneInt (x : ℚ) : ℤ :=
  if x - ⌊x⌋ < 1 / 2 then ⌊x⌋
  else if 1 / 2 < x - ⌊x⌋ then ⌊x⌋ + 1
  else if ⌊x⌋ % 2 = 0 then ⌊x⌋ else ⌊x⌋ + 1

/-- The exponent of the binade of `q`; numbers below 2^-1022 are subnormal. Arithmetic of level.h 210-271, 356-371. -/
def binade (q : ℚ) : ℤ := max (Int.log 2 |q|) (-1022)

/-- Distance of neighbouring doubles in the binade of `q` (53 significant bits).
Arithmetic of level.h 210-271, 356-371. -/
def ulp (q : ℚ) : ℚ := 2 ^ (binade q - 52)

/-- `q` rounded to a multiple of its `ulp`, as if the exponent range were unbounded above.
Arithmetic of level.h 210-271, 356-371. -/
def rneRat (q : ℚ) : ℚ := rneInt (q / ulp q) * ulp q

/-- Rounding to binary64. Arithmetic of level.h 210-271, 356-371. -/
def ieeeRnd (q : ℚ) : Dbl :=
  if |rneRat q| < 2 ^ 1024 then .fin (rneRat q) else .inf (decide (q < 0))

/-- Arithmetic on `double`. Arithmetic of level.h 210-271, 356-371. -/
def Fp.ieee : Fp := ⟨ieeeRnd⟩

end Asagi
