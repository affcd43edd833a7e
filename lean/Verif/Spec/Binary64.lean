import Mathlib.Algebra.Order.Field.Rat
import Mathlib.Algebra.Order.Field.Power
/-
The finite numbers of IEEE 754 binary64, independent of the model of rounding.
-/
namespace Asagi.Spec

/-- `y` is a finite double: 53 significant bits, exponents between -1074 and 971. -/
def IsDouble (y : ℚ) : Prop :=
  ∃ m e : ℤ, |m| < 2 ^ 53 ∧ -1074 ≤ e ∧ e ≤ 971 ∧ y = m * 2 ^ e

/-- `y` is a double whose significand, in the format's own representation (leading bit set, or the smallest
exponent), is even. -/
def IsEvenDouble (y : ℚ) : Prop :=
  ∃ m e : ℤ, |m| < 2 ^ 53 ∧ -1074 ≤ e ∧ e ≤ 971 ∧ y = m * 2 ^ e ∧ (2 ^ 52 ≤ |m| ∨ e = -1074) ∧ 2 ∣ m

end Asagi.Spec
