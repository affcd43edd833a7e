import Verif.Model.Types
import Verif.Model.Index
/-
The values of the five types.
-/
namespace Asagi.Spec
open Asagi

/-- `v` is an integer from `lo` to `hi`. -/
def IntegerIn (lo hi : Int) (v : Dbl) : Prop := ∃ n : Int, lo ≤ n ∧ n ≤ hi ∧ v = .fin n

/-- `q` is `m * 2^e` with less than `prec` bits (plus sign) and an exponent of the format. -/
def BinaryFloat (prec : Nat) (emin : Int) (emax : Nat) (q : ℚ) : Prop :=
  |q| < 2 ^ emax ∧ ∃ m e : Int, |m| < 2 ^ prec ∧ emin ≤ e ∧ q = m * 2 ^ e

/-- `v` is a value of the type. The smallest positive float is 2^-149, the smallest positive
double 2^-1074. -/
def IsValue : Scalar → Dbl → Prop
  | .byte, v => IntegerIn 0 255 v
  | .int, v => IntegerIn (-2147483648) 2147483647 v
  | .long, v => IntegerIn (-9223372036854775808) 9223372036854775807 v
  | .float, .fin q => BinaryFloat 24 (-149) 128 q
  | .double, .fin q => BinaryFloat 53 (-1074) 1024 q
  | .float, _ => True
  | .double, _ => True

def IsInteger (t : Scalar) : Prop := t = .byte ∨ t = .int ∨ t = .long

end Asagi.Spec
