import Verif.Model.Double
import Verif.Model.Types
/-
Numeric conversions: netCDF converts the values of the file to the type of the grid
(io/netcdfreader.h 246-291, `nc_get_varm_*`; the result code, NC_ERANGE, is ignored), the getters convert
them to their own type (types/basictype.h 84-88). Values of all types are described by `Dbl`; signed
zeros and NaN payloads are not distinguished.
-/
namespace Asagi

/-- A binary floating point format: significant bits, least and greatest exponent.
The types `float` and `double` of io/netcdfreader.h 276-291. -/
structure FloatFmt where
  prec : Nat
  emin : Int
  emax : Nat

/-- `float` (netcdfreader.h 276-281). -/
def FloatFmt.single : FloatFmt := ⟨24, -126, 128⟩
/-- `double` (netcdfreader.h 286-291). -/
def FloatFmt.binary64 : FloatFmt := ⟨53, -1022, 1024⟩

/-- Distance of neighbouring numbers of the format at `q`.
Part of the conversions of netcdfreader.h 246-291, basictype.h 84-88. -/
def FloatFmt.ulp (f : FloatFmt) (q : ℚ) : ℚ :=
  2 ^ (max (Int.log 2 |q|) f.emin - (f.prec - 1 : Int))

/-- Rounding to nearest, ties to even, with an unbounded exponent.
Part of the conversions of netcdfreader.h 246-291, basictype.h 84-88. -/
def FloatFmt.rne (f : FloatFmt) (q : ℚ) : ℚ := rneInt (q / f.ulp q) * f.ulp q

/-- Rounding to the format, overflow to infinity.
Part of the conversions of netcdfreader.h 246-291, basictype.h 84-88. -/
def FloatFmt.round (f : FloatFmt) (q : ℚ) : Dbl :=
  if |f.rne q| < 2 ^ f.emax then .fin (f.rne q) else .inf (decide (q < 0))

/-- Least value and number of values of the integer types (64-bit Linux). The types of asagi.h 74-85. -/
def Scalar.range : Scalar → Option (Int × Nat)
  | .byte => some (0, 2 ^ 8)
  | .int => some (-2 ^ 31, 2 ^ 32)
  | .long => some (-2 ^ 63, 2 ^ 64)
  | .float => none
  | .double => none

/-- The formats of the floating point types, asagi.h 80-84 (not used for the others). -/
def Scalar.fmt : Scalar → FloatFmt
  | .float => .single
  | _ => .binary64

/-- Truncation towards zero. Part of the conversions of basictype.h 84-88. -/
def truncRat (q : ℚ) : Int := if 0 ≤ q then ⌊q⌋ else ⌈q⌉

/-- The C++ conversion `*buf = *static_cast<const T*>(data)` of basictype.h 87 (T is `src`, the type of
`*buf` is `dst`), [conv.integral], [conv.fpint], [conv.double], and the conversion by netCDF.
`none`: undefined behaviour, an indeterminate value. Integers out of range wrap around (as all compilers
of 64-bit Linux do); floating point overflow gives an infinity (IEC 60559). -/
def cConvert (src dst : Scalar) (v : Dbl) : Option Dbl :=
  match dst.range with
  | none =>
    match v with
    | .fin q => some (dst.fmt.round q)
    | w => some w
  | some (lo, n) =>
    match v with
    | .fin q =>
      match src.range with
      | some _ => some (.fin ((⌊q⌋ - lo) % (n : Int) + lo : Int))
      | none => if lo ≤ truncRat q ∧ truncRat q < lo + n then some (.fin (truncRat q)) else none
    | _ => none

/-- The value that is stored in a grid of type `grid` for a value of a variable of type `file`.
netcdfreader.h 246-291. -/
def stored (file grid : Scalar) (v : Dbl) : Option Dbl := cConvert file grid v

/-- The value that a typed getter of a grid with basic type returns for a stored value (`none`:
indeterminate). basictype.h 84-88. -/
def typedGet (grid getter : Scalar) (v : Option Dbl) : Option Dbl := v.bind (cConvert grid getter)

end Asagi
