import Verif.Model.Double
/-
Vocabulary for the statement about undefined conversions.
-/
namespace Asagi.Spec

/-- A result that is too large for a double. -/
def Overflows (q : ℚ) : Prop := (ieeeRnd q).isInf = true

end Asagi.Spec
