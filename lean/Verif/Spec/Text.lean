/-
Small specification vocabulary for parameter names and numbers, independent of the model.
-/
namespace Asagi.Spec

/-- Two characters of a parameter name are the same if they are the same letter in any case,
or if both are one of '-' and '_'. -/
def SameChar (a b : Char) : Prop :=
  a.toUpper = b.toUpper ∨ ((a = '-' ∨ a = '_') ∧ (b = '-' ∨ b = '_'))

/-- Two names denote the same parameter: same length, same characters. -/
def SameName : List Char → List Char → Prop
  | [], [] => True
  | a :: as, b :: bs => SameChar a b ∧ SameName as bs
  | _, _ => False

instance (a b : Char) : Decidable (SameChar a b) :=
  inferInstanceAs (Decidable (_ ∨ _))

instance instDecidableSameName : (a b : List Char) → Decidable (SameName a b)
  | [], [] => isTrue trivial
  | a :: as, b :: bs =>
    have := instDecidableSameName as bs
    inferInstanceAs (Decidable (SameChar a b ∧ SameName as bs))
  | [], _ :: _ => isFalse (fun h => h)
  | _ :: _, [] => isFalse (fun h => h)

/-- The last setting of a parameter of a level in a list of calls (name, value, level). -/
def lastSetting (calls : List (List Char × List Char × Nat)) (name : List Char) (level : Nat) :
    Option (List Char) :=
  match calls.reverse.find? (fun c => decide (SameName c.1 name ∧ c.2.2 = level)) with
  | some c => some c.2.1
  | none => none

/-- The digit for a number below ten. -/
def digit (n : Nat) : Char := Char.ofNat ('0'.toNat + n)

/-- The decimal notation of a natural number. -/
def decimal (n : Nat) : List Char :=
  if n < 10 then [digit n] else decimal (n / 10) ++ [digit (n % 10)]

/-- The decimal notation of an integer. -/
def decimalInt (z : Int) : List Char :=
  if z < 0 then '-' :: decimal z.natAbs else decimal z.natAbs

/-- The integers a C++ `int` (32 bits) can hold. -/
def InInt (z : Int) : Prop := -2 ^ 31 ≤ z ∧ z < 2 ^ 31

instance (z : Int) : Decidable (InInt z) := inferInstanceAs (Decidable (_ ∧ _))

end Asagi.Spec

namespace Asagi.Spec

/-- A text in upper case with '_' instead of '-'. -/
def normalised (s : List Char) : List Char := s.map (fun c => if c = '-' then '_' else c.toUpper)

end Asagi.Spec
