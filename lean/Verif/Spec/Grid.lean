/-
Small specification vocabulary for index vectors, independent of the model.
-/
namespace Asagi.Spec

/-- `idx` has one component per dimension and each component is below the dimension's
size. -/
def InBox : List Nat → List Nat → Prop
  | [], [] => True
  | s :: ss, i :: is => i < s ∧ InBox ss is
  | _, _ => False

instance : (s i : List Nat) → Decidable (InBox s i)
  | [], [] => isTrue trivial
  | s :: ss, i :: is =>
    have := instDecidableInBox ss is
    inferInstanceAs (Decidable (i < s ∧ InBox ss is))
  | [], _ :: _ => isFalse (fun h => h)
  | _ :: _, [] => isFalse (fun h => h)

/-- Product of a list of extents. -/
def prod : List Nat → Nat
  | [] => 1
  | x :: xs => x * prod xs

/-- Row-major (C order) position of `idx` in an array with extents `size`: the last
dimension varies fastest. -/
def rowMajor : List Nat → List Nat → Nat
  | _ :: ss, i :: is => i * prod ss + rowMajor ss is
  | _, _ => 0

end Asagi.Spec
