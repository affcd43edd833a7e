/-
Specification of a fair lock: every lock has a queue, the first thread of the queue owns the lock,
new threads join at the end and only the owner leaves.
-/
namespace Asagi.Spec

inductive FifoStep {τ : Type} : (Nat → List τ) → (Nat → List τ) → Prop
  | join (Q : Nat → List τ) (l : Nat) (t : τ) : t ∉ Q l →
      FifoStep Q (fun k => if k = l then Q l ++ [t] else Q k)
  | leave (Q : Nat → List τ) (l : Nat) (t : τ) (r : List τ) : Q l = t :: r →
      FifoStep Q (fun k => if k = l then r else Q k)

end Asagi.Spec
