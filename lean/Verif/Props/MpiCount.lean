import Verif.Model.MpiCount
/-
Size of the blocks sent through MPI: C57.
-/
namespace Asagi.Props
open Asagi

/-- **C57**, negation: a block of 2^32 values is "transferred" without copying anything. -/
theorem C57_large_block_violated :
    ¬ ∀ (n : Nat) (source slot : List Nat), source.length = n → slot.length = n →
      mpiTransfer n source slot = some source := by
  intro h
  have h1 := h (2 ^ 32) (List.replicate (2 ^ 32) 1) (List.replicate (2 ^ 32) 0)
    List.length_replicate List.length_replicate
  have h2 : mpiTransfer (2 ^ 32) (List.replicate (2 ^ 32) 1) (List.replicate (2 ^ 32) 0) =
      some (List.replicate (2 ^ 32) 0) := by
    have hc : mpiCount (2 ^ 32) = 0 := by decide
    simp only [mpiTransfer, hc]
    rfl
  rw [h2] at h1
  have h3 := congrArg (fun o => o.bind (·[0]?)) h1
  simp only [Option.bind_some, List.getElem?_replicate] at h3
  simp at h3

/-- **C57**, negation: a block of 2^31 values is rejected. -/
theorem C57_rejected_violated (source slot : List Nat) : mpiTransfer (2 ^ 31) source slot = none := by
  have hc : mpiCount (2 ^ 31) < 0 := by decide
  simp only [mpiTransfer, hc, if_true]

/-- **C57**, partial: blocks with less than 2^31 values arrive completely. Missing: larger blocks. -/
theorem C57_small_block_partial {α : Type} (n : Nat) (source slot : List α) (h1 : source.length = n)
    (h2 : slot.length = n) (hn : n < 2 ^ 31) : mpiTransfer n source slot = some source := by
  have hc : mpiCount n = (n : Int) := by
    simp only [mpiCount]
    rw [Nat.mod_eq_of_lt (by omega), if_pos hn]
  simp only [mpiTransfer, hc]
  rw [if_neg (by omega), Int.toNat_natCast, List.take_of_length_le (by omega),
    List.drop_of_length_le (by omega), List.append_nil]

/-- **C57**, negation, for every size: no block with 2^31 values or more arrives completely, unless MPI rejects it the
slot keeps its old last value (which is therefore assumed to be different). With `C57_small_block_partial` this is the
exact limit. -/
theorem C57_exact_violated {α : Type} (n : Nat) (source slot : List α) (h1 : source.length = n)
    (hn : 2 ^ 31 ≤ n) (hd : source[n - 1]? ≠ slot[n - 1]?) :
    mpiTransfer n source slot ≠ some source := by
  have hc : mpiCount n < (n : Int) := by
    simp only [mpiCount]
    have := Nat.mod_le n (2 ^ 32)
    have := Nat.mod_lt n (show 0 < 2 ^ 32 by decide)
    split <;> omega
  simp only [mpiTransfer]
  split
  · exact fun h => by cases h
  · intro h
    have h := Option.some.inj h
    apply hd
    have hk : (mpiCount n).toNat ≤ n - 1 := by omega
    have h2 := congrArg (fun l => l[n - 1]?) h
    rw [List.getElem?_append_right (by rw [List.length_take]; omega), List.getElem?_drop, List.length_take,
      show (mpiCount n).toNat + (n - 1 - min (mpiCount n).toNat source.length) = n - 1 by omega] at h2
    exact h2.symm

/-- The hypotheses are met, for example for a block of 2^33 ones and a slot filled with zeros. -/
example : mpiTransfer (2 ^ 33) (List.replicate (2 ^ 33) 1) (List.replicate (2 ^ 33) 0) ≠
    some (List.replicate (2 ^ 33) 1) :=
  C57_exact_violated _ _ _ List.length_replicate (by decide) (by
    rw [List.getElem?_replicate, List.getElem?_replicate, if_pos (by decide)]
    decide)

/-- Non-trivial case. -/
example : mpiTransfer 3 [7, 8, 9] [0, 0, 0] = some [7, 8, 9] := by decide

end Asagi.Props
