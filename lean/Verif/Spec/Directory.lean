import Verif.Model.Directory
/-
Specification of the block directory: which owners have been announced and not withdrawn.
-/
namespace Asagi.Spec
open Asagi

/-- Owner `e` was announced and has not been withdrawn since. -/
def Live (ops : List DictOp) (e : Nat) : Prop :=
  ∃ pre post, ops = pre ++ DictOp.add e :: post ∧ DictOp.delete e ∉ post

/-- Owners announce themselves only if they are not announced already (a cache slot is filled
with a block only if it does not hold it). -/
def AddsFresh (ops : List DictOp) : Prop :=
  ∀ pre e post, ops = pre ++ DictOp.add e :: post → ¬ Live pre e

/-- Owners are withdrawn only after they were announced. -/
def DeletesLive (ops : List DictOp) : Prop :=
  ∀ pre e post, ops = pre ++ DictOp.delete e :: post → Live pre e

theorem live_nil (e : Nat) : ¬ Live [] e := by
  rintro ⟨pre, post, h, -⟩
  simp at h

theorem live_add (ops : List DictOp) (a e : Nat) :
    Live (ops ++ [.add a]) e ↔ e = a ∨ Live ops e := by
  constructor
  · rintro ⟨pre, post, h, hn⟩
    rcases List.eq_nil_or_concat post with rfl | ⟨post', x, hp⟩
    · left
      have := List.append_inj' h rfl
      simpa using this.2.symm
    · right
      rw [List.concat_eq_append] at hp; subst hp
      rw [← List.cons_append, ← List.append_assoc] at h
      obtain ⟨h1, h2⟩ := List.append_inj' h rfl
      exact ⟨pre, post', h1, fun hh => hn (by simp [hh])⟩
  · rintro (rfl | ⟨pre, post, rfl, hn⟩)
    · exact ⟨ops, [], rfl, by simp⟩
    · exact ⟨pre, post ++ [.add a], by simp, by simp [hn]⟩

theorem live_delete (ops : List DictOp) (a e : Nat) :
    Live (ops ++ [.delete a]) e ↔ e ≠ a ∧ Live ops e := by
  constructor
  · rintro ⟨pre, post, h, hn⟩
    rcases List.eq_nil_or_concat post with rfl | ⟨post', x, hp⟩
    · have := List.append_inj' h rfl
      simp at this
    · rw [List.concat_eq_append] at hp; subst hp
      rw [← List.cons_append, ← List.append_assoc] at h
      obtain ⟨h1, h2⟩ := List.append_inj' h rfl
      simp only [List.cons.injEq, and_true] at h2
      subst h2
      refine ⟨?_, pre, post', h1, fun hh => hn (by simp [hh])⟩
      rintro rfl
      exact hn (by simp)
  · rintro ⟨hne, pre, post, rfl, hn⟩
    exact ⟨pre, post ++ [.delete a], by simp, by simp [hn, hne]⟩

end Asagi.Spec
