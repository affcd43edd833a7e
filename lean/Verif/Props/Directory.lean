import Verif.Spec.Directory
import Verif.Proofs.Directory
import Mathlib.Data.List.Nodup
import Mathlib.Data.List.Induction
/-
Properties of the block directory: C34.
-/
namespace Asagi.Props
open Asagi Asagi.Spec

/-- The owners recorded after a sequence of messages. -/
abbrev recorded (n : Nat) (ops : List DictOp) : List Nat := ops.foldl (ownersStep n) []

theorem recorded_snoc (n : Nat) (ops : List DictOp) (o : DictOp) :
    recorded n (ops ++ [o]) = ownersStep n (recorded n ops) o := by
  simp [recorded, List.foldl_append]

/-- Recorded owners are owners that are announced, and a withdrawn owner is never recorded. -/
theorem recorded_live {n : Nat} (ops : List DictOp) (hf : AddsFresh ops) :
    (recorded n ops).Nodup ∧ ∀ e ∈ recorded n ops, Live ops e := by
  induction ops using List.reverseRecOn with
  | nil => simp
  | append_singleton ops o ih =>
    have hf' : AddsFresh ops := by
      intro pre e post h
      exact hf pre e (post ++ [o]) (by rw [h]; simp)
    obtain ⟨ih1, ih2⟩ := ih hf'
    rw [recorded_snoc]
    cases o with
    | add a =>
      have hna : a ∉ recorded n ops := fun h => hf ops a [] rfl (ih2 a h)
      refine ⟨((List.nodup_cons.2 ⟨hna, ih1⟩).sublist (List.take_sublist _ _)), ?_⟩
      intro e he
      rw [live_add]
      have := List.mem_of_mem_take he
      rcases List.mem_cons.1 this with h | h
      · exact .inl h
      · exact .inr (ih2 e h)
    | delete a =>
      simp only [ownersStep]
      split
      · rename_i ha
        refine ⟨ih1.erase a, fun e he => ?_⟩
        rw [live_delete]
        obtain ⟨h1, h2⟩ := (List.Nodup.mem_erase_iff ih1).1 he
        exact ⟨h1, ih2 e h2⟩
      · rename_i ha
        refine ⟨ih1.sublist (List.take_sublist _ _), fun e he => ?_⟩
        rw [live_delete]
        have hm := List.mem_of_mem_take he
        refine ⟨?_, ih2 e hm⟩
        rintro rfl
        exact ha hm

/-- If owners also withdraw only after announcing and there were never more than `n` at the same
time, nobody is forgotten. -/
theorem recorded_complete {n : Nat} (ops : List DictOp) (hf : AddsFresh ops) (hd : DeletesLive ops)
    (hcap : ∀ pre post, ops = pre ++ post → ∀ l : List Nat, l.Nodup → (∀ e ∈ l, Live pre e) →
      l.length ≤ n) :
    ∀ e, Live ops e → e ∈ recorded n ops := by
  induction ops using List.reverseRecOn with
  | nil => intro e h; exact absurd h (live_nil e)
  | append_singleton ops o ih =>
    have hf' : AddsFresh ops := by
      intro pre e post h
      exact hf pre e (post ++ [o]) (by rw [h]; simp)
    have hd' : DeletesLive ops := by
      intro pre e post h
      exact hd pre e (post ++ [o]) (by rw [h]; simp)
    have ih' := ih hf' hd' (fun pre post h => hcap pre (post ++ [o]) (by rw [h]; simp))
    obtain ⟨nd, lv⟩ := recorded_live (n := n) ops hf'
    intro e he
    rw [recorded_snoc]
    cases o with
    | add a =>
      have hna : a ∉ recorded n ops := fun h => hf ops a [] rfl (lv a h)
      have hlen := hcap (ops ++ [.add a]) [] (by simp) (a :: recorded n ops)
        (List.nodup_cons.2 ⟨hna, nd⟩) (by
          intro x hx
          rw [live_add]
          rcases List.mem_cons.1 hx with h | h
          · exact .inl h
          · exact .inr (lv x h))
      simp only [ownersStep]
      rw [List.take_of_length_le hlen]
      rcases (live_add _ _ _).1 he with h | h
      · simp [h]
      · simp [ih' e h]
    | delete a =>
      obtain ⟨h1, h2⟩ := (live_delete _ _ _).1 he
      have ha : a ∈ recorded n ops := ih' a (hd ops a [] rfl)
      simp only [ownersStep]
      rw [if_pos ha]
      exact (List.Nodup.mem_erase_iff nd).2 ⟨h1, ih' e h2⟩

/-- **C34.** After any sequence of announcements and withdrawals for a block (owners announce
only if they are not announced) the entry has its four places; the used places come first and
contain different owners, each announced and not withdrawn. -/
theorem C34_directory_content (ops : List DictOp) (hf : AddsFresh ops) :
    (dictRun dictEntrySize ops).length = 4 ∧
    ∃ owners : List Nat, owners.length ≤ 4 ∧ owners.Nodup ∧ (∀ e ∈ owners, Live ops e) ∧
      ∀ i : Nat, i < 4 →
        (dictRun dictEntrySize ops)[i]? = some (match owners[i]? with
          | some e => (e : Int)
          | none => -1) := by
  obtain ⟨h1, h2⟩ := dictRun_enc (n := dictEntrySize) (by decide) ops
  obtain ⟨nd, lv⟩ := recorded_live (n := dictEntrySize) ops hf
  rw [h1]
  refine ⟨enc_length h2, recorded dictEntrySize ops, h2, nd, lv, fun i hi => ?_⟩
  unfold enc
  change ((recorded dictEntrySize ops).map _ ++
    List.replicate (dictEntrySize - (recorded dictEntrySize ops).length) (-1))[i]? = _
  by_cases hlt : i < (recorded dictEntrySize ops).length
  · rw [List.getElem?_append_left (by simpa using hlt), List.getElem?_map,
      List.getElem?_eq_getElem hlt]
    rfl
  · rw [List.getElem?_append_right (by simp; omega), List.getElem?_replicate,
      List.getElem?_eq_none (show (recorded dictEntrySize ops).length ≤ i by omega)]
    rw [if_pos]
    simp only [List.length_map]
    have : dictEntrySize = 4 := rfl
    omega

/-- **C34.** A lookup, for any random number, answers "nobody" exactly if no place is used;
otherwise it answers an owner that is announced and not withdrawn. Each recorded owner is the
answer for some random number. -/
theorem C34_lookup (ops : List DictOp) (hf : AddsFresh ops) :
    (∀ random : Nat,
      (dictFetch (dictRun dictEntrySize ops) random = -1 ∧ ∀ x ∈ dictRun dictEntrySize ops, x = -1) ∨
      (∃ e : Nat, dictFetch (dictRun dictEntrySize ops) random = e ∧
        (e : Int) ∈ dictRun dictEntrySize ops ∧ Live ops e)) ∧
    (∀ e : Nat, (e : Int) ∈ dictRun dictEntrySize ops →
      ∃ random, dictFetch (dictRun dictEntrySize ops) random = e) := by
  obtain ⟨h1, h2⟩ := dictRun_enc (n := dictEntrySize) (by decide) ops
  obtain ⟨nd, lv⟩ := recorded_live (n := dictEntrySize) ops hf
  rw [h1]
  generalize hL : ops.foldl (ownersStep dictEntrySize) [] = L at *
  have hmem : ∀ e : Nat, (e : Int) ∈ enc dictEntrySize L ↔ e ∈ L := by
    intro e
    unfold enc
    simp only [List.mem_append, List.mem_map, List.mem_replicate]
    constructor
    · rintro (⟨x, hx, h⟩ | ⟨-, h⟩)
      · have : x = e := by omega
        subst this; exact hx
      · omega
    · intro h; exact .inl ⟨e, h, rfl⟩
  constructor
  · intro random
    rw [dictFetch_enc]
    by_cases hn : L = []
    · left
      subst hn
      refine ⟨by simp, ?_⟩
      intro x hx
      simp only [enc, List.map_nil, List.nil_append, List.mem_replicate] at hx
      exact hx.2
    · right
      rw [if_neg hn]
      have hlt := Nat.mod_lt random (List.length_pos_of_ne_nil hn)
      refine ⟨_, rfl, ?_, ?_⟩
      · rw [hmem, List.getD_eq_getElem?_getD, List.getElem?_eq_getElem hlt]
        exact List.getElem_mem hlt
      · apply lv
        have e : recorded dictEntrySize ops = L := hL
        rw [e, List.getD_eq_getElem?_getD, List.getElem?_eq_getElem hlt]
        exact List.getElem_mem hlt
  · intro e he
    rw [hmem] at he
    obtain ⟨i, hi, rfl⟩ := List.getElem_of_mem he
    refine ⟨i, ?_⟩
    rw [dictFetch_enc, if_neg (List.ne_nil_of_mem he), Nat.mod_eq_of_lt hi,
      List.getD_eq_getElem?_getD, List.getElem?_eq_getElem hi]
    rfl

/-- **C34.** If there were never more than four owners at the same time, the directory knows all
of them (so a block held by some process is found). -/
theorem C34_complete (ops : List DictOp) (hf : AddsFresh ops) (hd : DeletesLive ops)
    (hcap : ∀ pre post, ops = pre ++ post → ∀ l : List Nat, l.Nodup → (∀ e ∈ l, Live pre e) →
      l.length ≤ 4) (e : Nat) :
    (e : Int) ∈ dictRun dictEntrySize ops ↔ Live ops e := by
  obtain ⟨h1, h2⟩ := dictRun_enc (n := dictEntrySize) (by decide) ops
  obtain ⟨nd, lv⟩ := recorded_live (n := dictEntrySize) ops hf
  have hc := recorded_complete (n := dictEntrySize) ops hf hd hcap e
  rw [h1]
  unfold enc
  simp only [List.mem_append, List.mem_map, List.mem_replicate]
  constructor
  · rintro (⟨x, hx, h⟩ | ⟨-, h⟩)
    · have : x = e := by omega
      subst this; exact lv x hx
    · omega
  · intro h; exact .inl ⟨e, hc h, rfl⟩

/-- **C34.** The most recent announcement is always recorded, also if the entry was full. -/
theorem C34_newest (ops : List DictOp) (e : Nat) :
    (e : Int) ∈ dictRun dictEntrySize (ops ++ [.add e]) := by
  obtain ⟨h1, -⟩ := dictRun_enc (n := dictEntrySize) (by decide) (ops ++ [.add e])
  rw [h1, List.foldl_append]
  simp [enc, ownersStep, dictEntrySize]

/-- **C34.** The number stored for an owner determines process and slot. -/
theorem C34_owner_number (rankCacheSize rank offset : Nat) (h : offset < rankCacheSize) :
    ownerRank rankCacheSize (ownerEntry rankCacheSize rank offset) = rank ∧
    ownerOffset rankCacheSize (ownerEntry rankCacheSize rank offset) = offset := by
  unfold ownerRank ownerOffset ownerEntry
  have hpos : 0 < rankCacheSize := by omega
  refine ⟨?_, ?_⟩
  · rw [Nat.mul_comm, Nat.mul_add_div hpos, Nat.div_eq_of_lt h, Nat.add_zero]
  · rw [Nat.mul_comm, Nat.mul_add_mod, Nat.mod_eq_of_lt h]

/-- Non-trivial case: five announcements and a withdrawal. -/
def dictExample : List DictOp := [.add 3, .add 8, .add 9, .delete 8, .add 1, .add 2, .add 7]

example : dictRun dictEntrySize dictExample = [7, 2, 1, 9] := by decide

/-- Decidable form of the live owners, for the example below. -/
theorem live_iff_foldl (ops : List DictOp) (e : Nat) :
    Live ops e ↔ ops.foldl (fun (b : Bool) o =>
      if o = .add e then true else if o = .delete e then false else b) false = true := by
  induction ops using List.reverseRecOn with
  | nil => simp [live_nil]
  | append_singleton ops o ih =>
    rw [List.foldl_append]
    simp only [List.foldl_cons, List.foldl_nil]
    cases o with
    | add a =>
      rw [live_add, ih]
      by_cases h : a = e
      · simp [h]
      · have h' : ¬ e = a := fun x => h x.symm
        simp [h, h']
    | delete a =>
      rw [live_delete, ih]
      by_cases h : a = e
      · simp [h]
      · have h' : ¬ e = a := fun x => h x.symm
        simp [h, h']

theorem addsFresh_snoc {ops : List DictOp} {o : DictOp} (h : AddsFresh ops)
    (h' : ∀ e, o = .add e → ¬ Live ops e) : AddsFresh (ops ++ [o]) := by
  intro pre e post hp
  rcases List.eq_nil_or_concat post with rfl | ⟨post', x, hx⟩
  · obtain ⟨h1, h2⟩ := List.append_inj' hp rfl
    subst h1
    exact h' e (by simpa using h2)
  · rw [List.concat_eq_append] at hx; subst hx
    rw [← List.cons_append, ← List.append_assoc] at hp
    exact h pre e post' (List.append_inj' hp rfl).1

theorem deletesLive_snoc {ops : List DictOp} {o : DictOp} (h : DeletesLive ops)
    (h' : ∀ e, o = .delete e → Live ops e) : DeletesLive (ops ++ [o]) := by
  intro pre e post hp
  rcases List.eq_nil_or_concat post with rfl | ⟨post', x, hx⟩
  · obtain ⟨h1, h2⟩ := List.append_inj' hp rfl
    subst h1
    exact h' e (by simpa using h2)
  · rw [List.concat_eq_append] at hx; subst hx
    rw [← List.cons_append, ← List.append_assoc] at hp
    exact h pre e post' (List.append_inj' hp rfl).1

/-- The example meets the hypotheses of C34_directory_content and C34_lookup. -/
example : AddsFresh dictExample ∧ DeletesLive dictExample := by
  have e : dictExample = ((((((([] ++ [.add 3]) ++ [.add 8]) ++ [.add 9]) ++ [.delete 8]) ++
    [.add 1]) ++ [.add 2]) ++ [.add 7] : List DictOp) := rfl
  rw [e]
  refine ⟨?_, ?_⟩
  · have h0 : AddsFresh [] := by intro pre e post h; simp at h
    refine addsFresh_snoc (addsFresh_snoc (addsFresh_snoc (addsFresh_snoc (addsFresh_snoc
      (addsFresh_snoc (addsFresh_snoc h0 ?_) ?_) ?_) ?_) ?_) ?_) ?_
    all_goals
      intro e he
      simp only [DictOp.add.injEq, reduceCtorEq] at he
      try subst he
      try (rw [live_iff_foldl]; decide)
  · have h0 : DeletesLive [] := by intro pre e post h; simp at h
    refine deletesLive_snoc (deletesLive_snoc (deletesLive_snoc (deletesLive_snoc (deletesLive_snoc
      (deletesLive_snoc (deletesLive_snoc h0 ?_) ?_) ?_) ?_) ?_) ?_) ?_
    all_goals
      intro e he
      simp only [DictOp.delete.injEq, reduceCtorEq] at he
      try subst he
      try (rw [live_iff_foldl]; decide)

/-- A withdrawal of an owner that was pushed out drops another valid owner: nothing wrong is
recorded, but knowledge is lost (10 is announced, never withdrawn, and the entry is not full). -/
theorem C34_lossy_delete :
    ∃ ops, AddsFresh ops ∧ DeletesLive ops ∧ Live ops 10 ∧
      dictRun dictEntrySize ops = [13, 12, 11, -1] := by
  refine ⟨((((([] ++ [.add 9]) ++ [.add 10]) ++ [.add 11]) ++ [.add 12]) ++ [.add 13]) ++
    [.delete 9], ?_, ?_, ?_, by decide⟩
  · have h0 : AddsFresh [] := by intro pre e post h; simp at h
    refine addsFresh_snoc (addsFresh_snoc (addsFresh_snoc (addsFresh_snoc (addsFresh_snoc
      (addsFresh_snoc h0 ?_) ?_) ?_) ?_) ?_) ?_
    all_goals
      intro e he
      simp only [DictOp.add.injEq, reduceCtorEq] at he
      try subst he
      try (rw [live_iff_foldl]; decide)
  · have h0 : DeletesLive [] := by intro pre e post h; simp at h
    refine deletesLive_snoc (deletesLive_snoc (deletesLive_snoc (deletesLive_snoc (deletesLive_snoc
      (deletesLive_snoc h0 ?_) ?_) ?_) ?_) ?_) ?_
    all_goals
      intro e he
      simp only [DictOp.delete.injEq, reduceCtorEq] at he
      try subst he
      try (rw [live_iff_foldl]; decide)
  · rw [live_iff_foldl]; decide

end Asagi.Props
