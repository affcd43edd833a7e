import Verif.Proofs.Messages
/-
Properties of requests between processes through the communication thread: the tags (C37 in part,
C38, C39, and the reservation of tags in C40).
-/
namespace Asagi.Props
open Asagi

/-- What a user of the request mechanism expects for the channels in `P`: every completed request
received its own reply, and every waiting request is either still to be answered or can be
completed at once. -/
def RequestsServed (T : Tags) (uses P : Chan → Prop) (s : MsgState) : Prop :=
  (∀ e ∈ s.log, P e.1.chan → e.2.answers = e.1) ∧
  (∀ c r, P c → s.busy c = some r →
    r ∈ s.queue ∨ ∃ t, MsgStep T uses s t ∧ t.busy c = none)

theorem served_of_separates {T : Tags} {uses P : Chan → Prop} (hT : Separates T uses P)
    {s : MsgState} (h : Reachable MsgState.init (MsgStep T uses) s) : RequestsServed T uses P s := by
  have hi := MsgInv.reachable hT h
  exact ⟨fun e he hP => hi.log e he (Or.inl hP), fun c r hP hb => hi.progress hT.1 hP hb⟩

/-! ### C37, C38 -/

/-- **C37 (messages).** With any number of levels, block requests through the communication thread
get their own reply (found or not found), in every interleaving with directory requests and block
requests of all levels. -/
theorem C37_block_replies (n : Nat) {s : MsgState}
    (h : Reachable MsgState.init (MsgStep tagsCache (usesCache n)) s) :
    RequestsServed tagsCache (usesCache n) (fun c => c.info = false) s := by
  refine served_of_separates ⟨?_, ?_⟩ h
  · intro c f hc
    simp only [tagsCache, hc, Bool.false_eq_true, if_false]
    cases f <;> simp
  · rintro ⟨l, i⟩ ⟨l', i'⟩ f - - hne hP
    simp only at hP
    simp only [tagsCache, tagOffset_eq, Nat.add_zero]
    cases i <;> cases i' <;> cases f <;>
      simp_all <;> omega

/-- **C37 (outcome).** A thread whose block request is completed knows the outcome: it takes the
reply as the block if and only if the other process has found the block and sends it. -/
theorem C37_block_outcome (n : Nat) {s : MsgState}
    (h : Reachable MsgState.init (MsgStep tagsCache (usesCache n)) s) :
    ∀ e ∈ s.log, e.1.chan.info = false →
      (transferred e.1.chan.level e.2.tag = true ↔ e.2.found = true) := by
  intro e he hi
  have h1 := (C37_block_replies n h).1 e he hi
  have h2 := (reply_tags h).2 e he
  rw [h1] at h2
  rw [h2]
  cases hf : e.2.found <;> simp [tagsCache, transferred, hi]

/-- **C38, violated.** On every level but the first no directory request ever receives its own
reply, however many levels there are and whatever the schedule. -/
theorem C38_directory_reply_violated (n : Nat) {s : MsgState}
    (h : Reachable MsgState.init (MsgStep tagsCache (usesCache n)) s) :
    ∀ e ∈ s.log, e.1.chan.info = true → 1 ≤ e.1.chan.level → e.2.answers ≠ e.1 := by
  have inv : (∀ e ∈ s.log, e.1.chan.info = true → 1 ≤ e.1.chan.level → e.2.answers ≠ e.1) ∧
      MsgInv tagsCache (usesCache n) (fun _ => False) s := by
    refine Reachable.invariant (I := fun s => (∀ e ∈ s.log, e.1.chan.info = true →
      1 ≤ e.1.chan.level → e.2.answers ≠ e.1) ∧
      MsgInv tagsCache (usesCache n) (fun _ => False) s) ?_ ?_ h
    · intro s hs
      refine ⟨?_, MsgInv.init hs⟩
      rw [hs.2.2.2]; simp
    · rintro s t ⟨h1, h2⟩ st
      refine ⟨?_, h2.step ⟨fun _ _ h => h.elim, fun _ _ _ _ _ _ h => (h.elim id id : False).elim⟩ st⟩
      cases st with
      | request => exact h1
      | answer => exact h1
      | receive r m1 m2 m hb hm hsrc htag hfirst =>
        intro e he
        simp only [List.mem_append, List.mem_singleton] at he
        rcases he with he | rfl
        · exact h1 e he
        · intro hinfo hlev heq
          have hmm := (h2.mail m (by rw [hm]; simp)).2
          simp only at hinfo hlev heq
          rw [hmm, heq] at htag
          simp only [tagsCache, hinfo, if_true, List.mem_singleton, tagOffset_eq] at htag
          omega
  exact inv.1

/-- The situation of `C38_directory_reply_violated` is reachable: with two levels a request on level
1 is answered, but the thread cannot receive the answer and waits forever unless another level's
reply is stolen. -/
theorem C38_directory_wait_violated : ∃ s : MsgState,
    Reachable MsgState.init (MsgStep tagsCache (usesCache 2)) s ∧
    s.busy ⟨1, true⟩ = some ⟨0, ⟨1, true⟩⟩ ∧ s.queue = [] ∧
    ∀ m ∈ s.mail, m.tag ∉ tagsCache.wait ⟨1, true⟩ := by
  let r : Req := ⟨0, ⟨1, true⟩⟩
  let s0 : MsgState := ⟨fun _ => none, [], [], []⟩
  have h0 : Reachable MsgState.init (MsgStep tagsCache (usesCache 2)) s0 :=
    .init ⟨fun _ => rfl, rfl, rfl, rfl⟩
  have h1 := Reachable.step h0 (MsgStep.request r (by decide : 1 < 2) rfl)
  have h2 := Reachable.step h1 (MsgStep.answer [] [] r false rfl (by simp))
  refine ⟨_, h2, by simp [r], rfl, ?_⟩
  intro m hm
  simp only [s0, List.nil_append, List.mem_singleton] at hm
  subst hm
  simp only [tagsCache, r, if_true, tagOffset_eq]
  decide

/-- **C38, partial.** Proved: with one level all requests (directory and block) are served. Missing
(and false): more levels. -/
theorem C38_one_level_partial {s : MsgState}
    (h : Reachable MsgState.init (MsgStep tagsCache (usesCache 1)) s) :
    RequestsServed tagsCache (usesCache 1) (fun c => c.level = 0) s := by
  refine served_of_separates ⟨?_, ?_⟩ h
  · rintro ⟨l, i⟩ f hc
    simp only at hc
    subst hc
    cases i <;> cases f <;> simp [tagsCache, tagOffset_eq]
  · rintro ⟨l, i⟩ ⟨l', i'⟩ f hu hu' hne -
    simp only [usesCache] at hu hu'
    obtain rfl : l = 0 := by omega
    obtain rfl : l' = 0 := by omega
    cases i <;> cases i' <;> cases f <;> simp_all [tagsCache, tagOffset_eq]

/-! ### C39 -/

/-- **C39, violated.** With two levels, a thread that asked for a block of level 1 can receive the
block of level 0. -/
theorem C39_levels_mix_violated : ∃ s : MsgState,
    Reachable MsgState.init (MsgStep tagsFull (usesFull 2)) s ∧
    ∃ e ∈ s.log, e.1.chan.level = 1 ∧ e.2.answers.chan.level = 0 := by
  let r0 : Req := ⟨5, ⟨0, false⟩⟩
  let r1 : Req := ⟨5, ⟨1, false⟩⟩
  let s0 : MsgState := ⟨fun _ => none, [], [], []⟩
  have h0 : Reachable MsgState.init (MsgStep tagsFull (usesFull 2)) s0 :=
    .init ⟨fun _ => rfl, rfl, rfl, rfl⟩
  have h1 := Reachable.step h0 (MsgStep.request r0 (by simp [usesFull, r0]) rfl)
  have h2 := Reachable.step h1 (MsgStep.request r1 (by simp [usesFull, r1])
    (by simp [upd, r0, r1, s0]))
  have h3 := Reachable.step h2 (MsgStep.answer [] [r1] r0 true rfl (by simp))
  have h4 := Reachable.step h3 (MsgStep.receive r1 [] [] ⟨5, 0, r0, true⟩
    (by simp [upd]) rfl rfl (by simp [tagsFull]) (by simp))
  exact ⟨_, h4, (r1, ⟨5, 0, r0, true⟩), by simp [s0], rfl, rfl⟩

/-- **C39, partial.** Proved: with one level every request gets its own reply. Missing (and false):
more levels. -/
theorem C39_one_level_partial {s : MsgState}
    (h : Reachable MsgState.init (MsgStep tagsFull (usesFull 1)) s) :
    RequestsServed tagsFull (usesFull 1) (fun c => c.level = 0) s := by
  refine served_of_separates ⟨?_, ?_⟩ h
  · intro c f _; simp [tagsFull]
  · rintro ⟨l, i⟩ ⟨l', i'⟩ f ⟨hu, hi⟩ ⟨hu', hi'⟩ hne -
    simp only at hu hu' hi hi'
    exact absurd (by rw [hi, hi']; congr 1; omega) hne

/-- **C39, partial (several levels).** Proved: with any number of levels every request gets its own reply
and can be completed, in all executions in which a process never asks the same process for blocks of two
levels at the same time (for example, if one thread uses the grid). Missing (and false): the other
executions, see `C39_levels_mix_violated`. -/
theorem C39_exclusive_partial (n : Nat) {s : MsgState}
    (h : Reachable MsgState.init (MsgStepExcl tagsFull (usesFull n)) s) :
    RequestsServed tagsFull (usesFull n) (fun _ => True) s := by
  obtain ⟨hi, -⟩ := MsgInv.reachable_excl h
  exact ⟨fun e he _ => hi.log e he (Or.inl trivial),
    fun c r _ hb => hi.progress (fun _ _ _ => by simp [tagsFull]) trivial hb⟩

/-- Levels 0 and 1 are read from different processes at the same time. -/
example : ∃ s : MsgState, Reachable MsgState.init (MsgStepExcl tagsFull (usesFull 2)) s ∧
    s.busy ⟨0, false⟩ = some ⟨5, ⟨0, false⟩⟩ ∧ s.busy ⟨1, false⟩ = some ⟨6, ⟨1, false⟩⟩ := by
  let r0 : Req := ⟨5, ⟨0, false⟩⟩
  let r1 : Req := ⟨6, ⟨1, false⟩⟩
  let s0 : MsgState := ⟨fun _ => none, [], [], []⟩
  have h0 : Reachable MsgState.init (MsgStepExcl tagsFull (usesFull 2)) s0 :=
    .init ⟨fun _ => rfl, rfl, rfl, rfl⟩
  have h1 := Reachable.step h0 ⟨MsgStep.request r0 (by simp [usesFull, r0]) rfl, (by
    intro c c' r r' h h'
    simp only [upd_apply, s0] at h h'
    split_ifs at h h' with e e'
    intro _; rw [e, e'])⟩
  have h2 := Reachable.step h1 ⟨MsgStep.request r1 (by simp [usesFull, r1])
    (by simp [upd, r0, r1, s0]), (by
    intro c c' r r' h h'
    simp only [upd_apply, s0] at h h'
    split_ifs at h h' with e1 e2 e3 e4 e5 <;> simp_all <;> subst h <;> subst h' <;> simp [r0, r1])⟩
  exact ⟨_, h2, by simp [upd, r0, r1], by simp [upd, r1]⟩

/-- Non-trivial case: a completed exchange. -/
example : ∃ s : MsgState, Reachable MsgState.init (MsgStep tagsCache (usesCache 3)) s ∧
    s.log = [(⟨4, ⟨2, false⟩⟩, ⟨4, 7, ⟨4, ⟨2, false⟩⟩, true⟩)] := by
  let r : Req := ⟨4, ⟨2, false⟩⟩
  let s0 : MsgState := ⟨fun _ => none, [], [], []⟩
  have h0 : Reachable MsgState.init (MsgStep tagsCache (usesCache 3)) s0 :=
    .init ⟨fun _ => rfl, rfl, rfl, rfl⟩
  have h1 := Reachable.step h0 (MsgStep.request r (by decide : 2 < 3) rfl)
  have h2 := Reachable.step h1 (MsgStep.answer [] [] r true rfl (by simp))
  have ht : tagsCache.reply r.chan true = 7 := by simp [tagsCache, tagOffset_eq, r]
  have h3 := Reachable.step h2 (MsgStep.receive r [] [] ⟨4, 7, r, true⟩
    (by simp) (by rw [ht]) rfl (by simp [tagsCache, tagOffset_eq, r]) (by simp))
  exact ⟨_, h3, rfl⟩

/-! ### C40: reservation of tags -/

/-- **C40 (reservation).** The ranges of tags returned by a sequence of reservations do not
overlap: the range of a later reservation begins at or after the end of an earlier one. -/
theorem C40_reserved_ranges (nums : List Nat) (next i j a b n : Nat) (hij : i < j)
    (ha : (reserveAll next nums)[i]? = some a) (hn : nums[i]? = some n)
    (hb : (reserveAll next nums)[j]? = some b) : a + n ≤ b := by
  have hlow : ∀ (nums : List Nat) (next j b : Nat), (reserveAll next nums)[j]? = some b →
      next ≤ b := by
    intro nums
    induction nums with
    | nil => intro next j b h; simp [reserveAll] at h
    | cons m ms ih =>
      intro next j b h
      cases j with
      | zero => simp only [reserveAll, reserveTags, List.getElem?_cons_zero, Option.some.injEq] at h; omega
      | succ j =>
        simp only [reserveAll, reserveTags, List.getElem?_cons_succ] at h
        have := ih _ _ _ h; omega
  induction nums generalizing next i j with
  | nil => simp [reserveAll] at ha
  | cons m ms ih =>
    cases j with
    | zero => omega
    | succ j =>
      simp only [reserveAll, reserveTags, List.getElem?_cons_succ] at hb
      cases i with
      | zero =>
        simp only [reserveAll, reserveTags, List.getElem?_cons_zero, Option.some.injEq] at ha hn
        have := hlow _ _ _ _ hb; omega
      | succ i =>
        simp only [reserveAll, reserveTags, List.getElem?_cons_succ] at ha hn
        exact ih (next + m) i j (by omega) ha hn hb

example : (reserveAll 0 [3, 1, 3])[2]? = some 4 := by decide

end Asagi.Props
