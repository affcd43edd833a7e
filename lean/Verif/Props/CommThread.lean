import Verif.Model.CommThread
import Mathlib.Data.List.Basic
import Mathlib.Tactic.SplitIfs
/-
Properties of the tags of the communication thread: C40.
-/
namespace Asagi.Props
open Asagi

/-- The tag of the next collective registration of `comm`. -/
def assignedTag (w : CommWorld) (comm : List Nat) : Nat := maxNextTag w comm

theorem nextTag_le_max (w : CommWorld) (comm : List Nat) (r : Nat) (h : r ∈ comm) :
    (w r).nextTag ≤ maxNextTag w comm := by
  induction comm with
  | nil => simp at h
  | cons a l ih =>
    simp only [maxNextTag, List.foldr_cons]
    rcases List.mem_cons.1 h with rfl | h
    · exact Nat.le_max_left _ _
    · exact Nat.le_trans (ih h) (Nat.le_max_right _ _)

/-- An entry of the receiver table survives everything but its own removal. -/
theorem entry_stays (r t : Nat) (d : ReceiverDetail) : ∀ (ops : List CommOp) (w : CommWorld),
    t < (w r).nextTag → (w r).receiver t = some d →
    (∀ o ∈ ops, ∀ rank tag, o = .unregister rank tag → ¬ (rank = r ∧ tag = t)) →
    t < (w.run ops r).nextTag ∧ (w.run ops r).receiver t = some d := by
  intro ops
  induction ops with
  | nil => intro w h1 h2 _; exact ⟨h1, h2⟩
  | cons o ops ih =>
    intro w h1 h2 h3
    refine ih (w.apply o) ?_ ?_ (fun x hx => h3 x (by simp [hx]))
    · cases o with
      | register comm recv =>
        simp only [CommWorld.apply, registerReceiver]
        split_ifs with hr
        · have := nextTag_le_max w comm r hr
          simp only; omega
        · exact h1
      | unregister rank tag =>
        simp only [CommWorld.apply, unregisterReceiver, upd_apply]
        split_ifs with hr
        · subst hr; exact h1
        · exact h1
    · cases o with
      | register comm recv =>
        simp only [CommWorld.apply, registerReceiver]
        split_ifs with hr
        · have := nextTag_le_max w comm r hr
          have hne : t ≠ maxNextTag w comm := by omega
          exact (upd_ne _ _ hne).trans h2
        · exact h2
      | unregister rank tag =>
        have hne := h3 (.unregister rank tag) (by simp) rank tag rfl
        simp only [CommWorld.apply, unregisterReceiver, upd_apply]
        split_ifs with hr
        · subst hr
          have hne' : t ≠ tag := fun hh => hne ⟨rfl, hh.symm⟩
          exact (upd_ne _ _ hne').trans h2
        · exact h2

theorem nextTag_mono (r t : Nat) : ∀ (ops : List CommOp) (w : CommWorld),
    t ≤ (w r).nextTag → t ≤ (w.run ops r).nextTag := by
  intro ops
  induction ops with
  | nil => intro w h; exact h
  | cons o ops ih =>
    intro w h
    refine ih (w.apply o) ?_
    cases o with
    | register comm recv =>
      simp only [CommWorld.apply, registerReceiver]
      split_ifs with hr
      · have := nextTag_le_max w comm r hr
        simp only; omega
      · exact h
    | unregister rank tag =>
      simp only [CommWorld.apply, unregisterReceiver, upd_apply]
      split_ifs with hr
      · subst hr; exact h
      · exact h

/-- **C40 (uniqueness).** Two registrations with a common member get different tags, whatever
happens before and in between (the later one gets the larger tag). -/
theorem C40_tags_unique (before between : List CommOp) (comm1 comm2 : List Nat) (recv1 : Nat → Nat)
    (r : Nat) (h1 : r ∈ comm1) (h2 : r ∈ comm2) :
    assignedTag (CommWorld.init.run before) comm1 <
      assignedTag (CommWorld.init.run (before ++ .register comm1 recv1 :: between)) comm2 := by
  have hrun : CommWorld.init.run (before ++ .register comm1 recv1 :: between) =
      (registerReceiver (CommWorld.init.run before) comm1 recv1).run between := by
    simp [CommWorld.run, List.foldl_append, CommWorld.apply]
  rw [hrun]
  refine Nat.lt_of_lt_of_le ?_ (nextTag_le_max _ comm2 r h2)
  refine nextTag_mono r _ between _ ?_
  simp [registerReceiver, h1, assignedTag]

/-- **C40 (agreement and delivery).** After a collective registration, and whatever is registered or
removed later (except this receiver itself), a message sent by member `p` with the assigned tag
to the member at position `i` is addressed to this member; and as long as less than 32766 receivers
were registered it is given to exactly the receiver object which that member registered, with
the sender's position in the communicator and unchanged data. -/
theorem C40_delivery_partial (before after : List CommOp) (comm : List Nat) (recv : Nat → Nat)
    (p q i data : Nat) (hnd : comm.Nodup) (hp : comm[p]? ≠ none) (hq : comm[i]? = some q) :
    let tag := assignedTag (CommWorld.init.run before) comm
    let w := CommWorld.init.run (before ++ .register comm recv :: after)
    (∀ o ∈ after, ∀ rank t, o = .unregister rank t → t ≠ tag ∨ rank ∉ comm) →
    ∃ pr, comm[p]? = some pr ∧
    commSend w pr tag i data = some ⟨pr, q, tag, data⟩ ∧
    (tag < 32766 → commHandle w ⟨pr, q, tag, data⟩ = .delivered (recv q) p data) := by
  intro tag w hun
  have hrun : w = (registerReceiver (CommWorld.init.run before) comm recv).run after := by
    simp [w, CommWorld.run, List.foldl_append, CommWorld.apply]
  have hmem : ∀ r ∈ comm, (w r).receiver tag = some ⟨recv r, comm⟩ := by
    intro r hr
    rw [hrun]
    refine (entry_stays r tag ⟨recv r, comm⟩ after _ ?_ ?_ ?_).2
    · simp [registerReceiver, hr, tag, assignedTag]
    · simp [registerReceiver, hr, tag, assignedTag]
    · rintro o ho rank t rfl ⟨rfl, rfl⟩
      rcases hun _ ho _ _ rfl with h | h
      · exact h rfl
      · exact h hr
  obtain ⟨pr, hpr⟩ := Option.ne_none_iff_exists'.1 hp
  have hprm : pr ∈ comm := List.mem_of_getElem? hpr
  have hqm : q ∈ comm := List.mem_of_getElem? hq
  refine ⟨pr, hpr, ?_, ?_⟩
  · simp [commSend, hmem pr hprm, hq]
  · intro ht
    simp only [commHandle, exitTag, unregTag, hmem q hqm]
    rw [if_neg (by omega), if_neg (by omega)]
    congr 1
    obtain ⟨hlt, hget⟩ := List.getElem?_eq_some_iff.1 hpr
    rw [← hget]
    exact hnd.idxOf_getElem p hlt

/-- The same communicator registers `n` times: the next tag is `n`. -/
theorem tag_after (comm : List Nat) (hc : comm ≠ []) (recv : Nat → Nat) : ∀ n : Nat,
    assignedTag (CommWorld.init.run (List.replicate n (.register comm recv))) comm = n := by
  have hmax : ∀ (w : CommWorld) (v : Nat) (l : List Nat), (∀ r ∈ l, (w r).nextTag = v) → l ≠ [] →
      maxNextTag w l = v := by
    intro w v l
    induction l with
    | nil => intro _ h; exact absurd rfl h
    | cons a l ih =>
      intro h _
      simp only [maxNextTag, List.foldr_cons]
      rw [h a (by simp)]
      by_cases hl : l = []
      · subst hl; simp
      · have := ih (fun r hr => h r (by simp [hr])) hl
        rw [maxNextTag] at this
        rw [this]; simp
  have hall : ∀ n : Nat, ∀ r ∈ comm,
      (CommWorld.init.run (List.replicate n (.register comm recv)) r).nextTag = n := by
    intro n
    induction n with
    | zero => intro r _; rfl
    | succ n ih =>
      intro r hr
      rw [List.replicate_succ', CommWorld.run, List.foldl_append]
      simp only [List.foldl_cons, List.foldl_nil, CommWorld.apply, registerReceiver, hr, if_true]
      rw [Nat.add_right_cancel_iff]
      exact hmax _ n comm ih hc
  intro n
  exact hmax _ n comm (hall n) hc

/-- **C40, violated.** With the 32767th registration the communication thread takes requests for
commands to remove a receiver (and with the 32768th one it stops), although the history contains
nothing but registrations; so the bound in `C40_delivery_partial` is necessary. -/
theorem C40_reserved_tags_violated (comm : List Nat) (hc : comm ≠ []) (recv : Nat → Nat)
    (w : CommWorld) (p q data : Nat) :
    commHandle w ⟨p, q, assignedTag (CommWorld.init.run
      (List.replicate 32766 (.register comm recv))) comm, data⟩ = .unregister data ∧
    commHandle w ⟨p, q, assignedTag (CommWorld.init.run
      (List.replicate 32767 (.register comm recv))) comm, data⟩ = .exit := by
  rw [tag_after comm hc recv 32766, tag_after comm hc recv 32767]
  exact ⟨rfl, rfl⟩

/-- Non-trivial case: two overlapping communicators. -/
example :
    let before := [CommOp.register [0, 1] id]
    let comm := [2, 1]
    let w := CommWorld.init.run (before ++ .register comm (fun r => r + 10) :: [.unregister 1 0])
    assignedTag (CommWorld.init.run before) comm = 1 ∧
    commSend w 2 1 1 77 = some ⟨2, 1, 1, 77⟩ ∧
    commHandle w ⟨2, 1, 1, 77⟩ = .delivered 11 0 77 := by decide

end Asagi.Props
