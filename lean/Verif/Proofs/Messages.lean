import Verif.Model.Messages
import Mathlib.Data.List.Basic
import Mathlib.Data.List.Count
import Mathlib.Tactic.SplitIfs
/-
Requests and replies: the invariant for tags that separate channels.
-/
namespace Asagi

/-- The tags separate the channels in `P` from all others in use. -/
def Separates (T : Tags) (uses P : Chan → Prop) : Prop :=
  (∀ c f, P c → T.reply c f ∈ T.wait c) ∧
  (∀ c c' f, uses c → uses c' → c ≠ c' → P c ∨ P c' → T.reply c f ∉ T.wait c')

/-- Invariant: an open request in `P` is either queued or answered, exactly once; replies in flight
have the tag of their channel; completed receptions in `P` got their own reply. -/
structure MsgInv (T : Tags) (uses P : Chan → Prop) (s : MsgState) : Prop where
  busy : ∀ c r, s.busy c = some r → r.chan = c
  used : ∀ r, r ∈ s.queue ∨ r ∈ s.mail.map Reply.answers → uses r.chan
  usedBusy : ∀ c r, s.busy c = some r → uses c
  one : ∀ r, P r.chan → s.busy r.chan = some r →
    s.queue.count r + (s.mail.map Reply.answers).count r = 1
  zero : ∀ r, P r.chan → s.busy r.chan ≠ some r →
    s.queue.count r + (s.mail.map Reply.answers).count r = 0
  mail : ∀ m ∈ s.mail, m.source = m.answers.rank ∧ m.tag = T.reply m.answers.chan m.found
  log : ∀ e ∈ s.log, (P e.1.chan ∨ P e.2.answers.chan) → e.2.answers = e.1

theorem MsgInv.init {T : Tags} {uses P : Chan → Prop} {s : MsgState} (h : s.init) :
    MsgInv T uses P s := by
  obtain ⟨h1, h2, h3, h4⟩ := h
  constructor
  · intro c r hr; rw [h1] at hr; simp at hr
  · intro r hr; rw [h2, h3] at hr; simp at hr
  · intro c r hr; rw [h1] at hr; simp at hr
  · intro r _ hr; rw [h1] at hr; simp at hr
  · intro r _ _; rw [h2, h3]; simp
  · intro m hm; rw [h3] at hm; simp at hm
  · intro e he; rw [h4] at he; simp at he

/-- The step, if a reply received on or for a channel in `P` is the own one. -/
theorem MsgInv.step_own {T : Tags} {uses P : Chan → Prop} {s t : MsgState}
    (h : MsgInv T uses P s) (hrecv : ∀ r m, s.busy r.chan = some r → m ∈ s.mail →
      m.source = r.rank → m.tag ∈ T.wait r.chan → P r.chan ∨ P m.answers.chan → m.answers = r)
    (st : MsgStep T uses s t) : MsgInv T uses P t := by
  cases st with
  | request r hu hb =>
    constructor
    · intro c x hx
      simp only [upd_apply] at hx
      split_ifs at hx with hc
      · simp only [Option.some.injEq] at hx; subst hx; exact hc.symm
      · exact h.busy c x hx
    · intro x hx
      simp only [List.mem_append, List.mem_singleton] at hx
      rcases hx with (hx | rfl) | hx
      · exact h.used x (Or.inl hx)
      · exact hu
      · exact h.used x (Or.inr hx)
    · intro c x hx
      simp only [upd_apply] at hx
      split_ifs at hx with hc
      · subst hc; exact hu
      · exact h.usedBusy c x hx
    · intro x hP hx
      simp only [upd_apply] at hx
      simp only [List.count_append, List.count_singleton]
      by_cases hc : x.chan = r.chan
      · rw [if_pos hc] at hx
        simp only [Option.some.injEq] at hx
        subst hx
        have := h.zero r hP (by rw [hb]; simp)
        simp; omega
      · rw [if_neg hc] at hx
        have h1 : ¬ r = x := fun hh => hc (by rw [hh])
        have := h.one x hP hx
        simp [h1]; omega
    · intro x hP hx
      simp only [upd_apply] at hx
      simp only [List.count_append, List.count_singleton]
      by_cases hc : x.chan = r.chan
      · rw [if_pos hc] at hx
        have h1 : ¬ r = x := fun hh => hx (by rw [hh])
        have := h.zero x hP (by rw [hc, hb]; simp)
        simp only [beq_iff_eq, h1, if_false]; omega
      · rw [if_neg hc] at hx
        have h1 : ¬ r = x := fun hh => hc (by rw [hh])
        have := h.zero x hP hx
        simp only [beq_iff_eq, h1, if_false]; omega
    · exact h.mail
    · exact h.log
  | answer q1 q2 r found hq hfirst =>
    constructor
    · exact h.busy
    · intro x hx
      have hu := h.used x
      rw [hq] at hu
      simp only [List.map_append, List.map_cons, List.map_nil, List.mem_append, List.mem_cons,
        List.not_mem_nil, or_false] at hx hu
      apply hu
      tauto
    · exact h.usedBusy
    · intro x hP hb
      have hx := h.one x hP hb
      rw [hq] at hx
      simp only [List.count_append, List.count_cons, List.map_append, List.map_cons, List.map_nil,
        List.count_nil] at hx ⊢
      omega
    · intro x hP hb
      have hx := h.zero x hP hb
      rw [hq] at hx
      simp only [List.count_append, List.count_cons, List.map_append, List.map_cons, List.map_nil,
        List.count_nil] at hx ⊢
      omega
    · intro m hm
      simp only [List.mem_append, List.mem_singleton] at hm
      rcases hm with hm | rfl
      · exact h.mail m hm
      · exact ⟨rfl, rfl⟩
    · exact h.log
  | receive r m1 m2 m hb hm hsrc htag hfirst =>
    have hown := hrecv r m hb (by rw [hm]; simp) hsrc htag
    constructor
    · intro c x hx
      simp only [upd_apply] at hx
      split_ifs at hx with hc
      exact h.busy c x hx
    · intro x hx
      apply h.used x
      rw [hm]
      simp only [List.map_append, List.map_cons, List.mem_append, List.mem_cons] at hx ⊢
      tauto
    · intro c x hx
      simp only [upd_apply] at hx
      split_ifs at hx with hc
      exact h.usedBusy c x hx
    · intro x hP hx
      simp only [upd_apply] at hx
      split_ifs at hx with hc
      have hne : ¬ m.answers = x := by
        intro hh
        have hmr := hown (Or.inr (by rw [hh]; exact hP))
        exact hc (by rw [← hh, hmr])
      have hx := h.one x hP hx
      rw [hm] at hx
      simp only [List.map_append, List.map_cons, List.count_append, List.count_cons, beq_iff_eq,
        hne, if_false, Nat.add_zero] at hx ⊢
      exact hx
    · intro x hP hx
      simp only [upd_apply] at hx
      simp only [List.map_append, List.count_append]
      by_cases hc : x.chan = r.chan
      · have hmr := hown (Or.inl (hc ▸ hP))
        by_cases hxr : r = x
        · subst hxr
          have h1 := h.one r hP hb
          rw [hm] at h1
          simp only [List.map_append, List.map_cons, List.count_append, hmr,
            List.count_cons_self] at h1
          omega
        · have h1 := h.zero x hP (by rw [hc, hb]; simpa using hxr)
          rw [hm] at h1
          simp only [List.map_append, List.map_cons, List.count_append, List.count_cons] at h1
          omega
      · rw [if_neg hc] at hx
        have h1 := h.zero x hP hx
        rw [hm] at h1
        simp only [List.map_append, List.map_cons, List.count_append, List.count_cons] at h1
        omega
    · intro x hx
      apply h.mail x
      rw [hm]
      simp only [List.mem_append, List.mem_cons] at hx ⊢
      tauto
    · intro e he hP
      simp only [List.mem_append, List.mem_singleton] at he
      rcases he with he | rfl
      · exact h.log e he hP
      · exact hown hP

theorem MsgInv.step {T : Tags} {uses P : Chan → Prop} (hT : Separates T uses P) {s t : MsgState}
    (h : MsgInv T uses P s) (st : MsgStep T uses s t) : MsgInv T uses P t := by
  refine h.step_own ?_ st
  intro r m hb hm hsrc htag hP
  have hmm := h.mail m hm
  have hur : uses r.chan := h.usedBusy _ _ hb
  have hum : uses m.answers.chan := h.used m.answers (Or.inr (List.mem_map.2 ⟨m, hm, rfl⟩))
  have hc : m.answers.chan = r.chan := by
    by_contra hne
    exact hT.2 _ _ m.found hum hur hne hP.symm (hmm.2 ▸ htag)
  have hPm : P m.answers.chan := by rcases hP with h1 | h1 <;> simpa [hc] using h1
  by_contra hne
  have hcnt := h.zero m.answers hPm (by
    rw [hc, hb]; simp only [ne_eq, Option.some.injEq]; exact fun hh => hne hh.symm)
  have : 0 < (s.mail.map Reply.answers).count m.answers :=
    List.count_pos_iff.2 (List.mem_map.2 ⟨m, hm, rfl⟩)
  omega

theorem MsgInv.reachable {T : Tags} {uses P : Chan → Prop} (hT : Separates T uses P) {s : MsgState}
    (h : Reachable MsgState.init (MsgStep T uses) s) : MsgInv T uses P s :=
  Reachable.invariant (I := MsgInv T uses P) (fun _ h => MsgInv.init h)
    (fun _ _ h st => MsgInv.step hT h st) h

/-- All replies have the tag of their channel and outcome. -/
theorem reply_tags {T : Tags} {uses : Chan → Prop} {s : MsgState}
    (h : Reachable MsgState.init (MsgStep T uses) s) :
    (∀ m ∈ s.mail, m.tag = T.reply m.answers.chan m.found) ∧
    (∀ e ∈ s.log, e.2.tag = T.reply e.2.answers.chan e.2.found) := by
  refine Reachable.invariant (I := fun s => (∀ m ∈ s.mail, m.tag = T.reply m.answers.chan m.found) ∧
    (∀ e ∈ s.log, e.2.tag = T.reply e.2.answers.chan e.2.found)) ?_ ?_ h
  · intro s hs
    rw [hs.2.2.1, hs.2.2.2]; simp
  · rintro s t ⟨h1, h2⟩ st
    cases st with
    | request r hu hb => exact ⟨h1, h2⟩
    | answer q1 q2 r found hq hf =>
      refine ⟨fun m hm => ?_, h2⟩
      rcases List.mem_append.1 hm with hm | hm
      · exact h1 m hm
      · rw [List.mem_singleton] at hm; subst hm; rfl
    | receive r m1 m2 m hb hm hsrc htag hf =>
      rw [hm] at h1
      refine ⟨fun x hx => h1 x ?_, fun e he => ?_⟩
      · simp only [List.mem_append, List.mem_cons] at hx ⊢; tauto
      · rcases List.mem_append.1 he with he | he
        · exact h2 e he
        · rw [List.mem_singleton] at he; subst he; exact h1 m (by simp)

theorem reserveAll_replicate (k : Nat) : ∀ (n a i : Nat), i < n →
    (reserveAll a (List.replicate n k))[i]? = some (a + i * k) := by
  intro n
  induction n with
  | zero => intro a i h; omega
  | succ n ih =>
    intro a i h
    rw [List.replicate_succ]
    simp only [reserveAll, reserveTags]
    cases i with
    | zero => simp
    | succ i =>
      rw [List.getElem?_cons_succ, ih (a + k) i (by omega), Nat.succ_mul]
      simp; omega

theorem tagOffset_eq (level : Nat) : tagOffset level = 3 * level := by
  unfold tagOffset
  rw [reserveAll_replicate 3 (level + 1) 0 level (by omega)]
  simp; omega

end Asagi

namespace Asagi

/-- In any list the first element that satisfies a decidable property. -/
theorem exists_first {α : Type} (p : α → Prop) [DecidablePred p] :
    ∀ (l : List α), (∃ x ∈ l, p x) → ∃ l1 x l2, l = l1 ++ x :: l2 ∧ p x ∧ ∀ y ∈ l1, ¬ p y := by
  intro l
  induction l with
  | nil => rintro ⟨x, hx, _⟩; simp at hx
  | cons a l ih =>
    intro h
    by_cases ha : p a
    · exact ⟨[], a, l, rfl, ha, by simp⟩
    · obtain ⟨x, hx, hp⟩ := h
      rcases List.mem_cons.1 hx with rfl | hx
      · exact absurd hp ha
      · obtain ⟨l1, y, l2, rfl, hy, hl⟩ := ih ⟨x, hx, hp⟩
        refine ⟨a :: l1, y, l2, rfl, hy, ?_⟩
        intro z hz
        rcases List.mem_cons.1 hz with rfl | hz
        · exact ha
        · exact hl z hz

/-- A waiting request is still queued, or its thread can receive now. -/
theorem MsgInv.progress {T : Tags} {uses P : Chan → Prop}
    (hT : ∀ c f, P c → T.reply c f ∈ T.wait c) {s : MsgState}
    (h : MsgInv T uses P s) {c : Chan} {r : Req} (hP : P c) (hb : s.busy c = some r) :
    r ∈ s.queue ∨ ∃ t, MsgStep T uses s t ∧ t.busy c = none := by
  have hc := h.busy c r hb
  subst hc
  have h1 := h.one r hP hb
  by_cases hq : r ∈ s.queue
  · exact Or.inl hq
  right
  rw [List.count_eq_zero.2 hq] at h1
  have hm0 : r ∈ s.mail.map Reply.answers := List.count_pos_iff.1 (by omega)
  obtain ⟨m, hm, rfl⟩ := List.mem_map.1 hm0
  have hmm := h.mail m hm
  obtain ⟨m1, x, m2, hx, hp, hfirst⟩ := exists_first
    (fun x : Reply => x.source = m.source ∧ x.tag = m.tag) s.mail ⟨m, hm, rfl, rfl⟩
  refine ⟨_, MsgStep.receive m.answers m1 m2 x hb hx (hp.1.trans hmm.1) ?_ ?_, ?_⟩
  · rw [hp.2, hmm.2]; exact hT _ _ hP
  · intro y hy hh
    exact hfirst y hy ⟨hh.1.trans hp.1, hh.2.trans hp.2⟩
  · simp

/-- Open requests of different channels go to different processes. -/
def MsgState.exclusive (s : MsgState) : Prop :=
  ∀ c c' r r', s.busy c = some r → s.busy c' = some r' → r.rank = r'.rank → c = c'

/-- Steps after which open requests of different channels go to different processes. -/
def MsgStepExcl (T : Tags) (uses : Chan → Prop) (s t : MsgState) : Prop :=
  MsgStep T uses s t ∧ t.exclusive

theorem MsgInv.reachable_excl {T : Tags} {uses : Chan → Prop} {s : MsgState}
    (h : Reachable MsgState.init (MsgStepExcl T uses) s) :
    MsgInv T uses (fun _ => True) s ∧ s.exclusive := by
  refine Reachable.invariant (I := fun s => MsgInv T uses (fun _ => True) s ∧ s.exclusive)
    ?_ ?_ h
  · intro s hs
    refine ⟨MsgInv.init hs, ?_⟩
    intro c c' r r' hr
    rw [hs.1] at hr; simp at hr
  · rintro s t ⟨hi, he⟩ ⟨st, he'⟩
    refine ⟨hi.step_own ?_ st, he'⟩
    intro r m hb hm hsrc _ _
    have hpos : 0 < (s.mail.map Reply.answers).count m.answers :=
      List.count_pos_iff.2 (List.mem_map.2 ⟨m, hm, rfl⟩)
    have hmb : s.busy m.answers.chan = some m.answers := by
      by_contra hne
      have := hi.zero m.answers trivial hne
      omega
    have hc := he _ _ _ _ hmb hb (by rw [← (hi.mail m hm).1, hsrc])
    rw [hc, hb] at hmb
    injection hmb with hmb
    exact hmb.symm

end Asagi
