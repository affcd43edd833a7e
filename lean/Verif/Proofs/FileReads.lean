import Verif.Proofs.CacheCount
import Verif.Proofs.CacheDistStep
import Verif.Proofs.CacheDistLive
import Verif.Spec.FileReads
/-
When blocks are copied into the caches, and from where.
-/
namespace Asagi
open Spec
variable {β : Type}

/-! ### Lists of events -/

/-- There was an event of the first kind, and none of the second kind since. -/
def Recent (R E : Event → Prop) (ev : List Event) : Prop :=
  ∃ pre x mid, ev = pre ++ x :: mid ∧ R x ∧ ∀ z ∈ mid, ¬ E z

theorem recent_nil {R E : Event → Prop} : ¬ Recent R E [] := by
  rintro ⟨pre, x, mid, h, -⟩
  have := congrArg List.length h
  simp at this

theorem recent_snoc {R E : Event → Prop} {ev : List Event} {y : Event} :
    Recent R E (ev ++ [y]) ↔ R y ∨ (Recent R E ev ∧ ¬ E y) := by
  constructor
  · rintro ⟨pre, x, mid, h, hx, hm⟩
    rcases List.eq_nil_or_concat mid with rfl | ⟨mid', z, rfl⟩
    · obtain ⟨-, h2⟩ := List.append_inj' h rfl
      injection h2 with h2; subst h2; exact .inl hx
    · rw [List.concat_eq_append] at h hm
      have h' : ev ++ [y] = (pre ++ x :: mid') ++ [z] := by rw [h]; simp
      obtain ⟨h1, h2⟩ := List.append_inj' h' rfl
      injection h2 with h2; subst h2
      exact .inr ⟨⟨pre, x, mid', h1, hx, fun z hz => hm z (by simp [hz])⟩, hm y (by simp)⟩
  · rintro (hy | ⟨⟨pre, x, mid, rfl, hx, hm⟩, hy⟩)
    · exact ⟨ev, y, [], rfl, hy, by simp⟩
    · refine ⟨pre, x, mid ++ [y], by simp, hx, ?_⟩
      intro z hz
      rcases List.mem_append.1 hz with hz | hz
      · exact hm z hz
      · rw [List.mem_singleton.1 hz]; exact hy

theorem between_nil {R E : Event → Prop} : Between R E [] := by
  intro pre x mid y post h
  have := congrArg List.length h
  simp at this

theorem between_snoc {R E : Event → Prop} {ev : List Event} {w : Event} (h : Between R E ev)
    (hw : R w → ¬ Recent R E ev) : Between R E (ev ++ [w]) := by
  intro pre x mid y post he hx hy
  rcases List.eq_nil_or_concat post with rfl | ⟨post', z, rfl⟩
  · obtain ⟨h1, h2⟩ := List.append_inj' he rfl
    injection h2 with h2; subst h2
    by_contra hn
    exact hw hy ⟨pre, x, mid, h1, hx, fun z hz hz' => hn ⟨z, hz, hz'⟩⟩
  · rw [List.concat_eq_append] at he
    have he' : ev ++ [w] = (pre ++ x :: mid ++ y :: post') ++ [z] := by rw [he]; simp
    obtain ⟨h1, -⟩ := List.append_inj' he' rfl
    exact h pre x mid y post' h1 hx hy

/-! ### The steps of the threads -/

/-- What a step of thread `t` is. -/
inductive Shape (P : DistParams β) (t : Nat) (st st' : DistState β) : Prop
  | call (b off : Nat) : st.pc (.user t) = .idle →
      st' = { st with pc := upd st.pc (.user t) (.wantCm b off) } → Shape P t st st'
  | look (b off s : Nat) (c' : CacheList) (old : Option Nat) :
      st.pc (.user t) = .wantCm b off → st.cm (P.dom t) = none →
      (st.cl (P.dom t)).get b = .ok (c', s, old) →
      st' = { st with
        cl := upd st.cl (P.dom t) c'
        cm := upd st.cm (P.dom t) (some (.user t))
        pc := upd st.pc (.user t) (.wantSlot b off s old) } → Shape P t st st'
  | lock (b off s : Nat) (old : Option Nat) :
      st.pc (.user t) = .wantSlot b off s old → st.lk (P.dom t, s) = none →
      st' = { st with
        lk := upd st.lk (P.dom t, s) (some (.user t))
        cm := upd st.cm (P.dom t) none
        pc := upd st.pc (.user t) (.own b off s (if old = some b then .use else .del old)) } →
      Shape P t st st'
  | ret (b off s : Nat) (v : β) : st.pc (.user t) = .own b off s (.out v) →
      st' = { st with
        lk := upd st.lk (P.dom t, s) none
        pc := upd st.pc (.user t) .idle } → Shape P t st st'
  | own (b off s : Nat) (ph ph' : Phase β) : OwnStep P st st' t b off s ph ph' → OwnMove ph ph' →
      Shape P t st st'

theorem preCopy_fills {ph : Phase β} (h : preCopy ph = true) : fills ph = true := by
  cases ph <;> first | rfl | cases h

theorem OwnMove.fills {ph ph' : Phase β} (h : OwnMove ph ph') (hf : fills ph' = true) :
    fills ph = true := by
  cases h
  case pre h1 _ => exact preCopy_fills h1
  all_goals first | rfl | cases hf

theorem user_shape {P : DistParams β} {t : Nat} {st st' : DistState β} (hs : UserStep P t st st') :
    Shape P t st st' := by
  have mk : ∀ (b off s : Nat) (ph ph' : Phase β), st.pc (.user t) = .own b off s ph →
      st'.pc = upd st.pc (.user t) (.own b off s ph') → st'.cl = st.cl → OwnMove ph ph' → Shape P t st st' :=
    fun b off s ph ph' h1 h2 h3 m => .own b off s ph ph' ⟨h1, h2, h3, m.fills⟩ m
  cases hs
  case call b off h1 h => exact .call b off h rfl
  case lookup b off s c' old h hcm hg => exact .look b off s c' old h hcm hg rfl
  case lockSlot b off s old h hl => exact .lock b off s old h hl rfl
  case unlock b off s v h => exact .ret b off s v h rfl
  all_goals
    first
      | exact mk _ _ _ _ _ (by assumption) rfl rfl (.pre rfl rfl)
      | exact mk _ _ _ _ _ (by assumption) rfl rfl (by constructor)
      | exact mk _ _ _ _ _ (by assumption) (by simp only [DistState.goto, sendOp_pc]; rfl)
          (by simp only [DistState.goto, sendOp_cl]) (.pre rfl rfl)
      | exact mk _ _ _ _ _ (by assumption) (by simp only [DistState.goto, sendOp_pc]; rfl)
          (by simp only [DistState.goto, sendOp_cl]) (by constructor)

section
variable {P : DistParams β} {st st' : DistState β} {t : Nat}

theorem Shape.other (h : Shape P t st st') {a : Agent} (ha : a ≠ .user t) : st'.pc a = st.pc a := by
  cases h with
  | call b off h1 h2 => subst h2; exact upd_ne _ _ ha
  | look b off s c' old h1 h2 h3 h4 => subst h4; exact upd_ne _ _ ha
  | lock b off s old h1 h2 h3 => subst h3; exact upd_ne _ _ ha
  | ret b off s v h1 h2 => subst h2; exact upd_ne _ _ ha
  | own b off s ph ph' o m => rw [o.epc]; exact upd_ne _ _ ha

/-- A block that waits for its eviction is not in the index. -/
def Leaving (P : DistParams β) (st : DistState β) : Prop :=
  ∀ t b off s o, st.pc (.user t) = .wantSlot b off s (some o) → o ≠ b → ∀ s', ¬ Idx st (P.dom t) s' o

/-- A block belongs in at most one slot of a domain. -/
theorem DistInv.assigned_inj (h : DistInv P st) (hw : Leaving P st) {d s s' b : Nat}
    (h1 : Assigned P st d s b) (h2 : Assigned P st d s' b) : s = s' := by
  have bij : ∀ {s s'}, Idx st d s b → Idx st d s' b → s = s' := by
    intro s s' h1 h2
    obtain ⟨h0, inv, -⟩ := h.lists d
    have e1 := (inv.bij b s).2 h1
    have e2 := (inv.bij b s').2 h2
    rw [e1] at e2; injection e2
  have key : ∀ {s s' : Nat}, (∃ t b' off, st.pc (.user t) = .wantSlot b' off s (some b) ∧ P.dom t = d) →
      (∀ t b' off old, st.pc (.user t) = .wantSlot b' off s' old → P.dom t ≠ d) → Idx st d s' b → False := by
    intro s s' ⟨u, b', off, hp, hd⟩ hn hi
    by_cases hb : b = b'
    · subst hb
      have h3 := (h.want u b off s _ hp).2.2
      rw [hd] at h3
      have := bij h3 hi
      subst this
      exact hn u b off _ hp hd
    · exact hw u b' off s b hp hb s' (hd ▸ hi)
  rcases h1 with h1 | ⟨n1, i1⟩ <;> rcases h2 with h2 | ⟨n2, i2⟩
  · obtain ⟨u, b1, off1, hp1, hd1⟩ := h1
    obtain ⟨u', b2, off2, hp2, hd2⟩ := h2
    have := h.want_unique hp1 hp2 (hd1.trans hd2.symm)
    subst this
    rw [hp1] at hp2; injection hp2
  · exact (key h1 n2 i2).elim
  · exact (key h2 n1 i1).elim
  · exact bij i1 i2

/-- Two threads with the same block in the same domain are the same. -/
theorem DistInv.own_block (h : DistInv P st) (hw : Leaving P st) {u b off s off' s' : Nat} {ph ph' : Phase β}
    (hp : st.pc (.user t) = .own b off s ph) (hu : st.pc (.user u) = .own b off' s' ph')
    (hd : P.dom t = P.dom u) : t = u := by
  have h1 := (h.own t _ _ _ _ hp).2.2
  have h2 := (h.own u _ _ _ _ hu).2.2
  rw [← hd] at h2
  have := h.assigned_inj hw h1 h2
  subst this
  exact h.own_unique hp hu hd

/-- A thread that waits for a slot for a new block: the block is nowhere in the domain. -/
theorem DistInv.want_new (h : DistInv P st) {b off s : Nat} {old : Option Nat}
    (hp : st.pc (.user t) = .wantSlot b off s old) (ho : old ≠ some b) (s' : Nat) :
    ¬ Assigned P st (P.dom t) s' b := by
  rintro (⟨u, b1, off1, hp1, hd1⟩ | ⟨hn, hi⟩)
  · have := h.want_unique hp1 hp hd1
    subst this
    rw [hp1] at hp; injection hp with _ _ _ e; exact ho e.symm
  · obtain ⟨h0, inv, -⟩ := h.lists (P.dom t)
    have e1 := (inv.bij b s).2 (h.want t b off s _ hp).2.2
    have e2 := (inv.bij b s').2 hi
    rw [e1] at e2; injection e2 with e2
    subst e2
    exact hn t b off _ hp rfl

theorem Shape.leaving (hs : Shape P t st st') (h : DistInv P st) (hw : Leaving P st) : Leaving P st' := by
  intro u b off s o hp ho s' hi
  cases hs with
  | call b1 off1 h1 h2 =>
    subst h2
    by_cases hu : u = t
    · subst hu; simp at hp
    · simp only [upd_uu hu] at hp; exact hw u b off s o hp ho s' hi
  | look b1 off1 s1 c' old h1 h2 h3 h4 =>
    subst h4
    by_cases hu : u = t
    · subst hu
      simp only [upd_self, Pc.wantSlot.injEq] at hp
      obtain ⟨rfl, rfl, rfl, rfl⟩ := hp
      obtain ⟨h0, inv, -⟩ := h.lists (P.dom u)
      obtain ⟨c1, s2, o2, e, inv', -, -, e4, hcase⟩ := inv.get b1
      rw [h3] at e; injection e with e; injection e with e1 e2; injection e2 with e2 e3
      subst e1 e2 e3
      rcases hcase with ⟨-, g, -⟩ | ⟨-, -, g3, g4, -⟩
      · injection g with g; exact ho g
      · simp only [Idx, upd_self] at hi
        rw [g4, List.getElem?_set] at hi
        split at hi
        · split at hi
          · injection hi with hi; injection hi with hi; exact ho hi.symm
          · cases hi
        · next hne =>
          have k1 := (inv.bij o _).2 g3
          have k2 := (inv.bij o _).2 hi
          rw [k1] at k2; injection k2 with k2; exact hne k2
    · simp only [upd_uu hu] at hp
      have hd : P.dom u ≠ P.dom t := by
        intro hd
        have := (h.cm (P.dom u) (.user u)).2 (by rw [hp]; rfl)
        rw [hd, h2] at this; cases this
      simp only [Idx, upd_ne _ _ hd] at hi
      exact hw u b off s o hp ho s' hi
  | lock b1 off1 s1 old h1 h2 h3 =>
    subst h3
    by_cases hu : u = t
    · subst hu; simp at hp
    · simp only [upd_uu hu] at hp; exact hw u b off s o hp ho s' hi
  | ret b1 off1 s1 v h1 h2 =>
    subst h2
    by_cases hu : u = t
    · subst hu; simp at hp
    · simp only [upd_uu hu] at hp; exact hw u b off s o hp ho s' hi
  | own b1 off1 s1 ph ph' o1 m =>
    refine hw u b off s o ((o1.ew ..).1 hp) ho s' ?_
    unfold Idx at hi ⊢; rwa [← o1.ecl]

/-- A block stays where it is, except that a thread takes its slot. -/
theorem Shape.assigned (hs : Shape P t st st') (h : DistInv P st) {d s b : Nat}
    (ha : Assigned P st d s b) : Assigned P st' d s b ∨
      (∃ b' off, st.pc (.user t) = .wantSlot b' off s (some b) ∧ b ≠ b' ∧ P.dom t = d ∧
        st'.pc (.user t) = .own b' off s (.del (some b))) := by
  cases hs with
  | call b1 off1 h1 h2 =>
    refine .inl ((assigned_frame (by rw [h2]) ?_ d s b).2 ha)
    intro u b2 off2 s2 old2
    rw [h2]
    by_cases hu : u = t
    · subst hu; simp [h1]
    · simp only [upd_uu hu]
  | look b1 off1 s1 c' old h1 h2 h3 h4 =>
    subst h4; exact .inl ((h.lookup_assigned h1 h2 h3 d s b).2 ha)
  | ret b1 off1 s1 v h1 h2 =>
    refine .inl ((assigned_frame (by rw [h2]) ?_ d s b).2 ha)
    intro u b2 off2 s2 old2
    rw [h2]
    by_cases hu : u = t
    · subst hu; simp [h1]
    · simp only [upd_uu hu]
  | own b1 off1 s1 ph ph' o1 m => exact .inl ((o1.assigned d s b).2 ha)
  | lock b1 off1 s1 old h1 h2 h3 =>
    subst h3
    rcases ha with ⟨u, b2, off2, hp, hd⟩ | ⟨hn, hi⟩
    · by_cases hu : u = t
      · subst hu
        rw [h1] at hp
        injection hp with e1 e2 e3 e4
        subst e1 e2 e3 e4 hd
        by_cases hb : b = b1
        · subst hb
          refine .inl (.inr ⟨?_, (h.want u b off1 s1 _ h1).2.2⟩)
          intro v b3 off3 old3 hv
          by_cases hv' : v = u
          · subst hv'; simp at hv
          · simp only [upd_uu hv'] at hv
            exact fun e => hv' (h.want_unique hv h1 e)
        · refine .inr ⟨b1, off1, h1, hb, rfl, ?_⟩
          have : ¬ (some b = some b1) := fun e => hb (Option.some.inj e)
          simp [this]
      · exact .inl (.inl ⟨u, b2, off2, by simp only [upd_uu hu]; exact hp, hd⟩)
    · refine .inl (.inr ⟨?_, hi⟩)
      intro v b3 off3 old3 hv
      by_cases hv' : v = t
      · subst hv'; simp at hv
      · simp only [upd_uu hv'] at hv; exact hn v b3 off3 old3 hv

end

/-! ### A domain copies a block only if it does not have it -/

/-- The block of a thread and the events of a step. -/
theorem events_own {d b off s : Nat} {ph ph' : Phase β} (m : OwnMove ph ph') :
    (events d (.own b off s ph) (.own b off s ph') = [] ∧ (preCopy ph' = true → preCopy ph = true)) ∨
      (∃ k, events d (.own b off s ph) (.own b off s ph') = [.fill d b k] ∧ preCopy ph = true ∧
        preCopy ph' = false) := by
  cases m
  case pre h1 h2 =>
    refine .inl ⟨?_, fun _ => h1⟩
    revert h2
    cases ph' <;> simp [events, copiesFrom, preCopy]
  all_goals
    first
      | (refine .inl ⟨rfl, ?_⟩; simp [preCopy])
      | exact .inr ⟨_, rfl, rfl, rfl⟩

structure FillOK (P : DistParams β) (st : DistState β) (ev : List Event) : Prop where
  leaving : Leaving P st
  has : ∀ d b, Recent (FillOf d b) (· = .evict d b) ev → ∃ s, Assigned P st d s b
  pre : ∀ t b off s ph, st.pc (.user t) = .own b off s ph → preCopy ph = true →
    ¬ Recent (FillOf (P.dom t) b) (· = .evict (P.dom t) b) ev
  btw : ∀ d b, Between (FillOf d b) (· = .evict d b) ev

theorem FillOK.user {P : DistParams β} {st st' : DistState β} {ev : List Event} {t : Nat}
    (hs : Shape P t st st') (h : DistInv P st) (h' : DistInv P st') (f : FillOK P st ev) :
    FillOK P st' (ev ++ events (P.dom t) (st.pc (.user t)) (st'.pc (.user t))) := by
  have hL := hs.leaving h f.leaving
  -- a step without an event that matters
  have quiet : ∀ x : List Event, (x = [] ∨ ∃ y, x = [y] ∧ (∀ d b, ¬ FillOf d b y ∧ y ≠ .evict d b)) →
      (∀ d s b, Assigned P st d s b → Assigned P st' d s b) →
      (∀ b off s ph, st'.pc (.user t) = .own b off s ph → preCopy ph = true →
        ¬ Recent (FillOf (P.dom t) b) (· = .evict (P.dom t) b) ev) → FillOK P st' (ev ++ x) := by
    intro x hx ha hp
    have hr : ∀ d b, Recent (FillOf d b) (· = .evict d b) (ev ++ x) →
        Recent (FillOf d b) (· = .evict d b) ev := by
      intro d b hr
      rcases hx with rfl | ⟨y, rfl, hy⟩
      · simpa using hr
      · rcases recent_snoc.1 hr with h | h
        · exact absurd h (hy d b).1
        · exact h.1
    refine ⟨hL, fun d b hr' => ?_, fun u b off s ph hu hph hr' => ?_, fun d b => ?_⟩
    · obtain ⟨s, hs⟩ := f.has d b (hr d b hr'); exact ⟨s, ha d s b hs⟩
    · by_cases hut : u = t
      · subst hut; exact hp b off s ph hu hph (hr _ _ hr')
      · rw [hs.other (by simpa using hut)] at hu
        exact f.pre u b off s ph hu hph (hr _ _ hr')
    · rcases hx with rfl | ⟨y, rfl, hy⟩
      · simpa using f.btw d b
      · exact between_snoc (f.btw d b) fun h => absurd h (hy d b).1
  have hs0 := hs
  cases hs with
  | call b off h1 h2 =>
    subst h2
    simp only [h1, upd_self, events]
    refine quiet _ (.inr ⟨_, rfl, by simp [FillOf]⟩) (fun d s b1 ha => ?_) (by simp)
    rcases hs0.assigned h ha with h | ⟨_, _, h, -⟩
    · exact h
    · rw [h1] at h; cases h
  | look b off s c' old h1 h2 h3 h4 =>
    subst h4
    simp only [h1, upd_self, events]
    refine quiet _ (.inl rfl) (fun d s b1 ha => ?_) (by simp)
    rcases hs0.assigned h ha with h | ⟨_, _, h, -⟩
    · exact h
    · rw [h1] at h; cases h
  | ret b off s v h1 h2 =>
    subst h2
    simp only [h1, upd_self, events]
    refine quiet _ (.inr ⟨_, rfl, by simp [FillOf]⟩) (fun d s b1 ha => ?_) (by simp)
    rcases hs0.assigned h ha with h | ⟨_, _, h, -⟩
    · exact h
    · rw [h1] at h; cases h
  | lock b off s old h1 h2 h3 =>
    have hself : st'.pc (.user t) = .own b off s (if old = some b then .use else .del old) := by
      rw [h3]; exact upd_self ..
    have hpre : ∀ b1 off1 s1 (ph : Phase β), st'.pc (.user t) = .own b1 off1 s1 ph →
        preCopy ph = true → ¬ Recent (FillOf (P.dom t) b1) (· = .evict (P.dom t) b1) ev := by
      intro b1 off1 s1 ph hp hph hr
      rw [hself] at hp
      injection hp with e1 e2 e3 e4
      subst e1 e2 e3
      by_cases ho : old = some b
      · rw [if_pos ho] at e4; subst e4; cases hph
      · obtain ⟨s', ha⟩ := f.has _ _ hr
        exact h.want_new h1 ho s' ha
    have hnot : ∀ d s1 b1, Assigned P st d s1 b1 → (∀ o, old = some o → o ≠ b → ¬ (d = P.dom t ∧ b1 = o)) →
        Assigned P st' d s1 b1 := by
      intro d s1 b1 ha hn
      rcases hs0.assigned h ha with h | ⟨b2, off2, hp, hb, hd, -⟩
      · exact h
      · rw [h1] at hp
        injection hp with e1 e2 e3 e4
        subst e1
        exact absurd ⟨hd.symm, rfl⟩ (hn b1 e4 hb)
    rw [h1, hself]
    cases old with
    | none =>
      refine quiet _ (.inl rfl) (fun d s1 b1 ha => hnot d s1 b1 ha (by simp)) hpre
    | some o =>
      by_cases ho : o = b
      · refine quiet _ (.inl (by simp [events, ho])) (fun d s1 b1 ha => hnot d s1 b1 ha ?_) hpre
        intro o' e hne; injection e with e; omega
      · have he : events (P.dom t) (.wantSlot b off s (some o) : Pc β)
            (.own b off s (if some o = some b then .use else .del (some o))) = [.evict (P.dom t) o] := by
          simp [events, ho]
        rw [he]
        refine ⟨hL, fun d b1 hr => ?_, fun u b1 off1 s1 ph hu hph hr0 => ?_, fun d b1 =>
          between_snoc (f.btw d b1) (by rintro ⟨k, hk⟩; cases hk)⟩
        · rcases recent_snoc.1 hr with ⟨k, hk⟩ | ⟨hr, hne⟩
          · cases hk
          · obtain ⟨s1, ha⟩ := f.has d b1 hr
            refine ⟨s1, hnot d s1 b1 ha ?_⟩
            rintro o' e - ⟨rfl, rfl⟩
            injection e with e; subst e; exact hne rfl
        · have hr : Recent (FillOf (P.dom u) b1) (· = .evict (P.dom u) b1) ev := by
            rcases recent_snoc.1 hr0 with ⟨k, hk⟩ | ⟨hr, -⟩
            · cases hk
            · exact hr
          by_cases hut : u = t
          · subst hut; exact hpre b1 off1 s1 ph hu hph hr
          · rw [hs0.other (by simpa using hut)] at hu
            exact f.pre u b1 off1 s1 ph hu hph hr
  | own b off s ph ph' o m =>
    rw [o.hpc, o.pc_self]
    have ha : ∀ d s b, Assigned P st d s b → Assigned P st' d s b := fun d s b => (o.assigned d s b).2
    rcases events_own (d := P.dom t) (b := b) (off := off) (s := s) m with ⟨e, hp⟩ | ⟨k, e, hp, hp'⟩
    · rw [e]
      refine quiet _ (.inl rfl) ha ?_
      intro b1 off1 s1 ph1 hu hph
      rw [o.pc_self] at hu
      injection hu with e1 e2 e3 e4
      subst e1 e2 e3 e4
      exact f.pre t b off s ph o.hpc (hp hph)
    · rw [e]
      refine ⟨hL, fun d b1 hr => ?_, fun u b1 off1 s1 ph1 hu hph hr => ?_, fun d b1 => ?_⟩
      · rcases recent_snoc.1 hr with ⟨k, hk⟩ | ⟨hr, -⟩
        · injection hk with e1 e2 e3
          subst e1 e2
          exact ⟨s, ha _ _ _ (h.own t b off s ph o.hpc).2.2⟩
        · obtain ⟨s1, hs1⟩ := f.has d b1 hr; exact ⟨s1, ha _ _ _ hs1⟩
      · by_cases hut : u = t
        · subst hut
          rw [o.pc_self] at hu
          injection hu with e1 e2 e3 e4
          subst e4; rw [hp'] at hph; cases hph
        · rw [hs0.other (by simpa using hut)] at hu
          rcases recent_snoc.1 hr with ⟨k, hk⟩ | ⟨hr, -⟩
          · injection hk with e1 e2 e3
            subst e2
            exact hut (h.own_block f.leaving o.hpc hu e1).symm
          · exact f.pre u b1 off1 s1 ph1 hu hph hr
      · refine between_snoc (f.btw d b1) ?_
        rintro ⟨k, hk⟩
        injection hk with e1 e2 e3
        subst e1 e2
        exact f.pre t b off s ph o.hpc hp

theorem comm_users {P : DistParams β} {st st' : DistState β} {r : Nat} (hs : CommStep P r st st') :
    st'.cl = st.cl ∧ ∀ t, st'.pc (.user t) = st.pc (.user t) := by
  cases hs <;> exact ⟨rfl, fun t => rfl⟩

theorem FillOK.comm {P : DistParams β} {st st' : DistState β} {ev : List Event} {r : Nat}
    (hs : CommStep P r st st') (f : FillOK P st ev) : FillOK P st' ev := by
  obtain ⟨ecl, epc⟩ := comm_users hs
  refine ⟨fun t b off s o hp ho s' hi => ?_, fun d b hr => ?_, fun t b off s ph hp => ?_, f.btw⟩
  · rw [epc] at hp; unfold Idx at hi; rw [ecl] at hi; exact f.leaving t b off s o hp ho s' hi
  · obtain ⟨s, ha⟩ := f.has d b hr
    exact ⟨s, (assigned_frame ecl (by intro t b off s old; rw [epc]) d s b).2 ha⟩
  · rw [epc] at hp; exact f.pre t b off s ph hp

/-! ### With MPI windows, the file is read only if no process has the block -/

/-- The block is in the directory, and no thread is about to withdraw one of its entries. -/
structure Listed (P : DistParams β) (st : DistState β) (b : Nat) : Prop where
  any : ∃ e : Nat, (e : Int) ∈ st.dir b
  stays : ∀ t b' off s, st.pc (.user t) = .own b' off s (.del (some b)) →
    (P.entry (P.dom t) s : Int) ∉ st.dir b

structure ReadOK (P : DistParams β) (st : DistState β) (ev : List Event) : Prop where
  listed : ∀ b, Recent (ReadOf b) (GoneOf b) ev → Listed P st b
  first : ∀ t b off s e, st.pc (.user t) = .own b off s (.xfer e) → e < 0 →
    ¬ Recent (ReadOf b) (GoneOf b) ev ∧ st.dir b = enc dictEntrySize [P.entry (P.dom t) s]
  btw : ∀ b, Between (ReadOf b) (GoneOf b) ev

/-- The entry of a slot that another thread owns is not the entry of the own slot. -/
theorem DistInv.entry_ne {P : DistParams β} {st : DistState β} (h : DistInv P st) (hD : 0 < P.domains)
    {t u b off s b' off' s' : Nat} {ph ph' : Phase β} (hp : st.pc (.user t) = .own b off s ph)
    (hu : st.pc (.user u) = .own b' off' s' ph') (hne : u ≠ t) :
    P.entry (P.dom u) s' ≠ P.entry (P.dom t) s := by
  intro e
  obtain ⟨hd, hs⟩ := entry_inj hD (h.own u _ _ _ _ hu).2.1 (h.own t _ _ _ _ hp).2.1 e
  subst hs
  exact hne (h.own_unique hu hp hd)

/-- The directory after `dictAdd`. -/
theorem WinInv.add {P : DistParams β} {st : DistState β} (hw : WinInv P st) (b e : Nat) :
    ∃ L, st.dir b = enc dictEntrySize L ∧
      dictAdd (st.dir b) e = enc dictEntrySize ((e :: L).take dictEntrySize) := by
  obtain ⟨L, h1, h2, h3, h4⟩ := hw.dir b
  exact ⟨L, h1, by rw [h1, dictAdd_enc (by decide) h3]⟩

/-- A step that changes only the position of thread `t`. -/
theorem ReadOK.frame {P : DistParams β} {st st' : DistState β} {ev : List Event} {t : Nat}
    (f : ReadOK P st ev) (hs : Shape P t st st') (edir : st'.dir = st.dir)
    (hx : ∀ b off s e, st'.pc (.user t) = .own b off s (.xfer e) → 0 ≤ e)
    (hd : ∀ b o off s, st'.pc (.user t) = .own b off s (.del (some o)) →
      ¬ Recent (ReadOf o) (GoneOf o) ev) : ReadOK P st' ev := by
  have hu : ∀ {u}, u ≠ t → st'.pc (.user u) = st.pc (.user u) := fun h => hs.other (by simpa using h)
  refine ⟨fun b hr => ⟨?_, ?_⟩, ?_, f.btw⟩
  · rw [edir]; exact (f.listed b hr).any
  · intro u b' off s hp
    by_cases hut : u = t
    · subst hut; exact absurd hr (hd _ _ _ _ hp)
    · rw [hu hut] at hp; rw [edir]; exact (f.listed b hr).stays u b' off s hp
  · intro u b off s e hp he
    by_cases hut : u = t
    · subst hut; have := hx _ _ _ _ hp; omega
    · rw [hu hut] at hp; rw [edir]; exact f.first u b off s e hp he

/-- An event that is neither a read nor the end of a block. -/
theorem ReadOK.event {P : DistParams β} {st : DistState β} {ev : List Event} (f : ReadOK P st ev)
    {x : List Event} (hx : x = [] ∨ ∃ y, x = [y] ∧ ∀ b, ¬ ReadOf b y) : ReadOK P st (ev ++ x) := by
  rcases hx with rfl | ⟨y, rfl, hy⟩
  · rwa [List.append_nil]
  · have hr : ∀ b, Recent (ReadOf b) (GoneOf b) (ev ++ [y]) → Recent (ReadOf b) (GoneOf b) ev := by
      intro b h
      rcases recent_snoc.1 h with h | h
      · exact absurd h (hy b)
      · exact h.1
    refine ⟨fun b h => f.listed b (hr b h), fun t b off s e hp he => ?_,
      fun b => between_snoc (f.btw b) fun h => absurd h (hy b)⟩
    obtain ⟨h1, h2⟩ := f.first t b off s e hp he
    exact ⟨fun h => h1 (hr b h), h2⟩

theorem ReadOK.user {P : DistParams β} {st st' : DistState β} {ev : List Event} {t : Nat}
    (hD : 0 < P.domains) (hm : P.mode = .window)
    (hs : UserStep P t st st') (h : DistInv P st) (f : ReadOK P st ev) :
    ReadOK P st' (ev ++ events (P.dom t) (st.pc (.user t)) (st'.pc (.user t))) := by
  have hw := h.win hm
  have sh := user_shape hs
  have hu : ∀ {u}, u ≠ t → st'.pc (.user u) = st.pc (.user u) := fun h => sh.other (by simpa using h)
  -- the lock of a directory entry
  have hlock : ∀ {u b off s e}, st.dl b = none → st.pc (.user u) ≠ .own b off s (.xfer e) := by
    intro u b off s e hd hp
    have := (h.dl b (.user u)).2 (by rw [hp]; exact ⟨hm, rfl⟩)
    rw [hd] at this; cases this
  -- `dictAdd` for the block of the thread
  have add : ∀ {b off s ph ph'}, st.pc (.user t) = .own b off s ph → st'.pc (.user t) = .own b off s ph' →
      st.dl b = none → st'.dir = upd st.dir b (dictAdd (st.dir b) (P.entry (P.dom t) s)) →
      (∀ o, ph' ≠ .del o) →
      (∀ e, ph' = .xfer e → e < 0 → st.dir b = enc dictEntrySize []) → ReadOK P st' ev := by
    intro b off s ph ph' hp hp' hdl edir hnd hx
    obtain ⟨L, hL, hA⟩ := hw.add b (P.entry (P.dom t) s)
    refine ⟨fun b1 hr => ⟨?_, ?_⟩, ?_, f.btw⟩
    · rw [edir]
      by_cases hb : b1 = b
      · subst hb; rw [upd_self, hA]
        exact ⟨P.entry (P.dom t) s, enc_mem.2 (by simp [dictEntrySize])⟩
      · rw [upd_ne _ _ hb]; exact (f.listed b1 hr).any
    · intro u b' off' s' hpu
      by_cases hut : u = t
      · subst hut; rw [hp'] at hpu; injection hpu with _ _ _ e; exact absurd e (hnd _)
      · rw [hu hut] at hpu
        have h1 := (f.listed b1 hr).stays u b' off' s' hpu
        rw [edir]
        by_cases hb : b1 = b
        · subst hb
          rw [upd_self, hA, enc_mem]
          rw [hL, enc_mem] at h1
          intro hin
          rcases List.mem_cons.1 (List.mem_of_mem_take hin) with e | e
          · exact h.entry_ne hD hp hpu hut e
          · exact h1 e
        · rw [upd_ne _ _ hb]; exact h1
    · intro u b1 off1 s1 e hpu he
      by_cases hut : u = t
      · subst hut
        rw [hp'] at hpu; injection hpu with e1 e2 e3 e4
        subst e1 e2 e3
        have h0 := hx e e4 he
        refine ⟨fun hr => ?_, ?_⟩
        · obtain ⟨e', he'⟩ := (f.listed b hr).any
          rw [h0, enc_mem] at he'; cases he'
        · rw [edir, upd_self, hA]
          rw [h0] at hL
          have : L = [] := by
            cases L with
            | nil => rfl
            | cons x L =>
              have : (x : Int) ∈ enc dictEntrySize [] := by rw [hL]; exact enc_mem.2 (by simp)
              rw [enc_mem] at this; cases this
          rw [this]; rfl
      · rw [hu hut] at hpu
        rw [edir, upd_ne]
        · exact f.first u b1 off1 s1 e hpu he
        · rintro rfl; exact hlock hdl hpu
  -- no event
  have quiet : ∀ (_ : ∃ b off s ph ph', OwnMove ph ph' ∧ st.pc (.user t) = .own b off s ph ∧
      st'.pc (.user t) = .own b off s ph' ∧ ∀ k, ph' ≠ .load k ∨ ∃ j, ph = .load j)
      (_ : ReadOK P st' ev), ReadOK P st' (ev ++ events (P.dom t) (st.pc (.user t)) (st'.pc (.user t))) := by
    rintro ⟨b, off, s, ph, ph', m, h1, h2, h3⟩ g
    rw [h1, h2]
    refine g.event ?_
    rcases events_own (d := P.dom t) (b := b) (off := off) (s := s) m with ⟨e, -⟩ | ⟨k, e, hp, hp'⟩
    · exact .inl e
    · refine .inr ⟨_, e, ?_⟩
      rintro b1 ⟨d1, e1⟩
      injection e1 with e1 e2 e3
      subst e3
      revert e
      cases m <;> simp [events, copiesFrom]
      case load => exact (h3 0).elim (fun h => h rfl) (fun ⟨j, h⟩ => by cases h)
      case pre p1 p2 => cases ph' <;> simp_all [preCopy]
  have hmw : ∀ {x}, P.mode = x → x = .window := fun e => e.symm.trans hm
  cases hs
  case call b off h1 h2 =>
    simp only [h2, upd_self, events]
    exact (f.event (.inr ⟨_, rfl, by simp [ReadOf]⟩)).frame sh rfl (by simp) (by simp)
  case lookup b off s c' old h1 h2 h3 =>
    simp only [h1, upd_self, events]
    exact (f.event (.inl rfl)).frame sh rfl (by simp) (by simp)
  case unlock b off s v h1 =>
    simp only [h1, upd_self, events]
    exact (f.event (.inr ⟨_, rfl, by simp [ReadOf]⟩)).frame sh rfl (by simp) (by simp)
  case lockSlot b off s old h1 h2 =>
    simp only [h1, upd_self]
    by_cases ho : old = some b
    · subst ho
      exact (f.event (.inl (by simp [events]))).frame sh rfl (by simp) (by simp)
    · cases old with
      | none => exact (f.event (.inl (by simp [events]))).frame sh rfl (by simp) (by simp)
      | some o =>
        have hob : o ≠ b := fun e => ho (by rw [e])
        refine (f.event (.inr ⟨.evict (P.dom t) o, by simp [events, hob], by simp [ReadOf]⟩)).frame sh rfl
          (by simp [ho]) ?_
        intro b1 o1 off1 s1 hp hr
        simp only [upd_self, if_neg hob, Pc.own.injEq, Phase.del.injEq, Option.some.injEq] at hp
        obtain ⟨rfl, rfl, rfl, rfl⟩ := hp
        rw [show events (P.dom t) (.wantSlot b off s (some o) : Pc β)
            (.own b off s (if some o = some b then .use else .del (some o))) = [.evict (P.dom t) o] by
          simp [events, hob]] at hr
        rcases recent_snoc.1 hr with ⟨d, hd⟩ | ⟨-, hn⟩
        · cases hd
        · exact hn ⟨_, rfl⟩
  case delWin b off s o h2 hdl h0 =>
    refine quiet ⟨b, off, s, _, _, .pre rfl rfl, h0, upd_self .., fun k => .inl nofun⟩ ?_
    obtain ⟨L, hL, hn, hl, -⟩ := hw.dir o
    refine ⟨fun b1 hr => ?_, ?_, f.btw⟩
    · have hl1 := f.listed b1 hr
      by_cases hb : b1 = o
      · subst hb
        have hno := hl1.stays t b off s h0
        rw [hL, enc_mem] at hno
        have hdel := dictDelete_not (n := dictEntrySize) (by decide) hl hno
        refine ⟨?_, ?_⟩
        · obtain ⟨e, he⟩ := hl1.any
          rw [hL, enc_mem] at he
          simp only [DistState.goto, upd_self]
          rw [hL, hdel]
          cases L with
          | nil => cases he
          | cons x L => exact ⟨x, enc_mem.2 (by simp [dictEntrySize])⟩
        · intro u b' off' s' hpu
          by_cases hut : u = t
          · subst hut; simp [DistState.goto] at hpu
          · rw [hu hut] at hpu
            have h3 := hl1.stays u b' off' s' hpu
            simp only [DistState.goto, upd_self]
            rw [hL, hdel, enc_mem]
            rw [hL, enc_mem] at h3
            exact fun h => h3 (List.mem_of_mem_take h)
      · refine ⟨?_, ?_⟩
        · simp only [DistState.goto, upd_ne _ _ hb]; exact hl1.any
        · intro u b' off' s' hpu
          by_cases hut : u = t
          · subst hut; simp [DistState.goto] at hpu
          · rw [hu hut] at hpu
            simp only [DistState.goto, upd_ne _ _ hb]
            exact hl1.stays u b' off' s' hpu
    · intro u b1 off1 s1 e hpu he
      by_cases hut : u = t
      · subst hut; simp [DistState.goto] at hpu
      · rw [hu hut] at hpu
        have hb : b1 ≠ o := by rintro rfl; exact hlock hdl hpu
        simp only [DistState.goto, upd_ne _ _ hb]
        exact f.first u b1 off1 s1 e hpu he
  case addWin b off s h0 hdl h1 =>
    refine quiet ⟨b, off, s, _, _, .add, by assumption, upd_self .., fun k => .inl nofun⟩ ?_
    exact add (ph' := .addLocked) (by assumption) (upd_self ..) (by assumption) rfl nofun nofun
  case startWin b off s rnd h0 hdl h1 =>
    refine quiet ⟨b, off, s, _, _, .pre rfl rfl, by assumption, upd_self .., fun k => .inl nofun⟩ ?_
    refine add (by assumption) (upd_self ..) (by assumption) rfl nofun ?_
    intro e he hneg
    injection he with he
    obtain ⟨L, hL, -⟩ := hw.dir b
    rw [← he] at hneg
    simp only [dictFetchAndUpdate] at hneg
    rw [hL, dictFetch_enc] at hneg
    split at hneg
    · next hn => rw [hL, hn]
    · omega
  case xferNone b off s e he h0 =>
    obtain ⟨hnr, hdir⟩ := f.first t b off s e h0 he
    rw [h0, show (st.goto t b off s (.load 0)).pc (.user t) = .own b off s (.load 0) from upd_self ..,
      show events (P.dom t) (.own b off s (.xfer e) : Pc β) (.own b off s (.load 0)) =
        [.fill (P.dom t) b .file] from rfl]
    have hnot : ∀ {u off1 s1 e1}, u ≠ t → st.pc (.user u) ≠ .own b off1 s1 (.xfer e1) := by
      intro u off1 s1 e1 hne hp
      have k1 := (h.dl b (.user u)).2 (by rw [hp]; exact ⟨hm, rfl⟩)
      have k2 := (h.dl b (.user t)).2 (by rw [h0]; exact ⟨hm, rfl⟩)
      rw [k1] at k2; injection k2 with k2; injection k2 with k2; exact hne k2
    refine ⟨fun b1 hr => ?_, ?_, fun b1 => between_snoc (f.btw b1) ?_⟩
    · by_cases hb : b1 = b
      · subst hb
        refine ⟨⟨P.entry (P.dom t) s, ?_⟩, ?_⟩
        · show _ ∈ st.dir b1
          rw [hdir]; exact enc_mem.2 (by simp)
        · intro u b' off' s' hpu
          by_cases hut : u = t
          · subst hut; simp [DistState.goto] at hpu
          · rw [hu hut] at hpu
            show _ ∉ st.dir b1
            rw [hdir, enc_mem]
            intro hin
            exact h.entry_ne hD h0 hpu hut (List.mem_singleton.1 hin)
      · have hr' : Recent (ReadOf b1) (GoneOf b1) ev := by
          rcases recent_snoc.1 hr with ⟨d, hd⟩ | ⟨hr, -⟩
          · injection hd with _ hd; exact absurd hd.symm hb
          · exact hr
        have hl1 := f.listed b1 hr'
        refine ⟨hl1.any, ?_⟩
        intro u b' off' s' hpu
        by_cases hut : u = t
        · subst hut; simp [DistState.goto] at hpu
        · rw [hu hut] at hpu; exact hl1.stays u b' off' s' hpu
    · intro u b1 off1 s1 e1 hpu he1
      by_cases hut : u = t
      · subst hut; simp [DistState.goto] at hpu
      · rw [hu hut] at hpu
        obtain ⟨k1, k2⟩ := f.first u b1 off1 s1 e1 hpu he1
        refine ⟨fun hr => ?_, k2⟩
        rcases recent_snoc.1 hr with ⟨d, hd⟩ | ⟨hr, -⟩
        · injection hd with _ hd; subst hd; exact hnot hut hpu
        · exact k1 hr
    · rintro ⟨d, hd⟩
      injection hd with _ hd; subst hd; exact hnr
  all_goals first
    | (exfalso; have := hmw (by assumption); cases this; done)
    | (refine quiet ⟨_, _, _, _, _, ?_, by assumption, upd_self .., ?_⟩ (f.frame sh rfl ?_ ?_)
       · first
           | exact .pre rfl rfl
           | constructor
       · first
           | exact fun k => .inr ⟨_, rfl⟩
           | exact fun k => .inl nofun
       · simp [DistState.goto]
       · simp [DistState.goto])

/-! ### Where the blocks come from -/

/-- The block was read from the file by somebody. -/
def Known (ev : List Event) (b : Nat) : Prop := ∃ d, Event.fill d b .file ∈ ev

theorem Known.mono {ev : List Event} {b : Nat} (h : Known ev b) (x : List Event) : Known (ev ++ x) b := by
  obtain ⟨d, hd⟩ := h; exact ⟨d, List.mem_append_left _ hd⟩

structure KnownOK (P : DistParams β) (st : DistState β) (ev : List Event) : Prop where
  slot : ∀ d s b, Assigned P st d s b → ¬ Filling P st d s → Known ev b
  own : ∀ t b off s ph, st.pc (.user t) = .own b off s ph → preCopy ph = false → Known ev b
  del : ∀ t b off s o, st.pc (.user t) = .own b off s (.del (some o)) → Known ev o
  send : ∀ r t b i s k buf, st.pc (.comm r) = .send t b i s k buf → Known ev b
  box : ∀ t b off s r buf, st.pc (.user t) = .own b off s (.ask r) → st.box t = some (some buf) → Known ev b
  fill : ∀ d b k, Event.fill d b k ∈ ev → Known ev b
  ret : ∀ d b, Event.ret d b ∈ ev → Known ev b

/-- An unlocked slot is not being filled. -/
theorem DistInv.free_slot {P : DistParams β} {st : DistState β} (h : DistInv P st) {d s : Nat}
    (hl : st.lk (d, s) = none) : ¬ Filling P st d s :=
  h.not_filling_of_lk (by intro t b off ph _ _ _; rw [hl]; nofun)

theorem KnownOK.src {P : DistParams β} {st : DistState β} {ev : List Event} (k : KnownOK P st ev) {b e : Nat}
    (h : Src P st b e) : Known ev b := by
  obtain ⟨d, s, -, -, ⟨h1, h2⟩ | ⟨t, b', off, hp, -⟩⟩ := h
  · exact k.slot d s b h1 h2
  · exact k.del t b' off s b hp

/-- A block that `tryGet` finds. -/
theorem KnownOK.peek {P : DistParams β} {st : DistState β} {ev : List Event} (k : KnownOK P st ev)
    (h : DistInv P st) {d s b : Nat} (hc : ∀ t b' off s' old, st.pc (.user t) = .wantSlot b' off s' old → P.dom t ≠ d)
    (hp : (st.cl d).peek b = some s) (hl : st.lk (d, s) = none) : Known ev b :=
  k.slot d s b (.inr ⟨fun t b' off old hw => hc t b' off s old hw, (h.peek_idx hp).2⟩) (h.free_slot hl)

theorem DistInv.nobody_waits {P : DistParams β} {st : DistState β} (h : DistInv P st) {d : Nat} {a : Agent}
    (hc : st.cm d = some a) (hn : ∀ t b off s old, a = .user t → st.pc (.user t) ≠ .wantSlot b off s old) :
    ∀ t b' off s' old, st.pc (.user t) = .wantSlot b' off s' old → P.dom t ≠ d := by
  intro t b off s old hp hd
  have := (h.cm d (.user t)).2 (by rw [hp]; exact hd.symm)
  rw [hc] at this; injection this with this
  exact hn t b off s old this hp

theorem new_copy {P : DistParams β} {st st' : DistState β} {ev : List Event} {t b off s : Nat}
    {ph ph' : Phase β} (hs : UserStep P t st st') (h : DistInv P st) (k : KnownOK P st ev)
    (h1 : st.pc (.user t) = .own b off s ph) (h2 : st'.pc (.user t) = .own b off s ph')
    (p1 : preCopy ph = true) (p2 : preCopy ph' = false) : ph' = .load 0 ∨ Known ev b := by
  cases hs
  case numaHit b1 off1 s1 i s' h3 h4 h5 =>
    rw [h1] at h3; injection h3 with e1 e2 e3 e4
    subst e1 e2 e3 e4
    refine .inr (k.peek h (h.nobody_waits ((h.cm _ (.user t)).2 (by rw [h1]; rfl)) ?_) h4 h5)
    intro u b' off' s' old e; injection e with e; subst e; rw [h1]; nofun
  case xferWin b1 off1 s1 e hm h3 =>
    rw [h1] at h3; injection h3 with e1 e2 e3 e4
    subst e1 e2 e3 e4
    exact .inr (k.src ((h.phase t _ _ _ _ h1).1 (by assumption) e rfl))
  case askDone b1 off1 s1 r buf h3 h4 =>
    rw [h1] at h3; injection h3 with e1 e2 e3 e4
    subst e1 e2 e3 e4
    exact .inr (k.box t b off s r buf h1 h4)
  case xferNone b1 off1 s1 e h3 h4 =>
    simp only [DistState.goto, upd_self, Pc.own.injEq] at h2
    exact .inl h2.2.2.2.symm
  all_goals
    exfalso
    clear h k
    simp_all [DistState.goto, sendOp_pc]
    try
      obtain ⟨-, -, -, rfl⟩ := h1
      first
        | (cases p1; done)
        | (subst h2; cases p2)

/-- Only a thread that takes a slot begins to withdraw the old block. -/
theorem del_from {P : DistParams β} {st st' : DistState β} {t b off s : Nat} {o : Option Nat}
    (hs : UserStep P t st st') (h2 : st'.pc (.user t) = .own b off s (.del o)) :
    st.pc (.user t) = .wantSlot b off s o := by
  cases hs
  case lockSlot b1 off1 s1 old h1 h3 =>
    simp only [upd_self, Pc.own.injEq] at h2
    obtain ⟨rfl, rfl, rfl, h2⟩ := h2
    split at h2
    · cases h2
    · injection h2 with h2; subst h2; exact h1
  all_goals
    exfalso
    simp [DistState.goto] at h2

/-- The threads only take messages out of their mailbox. -/
theorem box_user {P : DistParams β} {st st' : DistState β} {t u : Nat} {m : Option (Nat → β)}
    (hs : UserStep P t st st') (h : DistInv P st) (hb : st'.box u = some m) : u ≠ t ∧ st.box u = some m := by
  have key : st.box u = some m → st.pc (.user t) = st.pc (.user t) ∧
      ((∀ b off s r, st.pc (.user t) ≠ .own b off s (.ask r)) → u ≠ t ∧ st.box u = some m) := by
    intro hb
    refine ⟨rfl, fun hn => ⟨?_, hb⟩⟩
    rintro rfl
    obtain ⟨b, off, s, r, hp, -⟩ := h.box u m hb
    exact hn _ _ _ _ hp
  have clear : ∀ {f : Nat → Option (Option (Nat → β))}, upd f t none u = some m → u ≠ t ∧ f u = some m := by
    intro f hf
    by_cases hu : u = t
    · subst hu; simp at hf
    · rw [upd_ne _ _ hu] at hf; exact ⟨hu, hf⟩
  cases hs
  case askFail => exact clear hb
  case askDone => exact clear hb
  all_goals
    refine (key ?_).2 ?_
    · simpa [DistState.goto, sendOp_box] using hb
    · intro b1 off1 s1 r1 hp; simp_all

theorem KnownOK.user {P : DistParams β} {st st' : DistState β} {ev : List Event} {t : Nat}
    (hs : UserStep P t st st') (h : DistInv P st) (h' : DistInv P st') (k : KnownOK P st ev) :
    KnownOK P st' (ev ++ events (P.dom t) (st.pc (.user t)) (st'.pc (.user t))) := by
  have sh := user_shape hs
  -- the blocks of the other threads, the communication threads and the mailboxes
  have rest : ∀ x : List Event, (∀ d s b, Assigned P st' d s b → ¬ Filling P st' d s → Known (ev ++ x) b) →
      (∀ b off s ph, st'.pc (.user t) = .own b off s ph → preCopy ph = false → Known (ev ++ x) b) →
      (∀ b off s o, st'.pc (.user t) = .own b off s (.del (some o)) → Known (ev ++ x) o) →
      (∀ d b k, Event.fill d b k ∈ x → Known (ev ++ x) b) →
      (∀ d b, Event.ret d b ∈ x → Known (ev ++ x) b) → KnownOK P st' (ev ++ x) := by
    intro x hslot hown hdel hfill hret
    refine ⟨hslot, ?_, ?_, ?_, ?_, ?_, ?_⟩
    · intro u b off s ph hp hph
      by_cases hu : u = t
      · subst hu; exact hown b off s ph hp hph
      · rw [sh.other (by simpa using hu)] at hp
        exact (k.own u b off s ph hp hph).mono x
    · intro u b off s o hp
      by_cases hu : u = t
      · subst hu; exact hdel b off s o hp
      · rw [sh.other (by simpa using hu)] at hp
        exact (k.del u b off s o hp).mono x
    · intro r u b i s j buf hp
      rw [sh.other (a := .comm r) (by simp)] at hp
      exact (k.send r u b i s j buf hp).mono x
    · intro u b off s r buf hp hb
      obtain ⟨hu, hb⟩ := box_user hs h hb
      rw [sh.other (by simpa using hu)] at hp
      exact (k.box u b off s r buf hp hb).mono x
    · intro d b j hj
      rcases List.mem_append.1 hj with hj | hj
      · exact (k.fill d b j hj).mono x
      · exact hfill d b j hj
    · intro d b hj
      rcases List.mem_append.1 hj with hj | hj
      · exact (k.ret d b hj).mono x
      · exact hret d b hj
  have hslot : ∀ x : List Event, (∀ b off s ph, st.pc (.user t) ≠ .own b off s ph ∨ fills ph = false) →
      (∀ d s b, Assigned P st' d s b → Assigned P st d s b) →
      ∀ d s b, Assigned P st' d s b → ¬ Filling P st' d s → Known (ev ++ x) b := by
    intro x hn ha d s b ha' hf
    refine (k.slot d s b (ha d s b ha') ?_).mono x
    rintro ⟨u, b1, off1, ph, hp, hd, hph⟩
    by_cases hu : u = t
    · subst hu
      rcases hn b1 off1 s ph with h | h
      · exact h hp
      · rw [h] at hph; cases hph
    · exact hf ⟨u, b1, off1, ph, by rw [sh.other (by simpa using hu)]; exact hp, hd, hph⟩
  cases sh with
  | call b off h1 h2 =>
    have hself : st'.pc (.user t) = .wantCm b off := by rw [h2]; exact upd_self ..
    rw [h1, hself]
    refine rest _ (hslot _ (fun b off s ph => .inl (by rw [h1]; nofun)) fun d s b1 ha => ?_)
      (by simp [hself]) (by simp [hself]) (by simp [events]) (by simp [events])
    refine (assigned_frame (by rw [h2]) ?_ d s b1).1 ha
    intro u b2 off2 s2 old2
    rw [h2]
    by_cases hu : u = t
    · subst hu; simp [h1]
    · simp only [upd_uu hu]
  | look b off s c' old h1 h2 h3 h4 =>
    subst h4
    simp only [h1, upd_self, events]
    exact rest _ (hslot _ (fun b off s ph => .inl (by rw [h1]; nofun))
      fun d s b1 ha => (h.lookup_assigned h1 h2 h3 d s b1).1 ha) (by simp) (by simp) (by simp) (by simp)
  | ret b off s v h1 h2 =>
    have hself : st'.pc (.user t) = .idle := by rw [h2]; exact upd_self ..
    rw [h1, hself]
    refine rest _ (hslot _ (fun b1 off1 s1 ph => ?_) fun d s b1 ha => ?_) (by simp [hself])
      (by simp [hself]) (by simp [events]) ?_
    · by_cases hph : ph = .out v
      · subst hph; exact .inr rfl
      · exact .inl fun e => hph (by rw [h1] at e; injection e with _ _ _ e; exact e.symm)
    · refine (assigned_frame (by rw [h2]) ?_ d s b1).1 ha
      intro u b2 off2 s2 old2
      rw [h2]
      by_cases hu : u = t
      · subst hu; simp [h1]
      · simp only [upd_uu hu]
    · intro d b1 hm
      simp only [events, List.mem_singleton, Event.ret.injEq] at hm
      obtain ⟨-, rfl⟩ := hm
      exact (k.own t _ off s _ h1 rfl).mono _
  | lock b off s old h1 h2 h3 =>
    have hself : st'.pc (.user t) = .own b off s (if old = some b then .use else .del old) := by
      rw [h3]; exact upd_self ..
    have hold : ∀ o, old = some o → Known ev o := by
      rintro o rfl
      exact k.slot (P.dom t) s o (.inl ⟨t, b, off, h1, rfl⟩) (h.free_slot h2)
    refine rest _ ?_ ?_ ?_ ?_ ?_
    · intro d s1 b1 ha hf
      by_cases hds : d = P.dom t ∧ s1 = s
      · obtain ⟨rfl, rfl⟩ := hds
        by_cases ho : old = some b
        · have := h'.assigned_unique ha (h'.own t b off s1 _ hself).2.2
          subst this
          exact (hold b1 ho).mono _
        · exact absurd ⟨t, b, off, _, hself, rfl, by rw [if_neg ho]; rfl⟩ hf
      · refine (k.slot d s1 b1 ?_ ?_).mono _
        · subst h3
          rcases ha with ⟨u, b2, off2, hp, hd⟩ | ⟨hn, hi⟩
          · by_cases hu : u = t
            · subst hu; simp at hp
            · simp only [upd_uu hu] at hp; exact .inl ⟨u, b2, off2, hp, hd⟩
          · refine .inr ⟨fun u b2 off2 old2 hp hd => ?_, hi⟩
            by_cases hu : u = t
            · subst hu; rw [h1] at hp; injection hp with _ _ e _
              exact hds ⟨hd.symm, e.symm⟩
            · exact hn u b2 off2 old2 (by simp only [upd_uu hu]; exact hp) hd
        · rintro ⟨u, b2, off2, ph, hp, hd, hph⟩
          have hu : u ≠ t := by rintro rfl; rw [h1] at hp; cases hp
          exact hf ⟨u, b2, off2, ph, by rw [h3]; simp only [upd_uu hu]; exact hp, hd, hph⟩
    · intro b1 off1 s1 ph hp hph
      rw [hself] at hp
      injection hp with e1 e2 e3 e4
      subst e1
      split at e4
      · next ho => exact (hold b ho).mono _
      · subst e4; cases hph
    · intro b1 off1 s1 o hp
      rw [hself] at hp
      injection hp with e1 e2 e3 e4
      split at e4
      · cases e4
      · injection e4 with e4; exact (hold o e4).mono _
    · intro d b1 j hm
      rw [h1, hself] at hm
      cases old with
      | none => simp [events] at hm
      | some o => by_cases ho : o = b <;> simp [events, ho] at hm
    · intro d b1 hm
      rw [h1, hself] at hm
      cases old with
      | none => simp [events] at hm
      | some o => by_cases ho : o = b <;> simp [events, ho] at hm
  | own b off s ph ph' o m =>
    have hpc := o.hpc
    have hself := o.pc_self
    rw [hpc, hself]
    have hfile : ∀ {d}, ph' = .load 0 → preCopy ph = true →
        events d (.own b off s ph : Pc β) (.own b off s ph') = [.fill d b .file] := by
      rintro d rfl hph
      cases ph <;> first | rfl | cases hph
    have hcopied : preCopy ph' = false →
        Known (ev ++ events (P.dom t) (.own b off s ph : Pc β) (.own b off s ph')) b := by
      intro hph'
      cases hph : preCopy ph with
      | false => exact (k.own t b off s ph hpc hph).mono _
      | true =>
        rcases new_copy hs h k hpc hself hph hph' with e | e
        · rw [hfile e hph]; exact ⟨_, List.mem_append_right _ (List.mem_singleton.2 rfl)⟩
        · exact e.mono _
    refine rest _ ?_ ?_ ?_ ?_ ?_
    · intro d s1 b1 ha hf
      have ha0 := (o.assigned d s1 b1).1 ha
      by_cases hds : d = P.dom t ∧ s1 = s
      · obtain ⟨rfl, rfl⟩ := hds
        have := h.assigned_unique ha0 (h.own t b off s1 ph hpc).2.2
        subst this
        refine hcopied ?_
        cases hp' : preCopy ph' with
        | false => rfl
        | true => exact absurd ⟨t, b1, off, ph', hself, rfl, preCopy_fills hp'⟩ hf
      · refine (k.slot d s1 b1 ha0 ?_).mono _
        rintro ⟨u, b2, off2, ph2, hp, hd, hph⟩
        have hu : u ≠ t := by
          rintro rfl; rw [hpc] at hp; injection hp with _ _ e _; exact hds ⟨hd.symm, e.symm⟩
        exact hf ⟨u, b2, off2, ph2, by rw [o.pc_other hu]; exact hp, hd, hph⟩
    · intro b1 off1 s1 ph1 hp hph
      rw [hself] at hp
      injection hp with e1 e2 e3 e4
      subst e1 e4
      exact hcopied hph
    · intro b1 off1 s1 o1 hp
      have := del_from hs hp
      rw [hpc] at this; cases this
    · intro d b1 j hm
      rcases events_own (d := P.dom t) (b := b) (off := off) (s := s) m with ⟨e, -⟩ | ⟨j', e, -, hp'⟩
      · rw [e] at hm; cases hm
      · have := hcopied hp'
        rw [e] at hm
        simp only [List.mem_singleton, Event.fill.injEq] at hm
        obtain ⟨-, rfl, -⟩ := hm
        exact this
    · intro d b1 hm
      rcases events_own (d := P.dom t) (b := b) (off := off) (s := s) m with ⟨e, -⟩ | ⟨j', e, -, hp'⟩
      · rw [e] at hm; cases hm
      · rw [e] at hm; simp at hm

theorem KnownOK.comm {P : DistParams β} {st st' : DistState β} {ev : List Event} {r : Nat}
    (hs : CommStep P r st st') (h : DistInv P st) (k : KnownOK P st ev) : KnownOK P st' ev := by
  obtain ⟨ecl, epc⟩ := comm_users hs
  refine ⟨fun d s b ha hf => ?_, fun t b off s ph hp => ?_, fun t b off s o hp => ?_,
    fun r1 t b i s j buf hp => ?_, fun t b off s r1 buf hp hb => ?_, k.fill, k.ret⟩
  · refine k.slot d s b ((assigned_frame ecl (by intro t b off s old; rw [epc]) d s b).1 ha) ?_
    rintro ⟨u, b1, off1, ph, hp, hd, hph⟩
    exact hf ⟨u, b1, off1, ph, by rw [epc]; exact hp, hd, hph⟩
  · rw [epc] at hp; exact k.own t b off s ph hp
  · rw [epc] at hp; exact k.del t b off s o hp
  · by_cases hr : r1 = r
    · subst hr
      cases hs
      case hit t1 b1 i1 s1 h1 h2 h3 =>
        simp only [upd_self, Pc.send.injEq] at hp
        obtain ⟨-, rfl, -⟩ := hp
        refine k.peek h (h.nobody_waits ((h.cm _ (.comm r1)).2 (by rw [h1]; rfl)) (by simp)) h2 h3
      case cell t1 b1 i1 s1 k1 buf1 h2 h1 =>
        simp only [upd_self, Pc.send.injEq] at hp
        obtain ⟨-, rfl, -⟩ := hp
        exact k.send _ _ _ _ _ _ _ h1
      all_goals simp_all
    · refine k.send r1 t b i s j buf ?_
      rw [← comm_other hs (by simpa using hr)]; exact hp
  · rw [epc] at hp
    cases hs
    case reply t1 b1 i1 s1 k1 buf1 h2 h1 =>
      by_cases ht : t = t1
      · subst ht
        obtain ⟨⟨off2, s2, h3⟩, -⟩ := h.req r t b1 (.inr (.inr ⟨_, _, _, _, h1⟩))
        rw [hp] at h3; injection h3 with e1
        subst e1
        exact k.send _ _ _ _ _ _ _ h1
      · simp only [upd_ne _ _ ht] at hb
        exact k.box t b off s r1 buf hp hb
    case fail t1 b1 i1 h1 h2 =>
      by_cases ht : t = t1
      · subst ht; simp at hb
      · simp only [upd_ne _ _ ht] at hb
        exact k.box t b off s r1 buf hp hb
    all_goals exact k.box t b off s r1 buf hp hb

/-! ### Calls, and what the domains ask for -/

/-- The block of the access in which a thread is. -/
def pcBlock : Pc β → Option Nat
  | .wantCm b _ | .wantSlot b _ _ _ | .own b _ _ _ => some b
  | _ => none

/-- The events of a step. -/
theorem Shape.events {P : DistParams β} {st st' : DistState β} {t : Nat} (hs : Shape P t st st') :
    (∃ b, st.pc (.user t) = .idle ∧ pcBlock (st'.pc (.user t)) = some b ∧
        events (P.dom t) (st.pc (.user t)) (st'.pc (.user t)) = [.ask (P.dom t) b]) ∨
      (∃ b, pcBlock (st.pc (.user t)) = some b ∧ pcBlock (st'.pc (.user t)) = some b ∧
        ∀ x ∈ events (P.dom t) (st.pc (.user t)) (st'.pc (.user t)),
          (∃ k, x = .fill (P.dom t) b k) ∨ ∃ off s o, x = .evict (P.dom t) o ∧ o ≠ b ∧
            st.pc (.user t) = .wantSlot b off s (some o)) ∨
      (∃ b, pcBlock (st.pc (.user t)) = some b ∧ st'.pc (.user t) = .idle ∧
        events (P.dom t) (st.pc (.user t)) (st'.pc (.user t)) = [.ret (P.dom t) b]) := by
  cases hs with
  | call b off h1 h2 =>
    have hself : st'.pc (.user t) = .wantCm b off := by rw [h2]; exact upd_self ..
    rw [h1, hself]; exact .inl ⟨b, rfl, rfl, rfl⟩
  | look b off s c' old h1 h2 h3 h4 =>
    have hself : st'.pc (.user t) = .wantSlot b off s old := by rw [h4]; exact upd_self ..
    rw [h1, hself]; exact .inr (.inl ⟨b, rfl, rfl, by simp [Spec.events]⟩)
  | lock b off s old h1 h2 h3 =>
    have hself : st'.pc (.user t) = .own b off s (if old = some b then .use else .del old) := by
      rw [h3]; exact upd_self ..
    rw [h1, hself]
    refine .inr (.inl ⟨b, rfl, rfl, fun x hx => ?_⟩)
    cases old with
    | none => simp [Spec.events] at hx
    | some o =>
      by_cases ho : o = b
      · simp [Spec.events, ho] at hx
      · simp only [Spec.events, if_neg ho, List.mem_singleton] at hx
        exact .inr ⟨off, s, o, hx, ho, rfl⟩
  | ret b off s v h1 h2 =>
    have hself : st'.pc (.user t) = .idle := by rw [h2]; exact upd_self ..
    rw [h1, hself]; exact .inr (.inr ⟨b, rfl, rfl, rfl⟩)
  | own b off s ph ph' o m =>
    rw [o.hpc, o.pc_self]
    refine .inr (.inl ⟨b, rfl, rfl, fun x hx => ?_⟩)
    rcases events_own (d := P.dom t) (b := b) (off := off) (s := s) m with ⟨e, -⟩ | ⟨k, e, -⟩
    · rw [e] at hx; cases hx
    · rw [e, List.mem_singleton] at hx; exact .inl ⟨k, hx⟩

structure AskOK (P : DistParams β) (st : DistState β) (ev : List Event) : Prop where
  run : ∀ t b, pcBlock (st.pc (.user t)) = some b → Event.ask (P.dom t) b ∈ ev
  ends : ∀ d b, Event.ask d b ∈ ev → Event.ret d b ∈ ev ∨ ∃ t, P.dom t = d ∧ pcBlock (st.pc (.user t)) = some b
  fill : ∀ d b k, Event.fill d b k ∈ ev → Event.ask d b ∈ ev
  ret : ∀ d b, Event.ret d b ∈ ev → Event.ask d b ∈ ev

theorem AskOK.user {P : DistParams β} {st st' : DistState β} {ev : List Event} {t : Nat}
    (hs : Shape P t st st') (a : AskOK P st ev) :
    AskOK P st' (ev ++ Spec.events (P.dom t) (st.pc (.user t)) (st'.pc (.user t))) := by
  have oth : ∀ {u}, u ≠ t → st'.pc (.user u) = st.pc (.user u) := fun hu => hs.other (by simpa using hu)
  have left : ∀ {x : Event} {l}, x ∈ ev → x ∈ ev ++ l := fun h => List.mem_append_left _ h
  rcases hs.events with ⟨b, h1, h2, he⟩ | ⟨b, h1, h2, he⟩ | ⟨b, h1, h2, he⟩
  · rw [he]
    refine ⟨fun u b1 hu => ?_, fun d b1 hm => ?_, fun d b1 k hm => ?_, fun d b1 hm => ?_⟩
    · by_cases hut : u = t
      · subst hut; rw [h2] at hu; injection hu with hu; subst hu; simp
      · rw [oth hut] at hu; exact left (a.run u b1 hu)
    · rcases List.mem_append.1 hm with hm | hm
      · rcases a.ends d b1 hm with h | ⟨u, hd, hu⟩
        · exact .inl (left h)
        · have hut : u ≠ t := by rintro rfl; rw [h1] at hu; cases hu
          exact .inr ⟨u, hd, by rw [oth hut]; exact hu⟩
      · simp only [List.mem_singleton, Event.ask.injEq] at hm
        obtain ⟨rfl, rfl⟩ := hm
        exact .inr ⟨t, rfl, h2⟩
    · simp only [List.mem_append, List.mem_singleton, reduceCtorEq, or_false] at hm
      exact left (a.fill d b1 k hm)
    · simp only [List.mem_append, List.mem_singleton, reduceCtorEq, or_false] at hm
      exact left (a.ret d b1 hm)
  · have hrun := a.run t b h1
    refine ⟨fun u b1 hu => ?_, fun d b1 hm => ?_, fun d b1 k hm => ?_, fun d b1 hm => ?_⟩
    · by_cases hut : u = t
      · subst hut; rw [h2] at hu; injection hu with hu; subst hu; exact left hrun
      · rw [oth hut] at hu; exact left (a.run u b1 hu)
    · rcases List.mem_append.1 hm with hm | hm
      · rcases a.ends d b1 hm with h | ⟨u, hd, hu⟩
        · exact .inl (left h)
        · refine .inr ⟨u, hd, ?_⟩
          by_cases hut : u = t
          · subst hut; rw [h1] at hu; rw [h2]; exact hu
          · rw [oth hut]; exact hu
      · rcases he _ hm with ⟨k, hk⟩ | ⟨_, _, o, hk, -⟩ <;> cases hk
    · rcases List.mem_append.1 hm with hm | hm
      · exact left (a.fill d b1 k hm)
      · rcases he _ hm with ⟨k, hk⟩ | ⟨_, _, o, hk, -⟩
        · injection hk with e1 e2; subst e1 e2; exact left hrun
        · cases hk
    · rcases List.mem_append.1 hm with hm | hm
      · exact left (a.ret d b1 hm)
      · rcases he _ hm with ⟨k, hk⟩ | ⟨_, _, o, hk, -⟩ <;> cases hk
  · have hrun := a.run t b h1
    rw [he]
    refine ⟨fun u b1 hu => ?_, fun d b1 hm => ?_, fun d b1 k hm => ?_, fun d b1 hm => ?_⟩
    · by_cases hut : u = t
      · subst hut; rw [h2] at hu; cases hu
      · rw [oth hut] at hu; exact left (a.run u b1 hu)
    · simp only [List.mem_append, List.mem_singleton, reduceCtorEq, or_false] at hm
      rcases a.ends d b1 hm with h | ⟨u, hd, hu⟩
      · exact .inl (left h)
      · by_cases hut : u = t
        · subst hut; rw [h1] at hu; injection hu with hu; subst hu hd; exact .inl (by simp)
        · exact .inr ⟨u, hd, by rw [oth hut]; exact hu⟩
    · simp only [List.mem_append, List.mem_singleton, reduceCtorEq, or_false] at hm
      exact left (a.fill d b1 k hm)
    · rcases List.mem_append.1 hm with hm | hm
      · exact left (a.ret d b1 hm)
      · simp only [List.mem_singleton, Event.ret.injEq] at hm
        obtain ⟨rfl, rfl⟩ := hm
        exact left hrun

theorem AskOK.comm {P : DistParams β} {st st' : DistState β} {ev : List Event} {r : Nat}
    (hs : CommStep P r st st') (a : AskOK P st ev) : AskOK P st' ev := by
  obtain ⟨-, epc⟩ := comm_users hs
  refine ⟨fun u b hu => ?_, fun d b hm => ?_, a.fill, a.ret⟩
  · rw [epc] at hu; exact a.run u b hu
  · rcases a.ends d b hm with h | ⟨u, hd, hu⟩
    · exact .inl h
    · exact .inr ⟨u, hd, by rw [epc]; exact hu⟩

/-! ### A cache that is large enough -/

structure RoomFor (P : DistParams β) (st : DistState β) (ev : List Event) (d : Nat) (S : List Nat) : Prop where
  keys : ∃ keys, (∀ b ∈ keys, b ∈ S) ∧ FillInv (st.cl d) keys
  none : ∀ o, Event.evict d o ∉ ev
  want : ∀ t b off s old, P.dom t = d → st.pc (.user t) = .wantSlot b off s old → old = Option.none ∨ old = some b

def CapOK (P : DistParams β) (st : DistState β) (ev : List Event) : Prop :=
  ∀ d S, S.length ≤ P.size → (∀ b, Event.ask d b ∈ ev → b ∈ S) → RoomFor P st ev d S

theorem CapOK.user {P : DistParams β} {st st' : DistState β} {ev : List Event} {t : Nat}
    (hs : Shape P t st st') (h : DistInv P st) (a : AskOK P st ev) (c : CapOK P st ev) :
    CapOK P st' (ev ++ Spec.events (P.dom t) (st.pc (.user t)) (st'.pc (.user t))) := by
  intro d S hS hask
  have room := c d S hS fun b hb => hask b (List.mem_append_left _ hb)
  have hev : ∀ o, Event.evict d o ∉ ev ++ Spec.events (P.dom t) (st.pc (.user t)) (st'.pc (.user t)) := by
    intro o hm
    rcases List.mem_append.1 hm with hm | hm
    · exact room.none o hm
    · rcases hs.events with ⟨b, h1, h2, he⟩ | ⟨b, h1, h2, he⟩ | ⟨b, h1, h2, he⟩
      · rw [he] at hm; simp at hm
      · rcases he _ hm with ⟨k, hk⟩ | ⟨off, s, o', hk, ho, hp⟩
        · cases hk
        · injection hk with e1 e2
          rcases room.want t b off s _ e1.symm hp with e | e
          · cases e
          · injection e with e; exact ho e
      · rw [he] at hm; simp at hm
  have oth : ∀ {u}, u ≠ t → st'.pc (.user u) = st.pc (.user u) := fun hu => hs.other (by simpa using hu)
  have same : st'.cl = st.cl → (∀ b off s old, st'.pc (.user t) ≠ .wantSlot b off s old) →
      RoomFor P st' (ev ++ Spec.events (P.dom t) (st.pc (.user t)) (st'.pc (.user t))) d S := by
    intro ecl hn
    refine ⟨by rw [ecl]; exact room.keys, hev, fun u b off s old hd hu => ?_⟩
    by_cases hut : u = t
    · subst hut; exact absurd hu (hn _ _ _ _)
    · rw [oth hut] at hu; exact room.want u b off s old hd hu
  cases hs with
  | call b off h1 h2 => exact same (by rw [h2]) (by rw [h2]; simp)
  | lock b off s old h1 h2 h3 => exact same (by rw [h3]) (by rw [h3]; simp)
  | ret b off s v h1 h2 => exact same (by rw [h2]) (by rw [h2]; simp)
  | own b off s ph ph' o m => exact same o.ecl (by rw [o.pc_self]; simp)
  | look b off s c' old h1 h2 h3 h4 =>
    have hself : st'.pc (.user t) = .wantSlot b off s old := by rw [h4]; exact upd_self ..
    by_cases hd : d = P.dom t
    · subst hd
      have hb : b ∈ S := hask b (List.mem_append_left _ (a.run t b (by rw [h1]; rfl)))
      obtain ⟨keys, hk, fi⟩ := room.keys
      obtain ⟨h0, inv, hsz⟩ := h.lists (P.dom t)
      have done : ∀ keys', (∀ b ∈ keys', b ∈ S) → FillInv c' keys' → (old = Option.none ∨ old = some b) →
          RoomFor P st' (ev ++ Spec.events (P.dom t) (st.pc (.user t)) (st'.pc (.user t))) (P.dom t) S := by
        intro keys' hk' fi' ho
        refine ⟨⟨keys', hk', by rw [h4]; simpa using fi'⟩, hev, fun u b1 off1 s1 old1 hd hu => ?_⟩
        by_cases hut : u = t
        · subst hut
          rw [hself] at hu; injection hu with e1 e2 e3 e4
          subst e1 e4; exact ho
        · rw [oth hut] at hu; exact room.want u b1 off1 s1 old1 hd hu
      by_cases hbk : b ∈ keys
      · obtain ⟨c1, slot, e, -, -, fi1⟩ := fi.hit inv hbk
        rw [h3] at e; injection e with e; injection e with e1 e2; injection e2 with e2 e3
        subst e1 e2 e3
        exact done keys hk fi1 (.inr rfl)
      · have hlt : keys.length < (st.cl (P.dom t)).lru.size := by
          have := length_le_of_subset (s := b :: keys) (t := S) (List.nodup_cons.2 ⟨hbk, fi.nodup⟩) (by
            intro x hx
            rcases List.mem_cons.1 hx with rfl | hx
            · exact hb
            · exact hk x hx)
          simp at this; omega
        obtain ⟨c1, e, -, -, fi1⟩ := fi.miss inv hbk hlt
        rw [h3] at e; injection e with e; injection e with e1 e2; injection e2 with e2 e3
        subst e1 e2 e3
        refine done _ ?_ fi1 (.inl rfl)
        intro x hx
        rcases List.mem_append.1 hx with hx | hx
        · exact hk x hx
        · rw [List.mem_singleton.1 hx]; exact hb
    · refine ⟨by rw [h4]; simpa [upd_ne _ _ hd] using room.keys, hev, fun u b1 off1 s1 old1 hd1 hu => ?_⟩
      have hut : u ≠ t := by rintro rfl; exact hd hd1.symm
      rw [oth hut] at hu; exact room.want u b1 off1 s1 old1 hd1 hu

theorem CapOK.comm {P : DistParams β} {st st' : DistState β} {ev : List Event} {r : Nat}
    (hs : CommStep P r st st') (c : CapOK P st ev) : CapOK P st' ev := by
  obtain ⟨ecl, epc⟩ := comm_users hs
  intro d S hS hask
  have room := c d S hS hask
  refine ⟨by rw [ecl]; exact room.keys, room.none, fun u b off s old hd hu => ?_⟩
  rw [epc] at hu; exact room.want u b off s old hd hu

/-! ### The counters -/

def CountOK (c : Nat → Counters) (ev : List Event) : Prop :=
  ∀ d, (c d).native .file = fileCount d ev % ulongRange

theorem file_events {P : DistParams β} {st st' : DistState β} {t : Nat} (hs : Shape P t st st') (d : Nat) :
    fileCount d (Spec.events (P.dom t) (st.pc (.user t)) (st'.pc (.user t))) =
      if d = P.dom t ∧ pcCounts (fun _ => .file) (st.pc (.user t)) (st'.pc (.user t)) = some .file then 1 else 0 := by
  cases hs with
  | call b off h1 h2 =>
    have hself : st'.pc (.user t) = .wantCm b off := by rw [h2]; exact upd_self ..
    rw [h1, hself]; simp [Spec.events, fileCount, pcCounts]
  | look b off s c' old h1 h2 h3 h4 =>
    have hself : st'.pc (.user t) = .wantSlot b off s old := by rw [h4]; exact upd_self ..
    rw [h1, hself]; simp [Spec.events, fileCount, pcCounts]
  | lock b off s old h1 h2 h3 =>
    have hself : st'.pc (.user t) = .own b off s (if old = some b then .use else .del old) := by
      rw [h3]; exact upd_self ..
    rw [h1, hself]
    cases old with
    | none => simp [Spec.events, fileCount, pcCounts]
    | some o => by_cases ho : o = b <;> simp [Spec.events, fileCount, pcCounts, ho]
  | ret b off s v h1 h2 =>
    have hself : st'.pc (.user t) = .idle := by rw [h2]; exact upd_self ..
    rw [h1, hself]; simp [Spec.events, fileCount, pcCounts]
  | own b off s ph ph' o m =>
    rw [o.hpc, o.pc_self]
    cases m
    case load e =>
      show fileCount d [.fill (P.dom t) b .file] = _
      by_cases hd : d = P.dom t
      · subst hd; simp [fileCount, pcCounts]
      · have : ¬ P.dom t = d := fun e => hd e.symm
        simp [fileCount, hd, this]
    case pre h1 h2 =>
      cases ph <;> cases ph' <;>
        first
          | (cases h1; done)
          | (cases h2; done)
          | simp [Spec.events, fileCount, pcCounts, copiesFrom]
    all_goals simp [Spec.events, fileCount, pcCounts, copiesFrom]

theorem CountOK.user {P : DistParams β} {s s' : CntState β} {ev : List Event} {t : Nat}
    (hs : CacheCount P t s s') (k : CountOK s.c ev) :
    CountOK s'.c (ev ++ Spec.events (P.dom t) (s.st.pc (.user t)) (s'.st.pc (.user t))) := by
  intro d
  rw [hs.2, bump_native (.inr (.inr (.inr rfl))) (k d), ← file_events (user_shape hs.1) d]
  unfold fileCount; rw [List.countP_append]

/-! ### Every history -/

structure HistOK (P : DistParams β) (s : CntState β) (ev : List Event) : Prop where
  reach : DistReach P s.st
  fill : FillOK P s.st ev
  known : KnownOK P s.st ev
  ask : AskOK P s.st ev
  cap : CapOK P s.st ev
  count : CountOK s.c ev
  read : P.mode = .window → ReadOK P s.st ev

theorem HistOK.start {P : DistParams β} (hl : Legal P) {c : CacheList}
    (hc : CacheList.init P.size P.handDiff = some c) :
    HistOK P ⟨DistState.start P c, fun _ => {}⟩ [] := by
  have hr : DistReach P (DistState.start P c) := .init ⟨c, hc, rfl⟩
  have h := DistInv.reach hl.domains hl.size hl.hand hr
  obtain ⟨c0, h', e, inv, hsz, hb0, hi0, hp0, hr0, -⟩ := CacheList.init_inv hl.size hl.hand
  rw [hc] at e; injection e with e; subst e
  have hno : ∀ d s b, ¬ Assigned P (DistState.start P c) d s b := by
    rintro d s b (⟨t, b', off, hp, -⟩ | ⟨-, hi⟩)
    · cases hp
    · simp only [Idx, DistState.start] at hi
      rw [hi0, List.getElem?_replicate] at hi
      split at hi <;> cases hi
  refine ⟨hr, ⟨?_, ?_, ?_, fun _ _ => between_nil⟩, ⟨?_, ?_, ?_, ?_, ?_, ?_, ?_⟩, ⟨?_, ?_, ?_, ?_⟩, ?_, ?_, fun _ => ⟨?_, ?_, fun _ => between_nil⟩⟩
  · intro t b off s o hp; cases hp
  · intro d b hr; exact absurd hr recent_nil
  · intro t b off s ph hp; cases hp
  · intro d s b ha; exact absurd ha (hno d s b)
  · intro t b off s ph hp; cases hp
  · intro t b off s o hp; cases hp
  · intro r t b i s k buf hp; cases hp
  · intro t b off s r buf hp; cases hp
  · intro d b k hk; cases hk
  · intro d b hk; cases hk
  · intro t b hp; cases hp
  · intro d b hk; cases hk
  · intro d b k hk; cases hk
  · intro d b hk; cases hk
  · intro d S hS hask
    refine ⟨⟨[], by simp, ?_⟩, by simp, fun t b off s old _ hp => by cases hp⟩
    show FillInv c []
    refine ⟨by simp, List.nodup_nil, by simp [hi0, hsz], ?_, fun j _ => hr0 j⟩
    rw [hp0, hsz]; simp
  · intro d; rfl
  · intro b hr; exact absurd hr recent_nil
  · intro t b off s e hp; cases hp

/-- Without the communication thread there are no steps of it. -/
theorem no_comm {P : DistParams β} {st st' : DistState β} {r : Nat} (hl : Legal P) (hm : P.mode ≠ .thread)
    (h : DistReach P st) (hs : CommStep P r st st') : False :=
  no_comm_idle (DistInv.reach hl.domains hl.size hl.hand h) hm (comm_idle hl hm h r) hs

theorem hist_ok {P : DistParams β} (hl : Legal P) {s : CntState β} {ev : List Event}
    (h : EventHistory P s ev) : HistOK P s ev := by
  induction h with
  | opened c hc => exact .start hl hc
  | @user s s' ev t _ hs ih =>
    have h := DistInv.reach hl.domains hl.size hl.hand ih.reach
    have hr : DistReach P s'.st := .step ih.reach (.user t hs.1)
    have h' := DistInv.reach hl.domains hl.size hl.hand hr
    have sh := user_shape hs.1
    exact ⟨hr, ih.fill.user sh h h', ih.known.user hs.1 h h', ih.ask.user sh, ih.cap.user sh h ih.ask,
      ih.count.user hs, fun hm => ReadOK.user hl.domains hm hs.1 h (ih.read hm)⟩
  | @comm s ev st' r _ hs ih =>
    have h := DistInv.reach hl.domains hl.size hl.hand ih.reach
    refine ⟨.step ih.reach (.comm r hs), ih.fill.comm hs, ih.known.comm hs h, ih.ask.comm hs,
      ih.cap.comm hs, ih.count, fun hm => ?_⟩
    exact (no_comm hl (by rw [hm]; nofun) ih.reach hs).elim

/-! ### Counting -/

theorem between_tail {R E : Event → Prop} {x : Event} {ev : List Event} (h : Between R E (x :: ev)) :
    Between R E ev := by
  intro pre y mid z post e hy hz
  exact h (x :: pre) y mid z post (by rw [e]; rfl) hy hz

/-- Events of which there is at most one for each block. -/
theorem once_nodup {f : Event → Option Nat} {ev : List Event}
    (h : ∀ b, Between (fun x => f x = some b) (fun _ => False) ev) : (ev.filterMap f).Nodup := by
  induction ev with
  | nil => exact List.nodup_nil
  | cons x ev ih =>
    have ih := ih fun b => between_tail (h b)
    rw [List.filterMap_cons]
    split
    · exact ih
    · next b hb =>
      refine List.nodup_cons.2 ⟨fun hm => ?_, ih⟩
      obtain ⟨y, hy, hyb⟩ := List.mem_filterMap.1 hm
      obtain ⟨mid, post, rfl⟩ := List.append_of_mem hy
      obtain ⟨z, -, hz⟩ := h b [] x mid y post rfl hb hyb
      exact hz

/-- The block that domain `d` copies. -/
def fillBlock (d : Nat) : Event → Option Nat
  | .fill d' b _ => if d' = d then some b else none
  | _ => none

/-- The block that is read from the file. -/
def readBlock : Event → Option Nat
  | .fill _ b .file => some b
  | _ => none

theorem fillBlock_iff {d b : Nat} {x : Event} : fillBlock d x = some b ↔ FillOf d b x := by
  unfold FillOf
  cases x <;> simp [fillBlock]

theorem readBlock_iff {b : Nat} {x : Event} : readBlock x = some b ↔ ReadOf b x := by
  unfold ReadOf
  cases x <;> simp [readBlock]
  next d' b' k => cases k <;> simp

theorem fillCount_eq (d : Nat) (ev : List Event) : fillCount d ev = (ev.filterMap (fillBlock d)).length := by
  induction ev with
  | nil => rfl
  | cons x ev ih =>
    unfold fillCount at ih ⊢
    rw [List.countP_cons, ih, List.filterMap_cons]
    cases x <;> simp [fillBlock]
    next d' b k => by_cases hd : d' = d <;> simp [hd]

theorem copyCount_eq (d b : Nat) (ev : List Event) : copyCount d b ev = (ev.filterMap (fillBlock d)).count b := by
  induction ev with
  | nil => rfl
  | cons x ev ih =>
    unfold copyCount at ih ⊢
    rw [List.countP_cons, ih, List.filterMap_cons]
    cases x <;> simp [fillBlock]
    next d' b' k => by_cases hd : d' = d <;> simp [hd, List.count_cons]

theorem readCount_eq (b : Nat) (ev : List Event) : readCount b ev = (ev.filterMap readBlock).count b := by
  induction ev with
  | nil => rfl
  | cons x ev ih =>
    unfold readCount at ih ⊢
    rw [List.countP_cons, ih, List.filterMap_cons]
    cases x <;> simp [readBlock]
    next d' b' k => cases k <;> simp [readBlock, List.count_cons]

/-- The reads of some domains are among all reads. -/
theorem fileCount_sum (D : List Nat) (hD : D.Nodup) (ev : List Event) :
    (D.map fun d => fileCount d ev).sum ≤ (ev.filterMap readBlock).length ∧
      ((∀ d b, Event.fill d b .file ∈ ev → d ∈ D) →
        (D.map fun d => fileCount d ev).sum = (ev.filterMap readBlock).length) := by
  induction ev with
  | nil => simp [fileCount]
  | cons x ev ih =>
    have step : (D.map fun d => fileCount d (x :: ev)).sum = (D.map fun d => fileCount d ev).sum +
        (D.map fun d => fileCount d [x]).sum := by
      rw [← List.sum_map_add]
      congr 1
      apply List.map_congr_left
      intro d _
      unfold fileCount
      rw [show x :: ev = [x] ++ ev from rfl, List.countP_append, Nat.add_comm]
    rw [step, List.filterMap_cons]
    have one : ∀ d0 b, (D.map fun d => fileCount d [.fill d0 b .file]).sum = D.count d0 := by
      intro d0 b
      clear hD step ih
      induction D with
      | nil => rfl
      | cons d D ih =>
        rw [List.map_cons, List.sum_cons, ih, List.count_cons, Nat.add_comm]
        congr 1
        by_cases h : d0 = d
        · subst h; simp [fileCount]
        · have : ¬ d = d0 := fun e => h e.symm
          simp [fileCount, h, this]
    cases hx : readBlock x with
    | none =>
      have hz : (D.map fun d => fileCount d [x]).sum = 0 := by
        rw [List.sum_eq_zero]
        intro n hn
        obtain ⟨d, -, rfl⟩ := List.mem_map.1 hn
        cases x <;> simp_all [fileCount, readBlock]
        next d' b k => cases k <;> simp_all [readBlock]
      rw [hz]
      exact ⟨ih.1, fun h => ih.2 fun d b hm => h d b (List.mem_cons_of_mem _ hm)⟩
    | some b =>
      obtain ⟨d0, rfl⟩ := readBlock_iff.1 hx
      rw [one d0 b]
      have hle := List.nodup_iff_count_le_one.1 hD d0
      simp only [List.length_cons]
      refine ⟨Nat.add_le_add ih.1 hle, fun h => ?_⟩
      rw [ih.2 fun d b hm => h d b (List.mem_cons_of_mem _ hm)]
      congr 1
      have := List.count_pos_iff.2 (h d0 b (List.mem_cons_self ..))
      omega

end Asagi
