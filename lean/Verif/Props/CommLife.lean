import Verif.Spec.CommLife
import Mathlib.Data.List.Induction
import Mathlib.Tactic.SplitIfs
/-
C66: starting and stopping the communication thread.
-/
namespace Asagi.Props
open Asagi Spec

theorem life_run_append (a b : List LifeOp) : ∀ w : LifeWorld,
    w.run (a ++ b) = (w.run a).bind fun w' => w'.run b := by
  induction a with
  | nil => intro w; rfl
  | cons op a ih =>
    intro w
    simp only [List.cons_append, LifeWorld.run]
    split
    · rfl
    · exact ih _

/-- The two parts of a history. -/
theorem life_run_split {w w' : LifeWorld} {a b : List LifeOp} (h : w.run (a ++ b) = some w') :
    ∃ v, w.run a = some v ∧ v.run b = some w' := by
  rw [life_run_append] at h
  cases ha : w.run a with
  | none => simp [ha] at h
  | some v => exact ⟨v, rfl, by simpa [ha] using h⟩

theorem life_run_cons {w w' : LifeWorld} {op : LifeOp} {b : List LifeOp}
    (h : w.run (op :: b) = some w') :
    (∀ r ∈ op.callers, w.result op r ≠ .hangs ∧ w.result op r ≠ .fault) ∧
      (w.step op).run b = some w' := by
  simp only [LifeWorld.run] at h
  split at h
  · cases h
  · rename_i hn
    refine ⟨fun r hr => ?_, h⟩
    simp only [List.any_eq_true, not_exists, not_and] at hn
    have := hn r hr
    constructor <;> intro e <;> simp [e] at this

theorem life_run_induct {P : List LifeOp → LifeWorld → Prop} {w0 : LifeWorld} (h0 : P [] w0)
    (hs : ∀ h w op w', w0.run h = some w → P h w → w.run [op] = some w' → P (h ++ [op]) w') :
    ∀ h w, w0.run h = some w → P h w := by
  intro h
  induction h using List.reverseRecOn with
  | nil => intro w hw; cases hw; exact h0
  | append_singleton h op ih =>
    intro w hw
    obtain ⟨v, hv, hw⟩ := life_run_split hw
    exact hs h v op w hv (ih v hv) hw

/-- One call. -/
theorem life_run_one {w w' : LifeWorld} {op : LifeOp} (h : w.run [op] = some w') :
    w' = w.step op := by
  have := (life_run_cons h).2
  exact (Option.some.inj this).symm

theorem started_iff {w : LifeWorld} {r : Nat} :
    w.started r = true ↔ (w.proc r).comm ≠ none := by
  simp [LifeWorld.started, Option.isSome_iff_ne_none]

/-- Without a start the thread stays stopped. -/
theorem stopped_step {w : LifeWorld} {r : Nat} (op : LifeOp)
    (hop : ∀ comm created, op = .start comm created → r ∉ comm)
    (hw : (w.proc r).comm = none) : ((w.step op).proc r).comm = none := by
  cases op with
  | start comm created =>
    have := hop comm created rfl
    simp only [LifeWorld.step]
    split
    · exact hw
    · simpa [this] using hw
  | stop x =>
    simp only [LifeWorld.step, upd_apply]
    split <;> simp_all
  | «open» g comm =>
    simp only [LifeWorld.step]
    split
    · simp only []
      split <;> simpa using hw
    · exact hw
  | close g x =>
    simp only [LifeWorld.step]
    split
    · exact hw
    · simp only [upd_apply]
      split <;> simp_all

theorem stopped_run {r : Nat} : ∀ (b : List LifeOp) (w w' : LifeWorld),
    w.run b = some w' → (∀ comm created, LifeOp.start comm created ∈ b → r ∉ comm) →
    (w.proc r).comm = none → (w'.proc r).comm = none := by
  intro b
  induction b with
  | nil => intro w w' h _ hn; cases h; exact hn
  | cons op b ih =>
    intro w w' h hb hn
    have h1 := (life_run_cons h).2
    exact ih _ _ h1 (fun c cr hm => hb c cr (List.mem_cons_of_mem _ hm))
      (stopped_step op (fun c cr e => hb c cr (e ▸ List.mem_cons_self)) hn)

theorem notStarted_stopped {h : List LifeOp} {w : LifeWorld} {r : Nat}
    (hw : LifeWorld.init.run h = some w) (hn : NotStarted h r) : w.started r = false := by
  obtain ⟨a, b, rfl, ha, hb⟩ := hn
  obtain ⟨v, hv, hw⟩ := life_run_split hw
  have hv0 : (v.proc r).comm = none := by
    rcases ha with rfl | ⟨a', rfl⟩
    · cases hv; rfl
    · obtain ⟨u, _, hu⟩ := life_run_split hv
      rw [life_run_one hu]
      simp [LifeWorld.step]
  have := stopped_run b v w hw hb hv0
  simp [LifeWorld.started, this]

/-- A started thread goes on until it is stopped. -/
theorem started_step {w : LifeWorld} {r : Nat} (op : LifeOp) (hop : op ≠ .stop r)
    {mc : Nat × List Nat} (hw : (w.proc r).comm = some mc) :
    ((w.step op).proc r).comm = some mc ∧ ((w.step op).proc r).running = (w.proc r).running := by
  cases op with
  | start comm created =>
    simp only [LifeWorld.step]
    split
    · exact ⟨hw, rfl⟩
    · rename_i hn
      have : r ∉ comm := by
        intro hr
        apply hn
        simp only [List.any_eq_true]
        exact ⟨r, hr, by simp [LifeWorld.started, hw]⟩
      simp [this, hw]
  | stop x =>
    have : r ≠ x := fun e => hop (by rw [e])
    simp [LifeWorld.step, upd_ne _ _ this, hw]
  | «open» g comm =>
    simp only [LifeWorld.step]
    split
    · simp only []
      split <;> exact ⟨hw, rfl⟩
    · exact ⟨hw, rfl⟩
  | close g x =>
    simp only [LifeWorld.step]
    split
    · exact ⟨hw, rfl⟩
    · simp only [upd_apply]
      split
      · rename_i e; subst e; exact ⟨hw, rfl⟩
      · exact ⟨hw, rfl⟩

theorem started_run {r : Nat} {mc : Nat × List Nat} : ∀ (b : List LifeOp) (w w' : LifeWorld),
    w.run b = some w' → LifeOp.stop r ∉ b → (w.proc r).comm = some mc →
    (w'.proc r).comm = some mc ∧ (w'.proc r).running = (w.proc r).running := by
  intro b
  induction b with
  | nil => intro w w' h _ hn; cases h; exact ⟨hn, rfl⟩
  | cons op b ih =>
    intro w w' h hb hn
    have h1 := (life_run_cons h).2
    have hs := started_step (w := w) (r := r) op
      (fun e => hb (e ▸ List.mem_cons_self)) hn
    have := ih _ _ h1 (fun hm => hb (List.mem_cons_of_mem _ hm)) hs.1
    exact ⟨this.1, this.2.trans hs.2⟩

/-- After a start that returned SUCCESS on `r`. -/
theorem started_after {a b : List LifeOp} {comm : List Nat} {created : Nat → Bool} {v w : LifeWorld}
    {r : Nat} (hv : LifeWorld.init.run a = some v)
    (hok : v.result (.start comm created) r = .success) (hr : r ∈ comm)
    (hw : LifeWorld.init.run (a ++ .start comm created :: b) = some w) (hb : LifeOp.stop r ∉ b) :
    (w.proc r).comm = some (v.comms, comm) ∧ (w.proc r).running = true := by
  obtain ⟨v', hv', hw⟩ := life_run_split hw
  cases hv.symm.trans hv'
  have h1 := (life_run_cons hw).2
  simp only [LifeWorld.result] at hok
  split at hok
  · cases hok
  · rename_i hn
    split at hok
    · rename_i hc
      have e : ((v.step (.start comm created)).proc r).comm = some (v.comms, comm) ∧
          ((v.step (.start comm created)).proc r).running = true := by
        simp [LifeWorld.step, hn, hr, hc]
      have := started_run b _ _ h1 hb e.1
      exact ⟨this.1, this.2.trans e.2⟩
    · cases hok

/-- C66: `startCommThread` succeeds on all processes (as far as the operating system can create
threads) if the thread is running on none of them. -/
theorem C66_start_succeeds (h : List LifeOp) (w : LifeWorld) (hw : LifeWorld.init.run h = some w)
    (comm : List Nat) (hn : ∀ r ∈ comm, NotStarted h r) (created : Nat → Bool) (r : Nat) :
    w.result (.start comm created) r = (if created r then .success else .threadError) := by
  have : comm.any w.started = false := by
    rw [List.any_eq_false]
    intro x hx
    simp [notStarted_stopped hw (hn x hx)]
  simp [LifeWorld.result, this]

/-- C66: if the thread was started on some process and not stopped there since, another start reports
ALREADY_INITIALIZED to every process of the communicator and changes nothing. -/
theorem C66_start_twice (a b : List LifeOp) (comm1 : List Nat) (created1 : Nat → Bool)
    (v w : LifeWorld) (hv : LifeWorld.init.run a = some v)
    (hw : LifeWorld.init.run (a ++ .start comm1 created1 :: b) = some w)
    (r : Nat) (hr1 : r ∈ comm1) (hok : v.result (.start comm1 created1) r = .success)
    (hb : LifeOp.stop r ∉ b) (comm2 : List Nat) (hr2 : r ∈ comm2) (created2 : Nat → Bool) :
    (∀ x, w.result (.start comm2 created2) x = .alreadyInitialized) ∧
      w.step (.start comm2 created2) = w := by
  have h1 := (started_after hv hok hr1 hw hb).1
  have : comm2.any w.started = true := by
    rw [List.any_eq_true]
    exact ⟨r, hr2, by simp [LifeWorld.started, h1]⟩
  simp [LifeWorld.result, LifeWorld.step, this]

/-- C66: after a successful start, `stopCommThread` returns, also with open grids. -/
theorem C66_stop_returns (a b : List LifeOp) (comm : List Nat) (created : Nat → Bool)
    (v w : LifeWorld) (hv : LifeWorld.init.run a = some v)
    (hw : LifeWorld.init.run (a ++ .start comm created :: b) = some w)
    (r : Nat) (hr : r ∈ comm) (hok : v.result (.start comm created) r = .success)
    (hb : LifeOp.stop r ∉ b) (x : Nat) : w.result (.stop r) x = .success := by
  have h1 := started_after hv hok hr hw hb
  simp [LifeWorld.result, LifeWorld.started, h1.1, h1.2]

/-- C66: opening a grid while the thread runs on none of its processes reports NOT_INITIALIZED to all
of them and changes nothing. -/
theorem C66_open_not_started (h : List LifeOp) (w : LifeWorld)
    (hw : LifeWorld.init.run h = some w) (g : Nat) (comm : List Nat)
    (hn : ∀ r ∈ comm, NotStarted h r) (r : Nat) (hr : r ∈ comm) :
    w.result (.open g comm) r = .notInitialized ∧ w.step (.open g comm) = w := by
  have hs := notStarted_stopped hw (hn r hr)
  have : comm.all w.started = false := by
    rw [List.all_eq_false]
    exact ⟨r, hr, by simp [hs]⟩
  simp [LifeWorld.result, LifeWorld.step, this, hs]

theorem openOn_append {h : List LifeOp} {g r : Nat} (ho : OpenOn h g r) (op : LifeOp)
    (hop : op ≠ .close g r) : OpenOn (h ++ [op]) g r := by
  obtain ⟨a, comm, b, rfl, hr, hc⟩ := ho
  refine ⟨a, comm, b ++ [op], by simp, hr, ?_⟩
  simp only [List.mem_append, List.mem_singleton, not_or]
  exact ⟨hc, fun e => hop e.symm⟩

/-- A grid that has stored a tag is open. -/
theorem tag_open : ∀ (h : List LifeOp) (w : LifeWorld), LifeWorld.init.run h = some w →
    ∀ r g t, (w.proc r).tag g = some t → OpenOn h g r := by
  apply life_run_induct
  · intro r g t ht; simp [LifeWorld.init] at ht
  · intro h w op w' _ ih hw' r g t ht
    rw [life_run_one hw'] at ht
    cases op with
    | start comm created =>
      refine openOn_append (ih r g t ?_) _ nofun
      simp only [LifeWorld.step] at ht
      split at ht
      · exact ht
      · simp only [] at ht
        split at ht <;> exact ht
    | stop x =>
      refine openOn_append (ih r g t ?_) _ nofun
      simp only [LifeWorld.step, upd_apply] at ht
      split at ht
      · rename_i e; subst e; exact ht
      · exact ht
    | «open» g' comm =>
      simp only [LifeWorld.step] at ht
      split at ht
      · simp only [] at ht
        split at ht
        · rename_i hr
          simp only [upd_apply] at ht
          split at ht
          · rename_i e
            subst e
            exact ⟨h, comm, [], rfl, hr, by simp⟩
          · exact openOn_append (ih r g t ht) _ nofun
        · exact openOn_append (ih r g t ht) _ nofun
      · exact openOn_append (ih r g t ht) _ nofun
    | close g' x =>
      by_cases e : LifeOp.close g' x = .close g r
      · cases e
        simp only [LifeWorld.step] at ht
        split at ht
        · rename_i h0; simp [h0] at ht
        · simp at ht
      · refine openOn_append (ih r g t ?_) _ e
        simp only [LifeWorld.step] at ht
        split at ht
        · exact ht
        · simp only [upd_apply] at ht
          split at ht
          · rename_i e1
            subst e1
            simp only [upd_apply] at ht
            split at ht
            · cases ht
            · exact ht
          · exact ht

theorem Orderly.left {a b : List LifeOp} (h : Orderly (a ++ b)) : Orderly a :=
  fun x r y e => h x r (y ++ b) (by rw [e]; simp)

theorem maxTag_ge (w : LifeWorld) (comm : List Nat) (r : Nat) (h : r ∈ comm) :
    (w.proc r).nextTag ≤ w.maxTag comm := by
  unfold LifeWorld.maxTag
  induction comm with
  | nil => simp at h
  | cons x xs ih =>
    simp only [List.foldr_cons]
    rcases List.mem_cons.1 h with e | e
    · subst e; omega
    · have := ih e; omega

theorem maxTag_le (w : LifeWorld) (comm : List Nat) (n : Nat) (h : ∀ r, (w.proc r).nextTag ≤ n) :
    w.maxTag comm ≤ n := by
  unfold LifeWorld.maxTag
  induction comm with
  | nil => simp
  | cons x xs ih =>
    simp only [List.foldr_cons]
    have := h x
    omega

/-- The tags of all grids are below m_nextTag and lead to their receivers. -/
def TagsOk (w : LifeWorld) : Prop :=
  ∀ r g t, (w.proc r).tag g = some t →
    t < (w.proc r).nextTag ∧ ∃ comm, (w.proc r).receiver t = some ⟨g, comm⟩

theorem tags_ok (h : List LifeOp) (w : LifeWorld) (hw : LifeWorld.init.run h = some w) :
    Orderly h → TagsOk w := by
  refine life_run_induct (P := fun h w => Orderly h → TagsOk w) ?_ ?_ h w hw
  · intro _ r g t ht; simp [LifeWorld.init] at ht
  · intro h w op w' hw ih hw' ho r g t ht
    have ih := ih (Orderly.left ho)
    have ht0 := ht
    rw [life_run_one hw'] at ht ⊢
    cases op with
    | start comm created =>
      simp only [LifeWorld.step] at ht ⊢
      split at ht
      · rename_i hc; simpa [hc] using ih r g t ht
      · rename_i hc
        simp only [hc] at ht ⊢
        split at ht
        · rename_i hr; simpa [hr] using ih r g t ht
        · rename_i hr; simpa [hr] using ih r g t ht
    | stop x =>
      simp only [LifeWorld.step, upd_apply] at ht ⊢
      split at ht
      · rename_i e
        subst e
        exact absurd (tag_open h w hw r g t ht) (ho h r [] rfl g)
      · rename_i e; simpa [e] using ih r g t ht
    | «open» g' comm =>
      simp only [LifeWorld.step] at ht ⊢
      split at ht
      · rename_i hc
        simp only [hc, if_true] at ht ⊢
        split at ht
        · rename_i hr
          simp only [hr, if_true]
          simp only [upd_apply] at ht
          split at ht
          · rename_i e
            subst e
            cases ht
            exact ⟨by omega, comm, by simp⟩
          · obtain ⟨h1, c, h2⟩ := ih r g t ht
            have := maxTag_ge w comm r hr
            exact ⟨by omega, c, by rw [upd_ne _ _ (by omega)]; exact h2⟩
        · rename_i hr; simpa [hr] using ih r g t ht
      · rename_i hc
        simpa [hc] using ih r g t ht
    | close g' x =>
      simp only [LifeWorld.step] at ht ⊢
      split at ht
      · rename_i hc; simpa [hc] using ih r g t ht
      · rename_i t' hc
        simp only [upd_apply] at ht ⊢
        split at ht
        · rename_i e
          subst e
          simp only [if_true] at ht ⊢
          simp only [upd_apply] at ht
          split at ht
          · cases ht
          · rename_i hg
            obtain ⟨h1, c, h2⟩ := ih r g t ht
            obtain ⟨h1', c', h2'⟩ := ih r g' t' hc
            refine ⟨h1, c, ?_⟩
            rw [upd_ne]
            · exact h2
            · intro e
              subst e
              rw [h2] at h2'
              exact hg (by cases h2'; rfl)
        · rename_i e; simpa [e] using ih r g t ht

/-- m_nextTag counts at most the registrations. -/
theorem nextTag_opens : ∀ (h : List LifeOp) (w : LifeWorld), LifeWorld.init.run h = some w →
    ∀ r, (w.proc r).nextTag ≤ opens h := by
  apply life_run_induct
  · intro r; simp [LifeWorld.init]
  · intro h w op w' _ ih hw' r
    rw [life_run_one hw']
    have hap : opens (h ++ [op]) = opens h + opens [op] := by simp [opens]
    rw [hap]
    have i := ih r
    cases op with
    | start comm created =>
      simp only [LifeWorld.step]
      split
      · omega
      · simp only []
        split <;> first | omega | (simp only []; omega)
    | stop x =>
      simp only [LifeWorld.step, upd_apply]
      split
      · simp only []; omega
      · omega
    | «open» g comm =>
      have h1 : opens [LifeOp.open g comm] = 1 := rfl
      simp only [LifeWorld.step]
      have := maxTag_le w comm _ ih
      split
      · simp only []
        split
        · simp only []; omega
        · omega
      · omega
    | close g x =>
      simp only [LifeWorld.step]
      split
      · omega
      · simp only [upd_apply]
        split
        · rename_i e; subst e; simp only []; omega
        · omega

/-- The receiver of an open grid stays where it is. -/
theorem receiver_step {h : List LifeOp} {w w' : LifeWorld} {op : LifeOp}
    (hw : LifeWorld.init.run h = some w) (ho : Orderly (h ++ [op])) (hw' : w.run [op] = some w')
    {r g t : Nat} {comm : List Nat} (hop : ∀ c, op ≠ .open g c) (hcl : op ≠ .close g r)
    (ht : (w.proc r).tag g = some t) (hrec : (w.proc r).receiver t = some ⟨g, comm⟩) :
    (w'.proc r).tag g = some t ∧ (w'.proc r).receiver t = some ⟨g, comm⟩ := by
  have hok := tags_ok h w hw (Orderly.left ho)
  rw [life_run_one hw']
  cases op with
  | start comm' created =>
    simp only [LifeWorld.step]
    split
    · exact ⟨ht, hrec⟩
    · simp only []
      split <;> exact ⟨ht, hrec⟩
  | stop x =>
    by_cases e : r = x
    · subst e
      exact absurd (tag_open h w hw r g t ht) (ho h r [] rfl g)
    · simp [LifeWorld.step, upd_ne _ _ e, ht, hrec]
  | «open» g' comm' =>
    simp only [LifeWorld.step]
    split
    · simp only []
      split
      · rename_i hr
        have hg : g ≠ g' := fun e => hop comm' (by rw [e])
        have h1 := (hok r g t ht).1
        have h2 := maxTag_ge w comm' r hr
        constructor
        · simp only [upd_ne _ _ hg]; exact ht
        · simp only []
          rw [upd_ne _ _ (by omega)]; exact hrec
      · exact ⟨ht, hrec⟩
    · exact ⟨ht, hrec⟩
  | close g' x =>
    simp only [LifeWorld.step]
    split
    · exact ⟨ht, hrec⟩
    · rename_i t' ht'
      by_cases e : r = x
      · subst e
        have hg : g ≠ g' := fun e => hcl (by rw [e])
        obtain ⟨_, c', h2⟩ := hok r g' t' ht'
        have htt : t ≠ t' := by
          intro e
          subst e
          rw [hrec] at h2
          cases h2
          exact hg rfl
        simp only [upd_self, upd_ne _ _ hg, upd_ne _ _ htt]
        exact ⟨ht, hrec⟩
      · simp only [upd_ne _ _ e]
        exact ⟨ht, hrec⟩

theorem receiver_run {r g t : Nat} {comm : List Nat} : ∀ (b h : List LifeOp) (w w' : LifeWorld),
    LifeWorld.init.run h = some w → Orderly (h ++ b) → w.run b = some w' →
    (∀ c, LifeOp.open g c ∉ b) → LifeOp.close g r ∉ b →
    (w.proc r).tag g = some t → (w.proc r).receiver t = some ⟨g, comm⟩ →
    (w'.proc r).tag g = some t ∧ (w'.proc r).receiver t = some ⟨g, comm⟩ := by
  intro b
  induction b with
  | nil => intro h w w' _ _ hb _ _ h1 h2; cases hb; exact ⟨h1, h2⟩
  | cons op b ih =>
    intro h w w' hw ho hb hop hcl h1 h2
    have e : op :: b = [op] ++ b := rfl
    rw [e] at hb ho
    obtain ⟨u, hu, hb⟩ := life_run_split hb
    rw [← List.append_assoc] at ho
    have hs := receiver_step hw (Orderly.left ho) hu
      (fun c e => hop c (by rw [← e]; exact List.mem_cons_self))
      (fun e => hcl (by rw [← e]; exact List.mem_cons_self)) h1 h2
    refine ih (h ++ [op]) u w' ?_ ho hb (fun c hm => hop c (List.mem_cons_of_mem _ hm))
      (fun hm => hcl (List.mem_cons_of_mem _ hm)) hs.1 hs.2
    rw [life_run_append, hw]
    exact hu

/-- While the grid is open, its process does not stop the thread. -/
theorem no_stop {h b : List LifeOp} {g r : Nat} {comm : List Nat} (hr : r ∈ comm)
    (ho : Orderly (h ++ .open g comm :: b)) (hcl : LifeOp.close g r ∉ b) : LifeOp.stop r ∉ b := by
  intro hs
  obtain ⟨b1, b2, rfl⟩ := List.append_of_mem hs
  refine ho (h ++ .open g comm :: b1) r b2 (by simp) g ⟨h, comm, b1, rfl, hr, ?_⟩
  exact fun hm => hcl (List.mem_append_left _ hm)

/-- C66 (partial: processes stop their threads only after they have closed their grids, see
`C66_restart_violated`, and the tags do not run out, see `C40_reserved_tags_violated`): through all
starts, stops, opens and closes of other grids, a message from process `r` to rank `k` of the
communicator of an open grid reaches this grid on that process, with the right sender and data. -/
theorem C66_delivery_partial (h b : List LifeOp) (g : Nat) (comm : List Nat) (v w : LifeWorld)
    (hv : LifeWorld.init.run h = some v) (hw : LifeWorld.init.run (h ++ .open g comm :: b) = some w)
    (ho : Orderly (h ++ .open g comm :: b)) (hn : opens (h ++ .open g comm :: b) ≤ 32766)
    -- one running thread for all members of the communicator
    (mc : Nat × List Nat) (hmc : ∀ x ∈ comm, (v.proc x).comm = some mc ∧ (v.proc x).running = true ∧
      x ∈ mc.2)
    (hb : ∀ c, LifeOp.open g c ∉ b) (r k d data : Nat) (hr : r ∈ comm) (hd : comm[k]? = some d)
    (hcr : LifeOp.close g r ∉ b) (hcd : LifeOp.close g d ∉ b) :
    ∃ m, w.send r g k data = some m ∧ m.dest = d ∧
      w.handle m = some (.delivered g (comm.idxOf r) data) := by
  have hdm : d ∈ comm := List.mem_of_getElem? hd
  have hsplit : LifeWorld.init.run (h ++ .open g comm :: b) =
      LifeWorld.init.run ((h ++ [.open g comm]) ++ b) := by simp
  rw [hsplit] at hw
  obtain ⟨u, hu, hub⟩ := life_run_split hw
  have hvu : u = v.step (.open g comm) := by
    rw [life_run_append, hv] at hu
    exact life_run_one hu
  have hall : comm.all v.started = true := by
    rw [List.all_eq_true]
    intro x hx
    simp [LifeWorld.started, (hmc x hx).1]
  have ho' : Orderly ((h ++ [.open g comm]) ++ b) := by
    have e : (h ++ [.open g comm]) ++ b = h ++ .open g comm :: b := by simp
    rw [e]; exact ho
  have key : ∀ x ∈ comm, LifeOp.close g x ∉ b →
      (w.proc x).tag g = some (v.maxTag comm) ∧
      (w.proc x).receiver (v.maxTag comm) = some ⟨g, comm⟩ ∧
      (w.proc x).comm = some mc ∧ (w.proc x).running = true := by
    intro x hx hcx
    have h1 : (u.proc x).tag g = some (v.maxTag comm) ∧
        (u.proc x).receiver (v.maxTag comm) = some ⟨g, comm⟩ ∧ (u.proc x).comm = some mc ∧
        (u.proc x).running = true := by
      rw [hvu]
      simp [LifeWorld.step, hall, hx, (hmc x hx).1, (hmc x hx).2.1]
    have h2 := receiver_run b _ u w hu ho' hub hb hcx h1.1 h1.2.1
    have h3 := started_run b u w hub (no_stop hx ho hcx) h1.2.2.1
    exact ⟨h2.1, h2.2, h3.1, h3.2.trans h1.2.2.2⟩
  obtain ⟨r1, r2, r3, r4⟩ := key r hr hcr
  obtain ⟨d1, d2, d3, d4⟩ := key d hdm hcd
  have hlt : v.maxTag comm < 32766 := by
    have h1 := maxTag_le v comm _ (nextTag_opens h v hv)
    have h2 : opens (h ++ .open g comm :: b) = opens h + opens [LifeOp.open g comm] + opens b := by
      simp only [opens, List.countP_append, List.countP_cons, List.countP_nil]
      omega
    have h3 : opens [LifeOp.open g comm] = 1 := rfl
    omega
  refine ⟨⟨r, d, v.maxTag comm, data⟩, ?_, rfl, ?_⟩
  · simp [LifeWorld.send, r1, r2, r3, hd, (hmc d hdm).2.2]
  · have e1 : v.maxTag comm ≠ exitTag := by unfold exitTag; omega
    have e2 : v.maxTag comm ≠ unregTag := by unfold unregTag; omega
    simp [LifeWorld.handle, d3, d4, r3, e1, e2, d2]

/-- Start, open grid 1, stop, start again, open grid 2. -/
def exRestart : List LifeOp :=
  [.start [0, 1] (fun _ => true), .open 1 [0, 1], .stop 0, .stop 1, .start [0, 1] (fun _ => true),
    .open 2 [0, 1]]

/-- C66 is violated if a grid is still open when the thread is stopped (commthread.h 200-204 resets
m_nextTag): both grids have the same tag, and closing the old grid removes the receiver of the new
one. A request of the new grid is dropped, so its sender waits forever. -/
theorem C66_restart_violated : ∃ w, LifeWorld.init.run (exRestart ++ [.close 1 1]) = some w ∧
    ∃ m, w.send 0 2 1 5 = some m ∧ w.handle m = some .dropped := by
  refine ⟨((LifeWorld.init.run (exRestart ++ [.close 1 1])).get (by decide)),
    (Option.some_get _).symm, ⟨0, 1, 0, 5⟩, by decide, by decide⟩

/-- C66 is violated by a start that fails: after THREAD_ERROR on process 0 the thread cannot be started
(ALREADY_INITIALIZED) and cannot be stopped (`stopCommThread` waits forever), commthread.h 142-155. -/
theorem C66_failed_start_violated (created : Nat → Bool) (h0 : created 0 = false)
    (again : Nat → Bool) :
    LifeWorld.init.result (.start [0] created) 0 = .threadError ∧
    ∃ w, LifeWorld.init.run [.start [0] created] = some w ∧
      w.result (.start [0] again) 0 = .alreadyInitialized ∧ w.result (.stop 0) 0 = .hangs := by
  have e : LifeWorld.init.run [.start [0] created] =
      some (LifeWorld.init.step (.start [0] created)) := by
    simp [LifeWorld.run, LifeOp.callers, LifeWorld.result, LifeWorld.started, LifeWorld.init, h0]
  refine ⟨by simp [LifeWorld.result, LifeWorld.started, LifeWorld.init, h0], _, e, ?_, ?_⟩
  · simp [LifeWorld.result, LifeWorld.step, LifeWorld.started, LifeWorld.init]
  · simp [LifeWorld.result, LifeWorld.step, LifeWorld.started, LifeWorld.init, h0]

/-- C66 is violated if the thread runs on some of the processes of the grid only: `open` reports
NOT_INITIALIZED to the other ones and does not return on these. -/
theorem C66_some_started_violated : ∃ w,
    LifeWorld.init.run [.start [0] (fun _ => true)] = some w ∧
    w.result (.open 1 [0, 1]) 1 = .notInitialized ∧ w.result (.open 1 [0, 1]) 0 = .hangs :=
  ⟨((LifeWorld.init.run [.start [0] (fun _ => true)]).get (by decide)),
    (Option.some_get _).symm, by decide, by decide⟩

/-- Start, open and close grid 1, stop; start again and open the grids 2 and 3, close grid 2. -/
def exOrderly : List LifeOp :=
  [.start [0, 1] (fun _ => true), .open 1 [0, 1], .close 1 0, .close 1 1, .stop 0, .stop 1,
    .start [0, 1] (fun _ => true), .open 2 [1]]

theorem exOrderly_orderly : Orderly (exOrderly ++ .open 3 [1, 0] :: [.close 2 1]) := by
  intro a r b e g ⟨c, comm, d, e1, hr, hc⟩
  subst e1
  have hlen := congrArg List.length e
  simp [exOrderly] at hlen
  have hj : (exOrderly ++ LifeOp.open 3 [1, 0] :: [.close 2 1])[c.length]? =
      some (.open g comm) := by rw [e]; simp
  have hs : (exOrderly ++ LifeOp.open 3 [1, 0] :: [.close 2 1])[c.length + (d.length + 1)]? =
      some (.stop r) := by
    rw [e, List.append_assoc, List.getElem?_append_right (by omega)]
    simp
  have hd : ∀ (i : Nat) (x : LifeOp), c.length + 1 + i < c.length + (d.length + 1) →
      (exOrderly ++ LifeOp.open 3 [1, 0] :: [.close 2 1])[c.length + 1 + i]? = some x → x ∈ d := by
    intro i x hi hx
    rw [e, List.append_assoc, List.getElem?_append_right (by omega)] at hx
    have e1 : c.length + 1 + i - c.length = i + 1 := by omega
    rw [e1, List.cons_append, List.getElem?_cons_succ, List.getElem?_append_left (by omega)] at hx
    exact List.mem_of_getElem? hx
  have hcl : c.length < 10 := by omega
  generalize hn : c.length = n at hj hs hd hcl
  generalize hm : d.length = m at hs hd
  have : n = 1 := by
    rcases Nat.lt_or_ge n 4 with h4 | h4
    · have : n = 0 ∨ n = 1 ∨ n = 2 ∨ n = 3 := by omega
      rcases this with rfl | rfl | rfl | rfl <;> simp [exOrderly] at hj ⊢
    · exfalso
      have : n + (m + 1) = 5 ∨ 6 ≤ n + (m + 1) := by omega
      rcases this with h5 | h5
      · have : n = 4 := by omega
        subst this
        simp [exOrderly] at hj
      · have h10 : n + (m + 1) < 10 := by omega
        have : n + (m + 1) = 6 ∨ n + (m + 1) = 7 ∨ n + (m + 1) = 8 ∨ n + (m + 1) = 9 := by omega
        rcases this with h | h | h | h <;> rw [h] at hs <;> simp [exOrderly] at hs
  subst this
  have hg : g = 1 ∧ comm = [0, 1] := by
    simp [exOrderly] at hj
    exact ⟨hj.1.symm, hj.2.symm⟩
  obtain ⟨rfl, rfl⟩ := hg
  have h10 : 1 + (m + 1) < 10 := by omega
  have : (m = 2 ∧ r = 0) ∨ (m = 3 ∧ r = 1) := by
    have : m = 0 ∨ m = 1 ∨ m = 2 ∨ m = 3 ∨ m = 4 ∨ m = 5 ∨ m = 6 ∨ m = 7 := by omega
    rcases this with rfl | rfl | rfl | rfl | rfl | rfl | rfl | rfl <;>
      simp [exOrderly] at hs ⊢ <;> exact hs.symm
  rcases this with ⟨rfl, rfl⟩ | ⟨rfl, rfl⟩
  · exact hc (hd 0 _ (by omega) rfl)
  · exact hc (hd 1 _ (by omega) rfl)

/-- The hypotheses of the theorems can be met. -/
example : ∃ w m, LifeWorld.init.run (exOrderly ++ .open 3 [1, 0] :: [.close 2 1]) = some w ∧
    w.send 0 3 0 7 = some m ∧ m.dest = 1 ∧ w.handle m = some (.delivered 3 1 7) := by
  have hw : LifeWorld.init.run (exOrderly ++ .open 3 [1, 0] :: [.close 2 1]) =
      some ((LifeWorld.init.run (exOrderly ++ .open 3 [1, 0] :: [.close 2 1])).get (by decide)) :=
    (Option.some_get _).symm
  have hv : LifeWorld.init.run exOrderly = some ((LifeWorld.init.run exOrderly).get (by decide)) :=
    (Option.some_get _).symm
  obtain ⟨m, h1, h2, h3⟩ := C66_delivery_partial exOrderly [.close 2 1] 3 [1, 0] _ _ hv hw
    exOrderly_orderly (by decide) (1, [0, 1])
    (by intro x hx; simp at hx; rcases hx with rfl | rfl <;> decide)
    (by simp) 0 0 1 7 (by simp) rfl (by simp) (by simp)
  exact ⟨_, m, hw, h1, h2, h3⟩

/-- Starting works again after the stops, and a second start is refused. -/
example : (∀ r ∈ [0, 1], NotStarted (exOrderly.take 6) r) ∧ ¬ NotStarted exOrderly 0 ∧
    ∃ w, LifeWorld.init.run exOrderly = some w ∧
      w.result (.start [0, 2] (fun _ => true)) 2 = .alreadyInitialized := by
  refine ⟨?_, ?_, _, (Option.some_get (x := LifeWorld.init.run exOrderly) (by decide)).symm,
    by decide⟩
  · intro r hr
    simp at hr
    rcases hr with rfl | rfl
    · exact ⟨exOrderly.take 5, [.stop 1], rfl, .inr ⟨exOrderly.take 4, rfl⟩, by simp⟩
    · exact ⟨exOrderly.take 6, [], rfl, .inr ⟨exOrderly.take 5, rfl⟩, by simp⟩
  · intro hn
    have hw : LifeWorld.init.run exOrderly = some ((LifeWorld.init.run exOrderly).get (by decide)) :=
      (Option.some_get _).symm
    have := notStarted_stopped hw hn
    exact absurd this (by decide)

end Asagi.Props
