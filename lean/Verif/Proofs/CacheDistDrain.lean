import Verif.Proofs.CacheDistSolo
/-
Getters with the communication thread, if no two of them run in the same NUMA domain: the requests
that are under way can be finished, and then one access after the other.
-/
namespace Asagi
open Spec
variable {β : Type} {P : DistParams β} {st st' : DistState β}

/-- No two threads inside of getters use the same domain. -/
def OnePer (P : DistParams β) (st : DistState β) : Prop :=
  ∀ t u, st.pc (.user t) ≠ .idle → st.pc (.user u) ≠ .idle → P.dom t = P.dom u → t = u

/-- All threads are parked, the communication threads have nothing to do. -/
structure Settled (st : DistState β) : Prop where
  users : ∀ u, Parked (st.pc (.user u))
  comm : CommIdle st
  mail : ∀ r r', st.net r r' = []

/-- A step of a communication thread or of a thread that is not parked. -/
def Drain (P : DistParams β) (st st' : DistState β) : Prop :=
  (∃ u, UserStep P u st st' ∧ ¬ Parked (st.pc (.user u))) ∨ ∃ r, CommStep P r st st'

theorem Drain.quiet (h : Drain P st st') : Quiet P st st' := by
  rcases h with ⟨u, hu, hn⟩ | ⟨r, hc⟩
  · exact quiet_user hu (fun e => hn (.inl e))
  · exact quiet_comm hc

theorem OnePer.quiet (h : OnePer P st) (hq : Quiet P st st') : OnePer P st' :=
  fun t u ht hu hd => h t u (fun e => ht (hq.2 t e)) (fun e => hu (hq.2 u e)) hd

theorem quietRun_head {n : Nat} {st1 st2 : DistState β} (h : Quiet P st st1) (hr : QuietRun P n st1 st2) :
    QuietRun P (n + 1) st st2 := by
  induction hr with
  | zero => exact .succ (.zero _) h
  | succ _ hq ih => exact .succ (ih h) hq

theorem quietRun_trans {n m : Nat} {st1 st2 : DistState β} (h : QuietRun P n st st1)
    (hr : QuietRun P m st1 st2) : QuietRun P (n + m) st st2 := by
  induction hr with
  | zero => exact h
  | succ _ hq ih => exact .succ (ih h) hq

theorem quietRun_reach {n : Nat} (h : DistReach P st) (hr : QuietRun P n st st') : DistReach P st' := by
  induction hr with
  | zero => exact h
  | succ _ hq ih => exact .step (ih h) hq.1

theorem quietRun_idle {n : Nat} (hr : QuietRun P n st st') {t : Nat} (h : st.pc (.user t) = .idle) :
    st'.pc (.user t) = .idle := by
  induction hr with
  | zero => exact h
  | succ _ hq ih => exact hq.2 t (ih h)

theorem OnePer.run {n : Nat} (h : OnePer P st) (hr : QuietRun P n st st') : OnePer P st' := by
  induction hr with
  | zero => exact h
  | succ _ hq ih => exact (ih h).quiet hq

/-! ### Somebody who is not parked can continue -/

theorem exec_drain {t b off s : Nat} {ph : Phase β} (hp : st.pc (.user t) = .own b off s ph)
    (hn : ph ≠ .start) (hx : ∃ st', execOwn P st t 0 b off s ph = some st') : ∃ st', Drain P st st' := by
  obtain ⟨st', hx⟩ := hx
  refine ⟨st', .inl ⟨t, execOwn_sound hp hx, ?_⟩⟩
  rw [hp]
  rintro (e | ⟨_, _, _, e⟩)
  · cases e
  · injection e with _ _ _ e; exact hn e

theorem ask_drain (hc : CommIdle st) {t b off s r : Nat}
    (hp : st.pc (.user t) = .own b off s (.ask r)) : ∃ st', Drain P st st' := by
  cases hbox : st.box t with
  | some m =>
    refine exec_drain hp nofun ?_
    cases m with
    | none => simp only [execOwn, hbox]; exact ⟨_, rfl⟩
    | some buf => simp only [execOwn, hbox]; exact ⟨_, rfl⟩
  | none => exact ⟨_, .inr ⟨r, .accept st r t b off s (hc r) hp hbox⟩⟩

theorem own_drain (h : DistInv P st) (hm : P.mode = .thread) (hc : CommIdle st) {t b off s : Nat}
    {ph : Phase β} (hp : st.pc (.user t) = .own b off s ph) (hn : ph ≠ .start) :
    ∃ st', Drain P st st' := by
  cases ph with
  | start => exact absurd rfl hn
  | ask r => exact ask_drain hc hp
  | del old =>
    cases old with
    | none => exact exec_drain hp nofun ⟨_, rfl⟩
    | some o => exact exec_drain hp nofun (by simp only [execOwn, hm]; exact ⟨_, rfl⟩)
  | delLocked o => exact exec_drain hp nofun ⟨_, rfl⟩
  | numa i =>
    refine exec_drain hp nofun ?_
    simp only [execOwn]; repeat' split
    all_goals exact ⟨_, rfl⟩
  | numaCm i =>
    refine exec_drain hp nofun ?_
    simp only [execOwn]; repeat' split
    all_goals exact ⟨_, rfl⟩
  | numaCopy i s' k =>
    refine exec_drain hp nofun ?_
    simp only [execOwn]; split <;> exact ⟨_, rfl⟩
  | add => exact exec_drain hp nofun (by simp only [execOwn, hm]; exact ⟨_, rfl⟩)
  | addLocked => exact exec_drain hp nofun ⟨_, rfl⟩
  | xfer e =>
    cases e with
    | negSucc n => exact exec_drain hp nofun ⟨_, rfl⟩
    | ofNat e =>
      cases hb : st.blk (P.rankOf (P.dom t)) with
      | none => exact exec_drain hp nofun (by simp only [execOwn, hm, hb]; exact ⟨_, rfl⟩)
      | some a =>
        have ho := (h.blk _ a).1 hb
        cases a with
        | comm r => cases hp : st.pc (.comm r) <;> rw [hp] at ho <;> exact ho.elim
        | user v =>
          cases hv : st.pc (.user v) with
          | own b1 off1 s1 ph =>
            rw [hv] at ho
            cases ph with
            | ask r1 => exact ask_drain hc hv
            | recv buf k =>
              refine exec_drain hv nofun ?_
              simp only [execOwn]; split <;> exact ⟨_, rfl⟩
            | _ => exact ho.elim
          | _ => rw [hv] at ho; exact ho.elim
  | copy e k => exact exec_drain hp nofun (by simp only [execOwn]; split <;> exact ⟨_, rfl⟩)
  | recv buf k => exact exec_drain hp nofun (by simp only [execOwn]; split <;> exact ⟨_, rfl⟩)
  | load k => exact exec_drain hp nofun (by simp only [execOwn]; split <;> exact ⟨_, rfl⟩)
  | fin => exact exec_drain hp nofun (by simp only [execOwn, hm]; exact ⟨_, rfl⟩)
  | use => exact exec_drain hp nofun ⟨_, rfl⟩
  | out v => exact exec_drain hp nofun ⟨_, rfl⟩

/-- As long as the state is not settled, somebody who is not parked can continue. -/
theorem drain_progress (h : DistInv P st) (hm : P.mode = .thread) (h1 : OnePer P st)
    (hs : ¬ Settled st) : ∃ st', Drain P st st' := by
  by_cases hc : CommIdle st
  · by_cases hu : ∀ u, Parked (st.pc (.user u))
    · have : ∃ r r', st.net r r' ≠ [] := by
        by_contra hx
        push Not at hx
        exact hs ⟨hu, hc, hx⟩
      obtain ⟨r, r', hn⟩ := this
      obtain ⟨⟨b, op⟩, rest, hl⟩ := List.exists_cons_of_ne_nil hn
      exact ⟨_, .inr ⟨r', .deliver st r' r b op rest (hc r') hl⟩⟩
    · push Not at hu
      obtain ⟨t, ht⟩ := hu
      have hni : st.pc (.user t) ≠ .idle := fun e => ht (.inl e)
      obtain ⟨k1, k2, k3, k4⟩ := h.kind t
      cases hp : st.pc (.user t) with
      | idle => exact absurd hp hni
      | wantCm b off =>
        cases hcm : st.cm (P.dom t) with
        | none =>
          obtain ⟨h0, inv, -⟩ := h.lists (P.dom t)
          obtain ⟨c', s, old, hg, -⟩ := inv.get b
          exact ⟨_, .inl ⟨t, .lookup st t b off s c' old hp hcm hg, ht⟩⟩
        | some a =>
          have ho := (h.cm _ a).1 hcm
          cases a with
          | comm r => rw [hc r] at ho; exact ho.elim
          | user v =>
            cases hv : st.pc (.user v) with
            | wantSlot b1 off1 s1 old1 =>
              rw [hv] at ho
              have e := h1 t v hni (by rw [hv]; nofun) ho
              subst e
              rw [hp] at hv; cases hv
            | own b1 off1 s1 ph =>
              rw [hv] at ho
              cases ph with
              | numaCm i => exact own_drain h hm hc hv nofun
              | _ => exact ho.elim
            | _ => rw [hv] at ho; exact ho.elim
      | wantSlot b off s old =>
        cases hk : st.lk (P.dom t, s) with
        | none => exact ⟨_, .inl ⟨t, .lockSlot st t b off s old hp hk, ht⟩⟩
        | some a =>
          have ho := (h.lk _ a).1 hk
          cases a with
          | comm r => rw [hc r] at ho; exact ho.elim
          | user v =>
            cases hv : st.pc (.user v) with
            | own b1 off1 s1 ph =>
              rw [hv] at ho
              rcases ho with ho | ho
              · injection ho with e1 e2
                have e := h1 t v hni (by rw [hv]; nofun) e1
                subst e
                rw [hp] at hv; cases hv
              · cases ph with
                | numaCopy i s' k => exact own_drain h hm hc hv nofun
                | _ => exact ho.elim
            | _ => rw [hv] at ho; exact ho.elim
      | own b off s ph =>
        refine own_drain h hm hc hp ?_
        rintro rfl
        exact ht (.inr ⟨_, _, _, hp⟩)
      | tryDom u b i => exact absurd hp (k1 _ _ _)
      | tryCm u b i => exact absurd hp (k2 _ _ _)
      | send u b i s k buf => exact absurd hp (k3 _ _ _ _ _ _)
      | sent i s => exact absurd hp (k4 _ _)
  · unfold CommIdle at hc
    push Not at hc
    obtain ⟨r, hr⟩ := hc
    obtain ⟨st', hx⟩ := h.comm_enabled hr
    exact ⟨st', .inr ⟨r, hx⟩⟩

/-! ### Requests under way -/

/-- 1 if the thread has asked the directory, and its request is not yet refused. -/
def pendVal (st : DistState β) (t : Nat) : Nat :=
  match st.pc (.user t) with
  | .own _ _ _ (.xfer _) => 1
  | .own _ _ _ (.ask _) =>
    match st.box t with
    | some none => 0
    | _ => 1
  | _ => 0

theorem pendVal_le (st : DistState β) (t : Nat) : pendVal st t ≤ 1 := by
  unfold pendVal; repeat' split
  all_goals omega

theorem pendVal_own {t b off s : Nat} {ph : Phase β} (hp : st.pc (.user t) = .own b off s ph)
    (h1 : ∀ e, ph ≠ .xfer e) (h2 : ∀ r, ph ≠ .ask r) : pendVal st t = 0 := by
  unfold pendVal
  rw [hp]
  cases ph with
  | xfer e => exact absurd rfl (h1 e)
  | ask r => exact absurd rfl (h2 r)
  | _ => rfl

/-- No new requests. -/
theorem drain_pend (h : DistInv P st) (hd : Drain P st st') (x : Nat) :
    pendVal st' x ≤ pendVal st x := by
  rcases hd with ⟨u, hs, hn⟩ | ⟨r, hc⟩
  · by_cases hx : x = u
    · subst hx
      cases hs with
      | call _ _ b off hp => exact absurd (.inl hp) hn
      | lookup _ _ b off s c' old hp =>
        refine Nat.le_trans (Nat.le_of_eq ?_) (Nat.zero_le _)
        simp only [pendVal, upd_self]
      | lockSlot _ _ b off s old hp =>
        refine Nat.le_trans (Nat.le_of_eq ?_) (Nat.zero_le _)
        exact pendVal_own (upd_self _ _ _) (by intro e; split <;> nofun) (by intro r; split <;> nofun)
      | unlock _ _ b off s v hp =>
        refine Nat.le_trans (Nat.le_of_eq ?_) (Nat.zero_le _)
        simp only [pendVal, upd_self]
      | startNone _ _ b off s hp | startWin _ _ b off s rnd hp | startThread _ _ b off s rnd hp =>
        exact absurd (.inr ⟨_, _, _, hp⟩) hn
      | xferThread _ _ b off s e hp h1 h2 =>
        refine Nat.le_trans (pendVal_le _ _) (Nat.le_of_eq ?_)
        unfold pendVal; rw [hp]
      | _ =>
        refine Nat.le_trans (Nat.le_of_eq ?_) (Nat.zero_le _)
        exact pendVal_own (upd_self _ _ _) nofun nofun
    · unfold pendVal
      rw [user_other hs (by intro e; injection e with e; exact hx e), box_other hs hx]
  · have hpc : st'.pc (.user x) = st.pc (.user x) := comm_other hc (a := .user x) nofun
    cases hc with
    | fail _ _ t b i hp hi =>
      by_cases hx : x = t
      · subst hx
        obtain ⟨⟨off, s, hu⟩, hb⟩ := h.req r x b (.inl ⟨i, hp⟩)
        have h1 : pendVal st x = 1 := by unfold pendVal; rw [hu]; simp only [hb]
        rw [h1]; exact pendVal_le _ _
      · unfold pendVal
        rw [hpc]
        simp only [upd_ne _ _ hx]
        exact Nat.le_refl _
    | reply _ _ t b i s k buf hp hk =>
      by_cases hx : x = t
      · subst hx
        obtain ⟨⟨off, s, hu⟩, hb⟩ := h.req r x b (.inr (.inr ⟨i, s, k, buf, hp⟩))
        have h1 : pendVal st x = 1 := by unfold pendVal; rw [hu]; simp only [hb]
        rw [h1]; exact pendVal_le _ _
      · unfold pendVal
        rw [hpc]
        simp only [upd_ne _ _ hx]
        exact Nat.le_refl _
    | _ => unfold pendVal; rw [hpc]

/-- Each refusal finishes a request. -/
theorem drain_refused (h' : DistInv P st') (hd : Drain P st st') (hr : Refused st st') :
    ∃ t, st.pc (.user t) ≠ .idle ∧ pendVal st' t < pendVal st t := by
  obtain ⟨t, h1, h2⟩ := hr
  obtain ⟨b, off, s, r, hp, -⟩ := h'.box t _ h2
  rcases hd with ⟨u, hu, hn⟩ | ⟨r', hc⟩
  · exfalso
    by_cases e : t = u
    · subst e
      cases hu with
      | askFail | askDone => simp only [DistState.goto, upd_self] at h2; cases h2
      | delThread | addThread | finThread =>
        simp only [DistState.goto, sendOp_box] at h2; exact h1 h2
      | _ => exact h1 h2
    · rw [box_other hu e] at h2; exact h1 h2
  · have hpc : st'.pc (.user t) = st.pc (.user t) := comm_other hc (a := .user t) nofun
    refine ⟨t, by rw [← hpc, hp]; nofun, ?_⟩
    have e1 : pendVal st' t = 0 := by unfold pendVal; rw [hp]; simp only [h2]
    have e2 : pendVal st t = 1 := by
      unfold pendVal; rw [← hpc, hp]
      simp only
    omega

theorem sum_le' {f g : Nat → Nat} (hle : ∀ x, g x ≤ f x) (L : List Nat) :
    (L.map g).sum ≤ (L.map f).sum := by
  induction L with
  | nil => simp
  | cons x L ih => simp only [List.map_cons, List.sum_cons]; have := hle x; omega

/-- A settled state can be reached. -/
theorem drain_run (hl : Legal P) (hm : P.mode = .thread) {L : List Nat} (k : Nat) :
    ∀ {st : DistState β} {m : Nat}, DistReach P st → OnePer P st → Work P st m →
      (∀ t, st.pc (.user t) ≠ .idle → t ∈ L) →
      m + refusalCost P * (L.map (pendVal st)).sum ≤ k → ∃ n st', QuietRun P n st st' ∧ Settled st' := by
  induction k with
  | zero =>
    intro st m h h1 hw hL hk
    by_cases hs : Settled st
    · exact ⟨0, st, .zero _, hs⟩
    · exfalso
      have hI := DistInv.reach hl.domains hl.size hl.hand h
      obtain ⟨st1, hd⟩ := drain_progress hI hm h1 hs
      have hI' := DistInv.reach hl.domains hl.size hl.hand (Reachable.step h hd.quiet.1)
      rcases quiet_effect hl.domains hm hI hd.quiet with ⟨_, he⟩ | ⟨hr, he⟩
      · obtain ⟨m', -, hle⟩ := he.work hw
        omega
      · obtain ⟨m', -, hle⟩ := he.work hw
        obtain ⟨t, hb, hlt⟩ := drain_refused hI' hd hr
        have := sum_lt (drain_pend hI hd) (hL t hb) hlt
        have : refusalCost P * 1 ≤ refusalCost P * (L.map (pendVal st)).sum :=
          Nat.mul_le_mul_left _ (by omega)
        omega
  | succ k ih =>
    intro st m h h1 hw hL hk
    by_cases hs : Settled st
    · exact ⟨0, st, .zero _, hs⟩
    · have hI := DistInv.reach hl.domains hl.size hl.hand h
      obtain ⟨st1, hd⟩ := drain_progress hI hm h1 hs
      have hq := hd.quiet
      have hr1 := Reachable.step h hq.1
      have hI' := DistInv.reach hl.domains hl.size hl.hand hr1
      have hL' : ∀ t, st1.pc (.user t) ≠ .idle → t ∈ L := fun t ht => hL t (fun e => ht (hq.2 t e))
      rcases quiet_effect hl.domains hm hI hq with ⟨_, he⟩ | ⟨hr, he⟩
      · obtain ⟨m', hw', hle⟩ := he.work hw
        have hp := Nat.mul_le_mul_left (refusalCost P) (sum_le' (drain_pend hI hd) L)
        obtain ⟨n, st2, hrun, hset⟩ := ih hr1 (h1.quiet hq) hw' hL' (by omega)
        exact ⟨n + 1, st2, quietRun_head hq hrun, hset⟩
      · obtain ⟨m', hw', hle⟩ := he.work hw
        obtain ⟨t, hb, hlt⟩ := drain_refused hI' hd hr
        have hp := Nat.mul_le_mul_left (refusalCost P) (sum_lt (drain_pend hI hd) (hL t hb) hlt)
        rw [Nat.succ_eq_add_one, Nat.mul_add, Nat.mul_one] at hp
        obtain ⟨n, st2, hrun, hset⟩ := ih hr1 (h1.quiet hq) hw' hL' (by omega)
        exact ⟨n + 1, st2, quietRun_head hq hrun, hset⟩

/-! ### One access after the other -/

/-- From a settled state, the access of a parked thread can be finished. -/
theorem lead_run (hl : Legal P) (hm : P.mode = .thread) (hno : P.noop = false) (k : Nat) :
    ∀ {st : DistState β} {m t b : Nat}, DistReach P st → OnePer P st → Solo P st t b → Work P st m →
      m ≤ k → ∃ n st', QuietRun P n st st' ∧ st'.pc (.user t) = .idle := by
  induction k using Nat.strong_induction_on with
  | _ k ih =>
    intro st m t b h h1 hs hw hk
    by_cases hi : st.pc (.user t) = .idle
    · exact ⟨0, st, .zero _, hi⟩
    · have hI := DistInv.reach hl.domains hl.size hl.hand h
      have key : ∃ st1, Quiet P st st1 ∧ Solo P st1 t b := by
        by_cases hset : Settled st
        · rcases hset.users t with hp | ⟨b1, off, s, hp⟩
          · exact absurd hp hi
          · have hu := UserStep.startThread st t b1 off s 0 hp hm (.inr (hset.comm _))
            exact ⟨_, quiet_user hu hi, hs.user hl hm h hu hi⟩
        · obtain ⟨st1, hd⟩ := drain_progress hI hm h1 hset
          refine ⟨st1, hd.quiet, ?_⟩
          rcases hd with ⟨u, hu, hn⟩ | ⟨r, hc⟩
          · have e : u = t := by
              by_contra e
              exact hn (hs.alone u e)
            subst e
            exact hs.user hl hm h hu hi
          · exact hs.comm hl hno h hc
      obtain ⟨st1, hq, hs1⟩ := key
      have hr1 := Reachable.step h hq.1
      have hI' := DistInv.reach hl.domains hl.size hl.hand hr1
      rcases quiet_effect hl.domains hm hI hq with ⟨_, he⟩ | ⟨⟨u, -, hb⟩, _⟩
      · obtain ⟨m', hw', hle⟩ := he.work hw
        obtain ⟨n, st2, hrun, hfin⟩ := ih m' (by omega) hr1 (h1.quiet hq) hs1 hw' (Nat.le_refl _)
        exact ⟨n + 1, st2, quietRun_head hq hrun, hfin⟩
      · exact absurd hb (hs1.box hI' u)

/-- All accesses can be finished. -/
theorem all_run (hl : Legal P) (hm : P.mode = .thread) (hno : P.noop = false) (L : List Nat) :
    ∀ {st : DistState β}, DistReach P st → OnePer P st → (∀ t, st.pc (.user t) ≠ .idle → t ∈ L) →
      ∃ n st', QuietRun P n st st' ∧ ∀ t, st'.pc (.user t) = .idle := by
  induction L with
  | nil =>
    intro st h h1 hL
    exact ⟨0, st, .zero _, fun t => by
      by_contra e
      cases hL t e⟩
  | cons t L ih =>
    intro st h h1 hL
    obtain ⟨m, hw⟩ := work_exists hl h
    obtain ⟨n1, st1, hr1, hset⟩ := drain_run hl hm _ h h1 hw hL (Nat.le_refl _)
    have h2 := quietRun_reach h hr1
    have hone := h1.run hr1
    have : ∃ n2 st2, QuietRun P n2 st1 st2 ∧ st2.pc (.user t) = .idle := by
      rcases hset.users t with hp | ⟨b, off, s, hp⟩
      · exact ⟨0, st1, .zero _, hp⟩
      · have hs : Solo P st1 t b := by
          refine ⟨fun u _ => hset.users u, ?_⟩
          rw [hp]
          refine ⟨rfl, fun r r' op hx => ?_, hset.comm⟩
          rw [hset.mail] at hx; cases hx
        obtain ⟨m1, hw1⟩ := work_exists hl h2
        exact lead_run hl hm hno m1 h2 hone hs hw1 (Nat.le_refl _)
    obtain ⟨n2, st2, hr2, hfin⟩ := this
    have hrun := quietRun_trans hr1 hr2
    obtain ⟨n3, st3, hr3, hall⟩ := ih (quietRun_reach h hrun) (h1.run hrun) (fun u hu => by
      rcases List.mem_cons.1 (hL u (fun e => hu (quietRun_idle hrun e))) with rfl | hm
      · exact absurd hfin hu
      · exact hm)
    exact ⟨_, st3, quietRun_trans hrun hr3, hall⟩

end Asagi
