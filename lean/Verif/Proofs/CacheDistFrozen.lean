import Verif.Proofs.CacheDistLive
/-
States of the shared caches with the communication thread in which all calls retry forever.
-/
namespace Asagi
open Spec
variable {β : Type} {P : DistParams β} {st st' : DistState β}

/-- The communication threads that can be asked for block `b` find no mutex. -/
def AllBusy (P : DistParams β) (st : DistState β) (b : Nat) : Prop :=
  ∀ e : Nat, (e : Int) ∈ st.dir b → ∀ i, i < P.domains →
    P.noop = true ∨ st.cm (ownerRank P.rankCache e * P.domains + i) ≠ none

/-- The positions of the retry loop, cachedist.h 184-194. -/
def Retry (P : DistParams β) (st : DistState β) (b : Nat) (ph : Phase β) : Prop :=
  ph = .start ∨ (∃ e : Nat, (e : Int) ∈ st.dir b ∧ ph = .xfer e) ∨
    ∃ e : Nat, (e : Int) ∈ st.dir b ∧ ph = .ask (ownerRank P.rankCache e)

structure Frozen (P : DistParams β) (st : DistState β) : Prop where
  mode : P.mode = .thread
  users : ∀ t, st.pc (.user t) = .idle ∨
    (∃ b off s old, st.pc (.user t) = .wantSlot b off s old ∧ st.lk (P.dom t, s) ≠ none) ∨
    ∃ b off s ph, st.pc (.user t) = .own b off s ph ∧ Retry P st b ph ∧ AllBusy P st b ∧
      ∀ rnd, ∃ e : Nat, (e : Int) ∈ st.dir b ∧ dictFetch (st.dir b) rnd = e
  comms : ∀ r, st.pc (.comm r) = .idle ∨ ∃ t b i, st.pc (.comm r) = .tryDom t b i ∧
    ∀ i, i < P.domains → P.noop = true ∨ st.cm (r * P.domains + i) ≠ none
  box : ∀ t, st.box t = none ∨ st.box t = some none
  net : ∀ r r', st.net r r' = []

/-- The steps of a frozen state change only these components. -/
theorem Frozen.frame (h : Frozen P st) (elk : st'.lk = st.lk) (ecm : st'.cm = st.cm)
    (edir : st'.dir = st.dir) (edata : st'.data = st.data) (enet : st'.net = st.net)
    (hu : ∀ t, st'.pc (.user t) = st.pc (.user t) ∨
      ∃ b off s ph ph', st.pc (.user t) = .own b off s ph ∧ st'.pc (.user t) = .own b off s ph' ∧
        Retry P st b ph')
    (hc : ∀ r, st'.pc (.comm r) = .idle ∨ ∃ t b i, st'.pc (.comm r) = .tryDom t b i ∧
      ∀ i, i < P.domains → P.noop = true ∨ st.cm (r * P.domains + i) ≠ none)
    (hb : ∀ t, st'.box t = none ∨ st'.box t = some none) :
    Frozen P st' ∧ (∀ t, st.pc (.user t) ≠ .idle → st'.pc (.user t) ≠ .idle) ∧
      st'.lk = st.lk ∧ st'.dir = st.dir ∧ st'.data = st.data := by
  refine ⟨⟨h.mode, fun t => ?_, ?_, hb, by rw [enet]; exact h.net⟩, fun t ht => ?_, elk, edir, edata⟩
  · unfold Retry AllBusy
    rw [elk, ecm, edir]
    rcases hu t with e | ⟨b, off, s, ph, ph', h1, h2, h3⟩
    · rw [e]; exact h.users t
    · rcases h.users t with h4 | ⟨_, _, _, _, h4, _⟩ | ⟨b1, off1, s1, ph1, h4, h5, h6, h7⟩
      · rw [h1] at h4; cases h4
      · rw [h1] at h4; cases h4
      · rw [h1] at h4; cases h4
        exact .inr (.inr ⟨b, off, s, ph', h2, h3, h6, h7⟩)
  · rw [ecm]; exact hc
  · rcases hu t with e | ⟨b, off, s, ph, ph', h1, h2, h3⟩
    · rw [e]; exact ht
    · rw [h2]; nofun

/-- Frozen states stay frozen, no call returns. -/
theorem Frozen.step (h : Frozen P st) (hq : Quiet P st st') :
    Frozen P st' ∧ (∀ t, st.pc (.user t) ≠ .idle → st'.pc (.user t) ≠ .idle) ∧
      st'.lk = st.lk ∧ st'.dir = st.dir ∧ st'.data = st.data := by
  rcases quiet_cases hq with ⟨u, hs, hn⟩ | ⟨r, hs⟩
  · have hother : ∀ t, t ≠ u → st'.pc (.user t) = st.pc (.user t) := fun t ht =>
      user_other hs (by intro e; injection e with e; exact ht e)
    have hcomm : ∀ r, st'.pc (.comm r) = st.pc (.comm r) := fun r => user_other hs nofun
    rcases h.users u with h1 | ⟨b, off, s, old, h1, h2⟩ | ⟨b, off, s, ph, h1, h2, h3, h4⟩
    · exact absurd h1 hn
    · cases hs with
      | lockSlot _ _ b1 off1 s1 old1 hp hk =>
        rw [h1] at hp; cases hp
        exact absurd hk h2
      | _ => simp_all
    · have hgoto : ∀ ph', st'.pc (.user u) = .own b off s ph' → Retry P st b ph' →
          ∀ t, st'.pc (.user t) = st.pc (.user t) ∨
            ∃ b off s ph ph', st.pc (.user t) = .own b off s ph ∧
              st'.pc (.user t) = .own b off s ph' ∧ Retry P st b ph' := by
        intro ph' e hr t
        by_cases ht : t = u
        · subst ht; exact .inr ⟨b, off, s, ph, ph', h1, e, hr⟩
        · exact .inl (hother t ht)
      rcases h2 with rfl | ⟨e, he, rfl⟩ | ⟨e, he, rfl⟩
      · cases hs with
        | startThread _ _ b1 off1 s1 rnd hp =>
          rw [h1] at hp; cases hp
          obtain ⟨e, he, hf⟩ := h4 rnd
          exact h.frame rfl rfl rfl rfl rfl
            (hgoto _ (upd_self _ _ _) (.inr (.inl ⟨e, he, by rw [hf]⟩))) h.comms h.box
        | startNone _ _ b1 off1 s1 hp hm => rw [h.mode] at hm; cases hm
        | startWin _ _ b1 off1 s1 rnd hp hm => rw [h.mode] at hm; cases hm
        | _ => simp_all
      · cases hs with
        | xferNone _ _ b1 off1 s1 e1 hp hlt =>
          rw [h1] at hp; cases hp
          exact absurd hlt (by omega)
        | xferWin _ _ b1 off1 s1 e1 hp hm => rw [h.mode] at hm; cases hm
        | xferThread _ _ b1 off1 s1 e1 hp =>
          rw [h1] at hp
          injection hp with i1 i2 i3 i4
          injection i4 with i4
          have i5 : e = e1 := Int.ofNat.inj i4
          subst i1 i2 i3 i5
          exact h.frame rfl rfl rfl rfl rfl
            (hgoto _ (upd_self _ _ _) (.inr (.inr ⟨e, he, rfl⟩))) h.comms h.box
        | _ => simp_all
      · cases hs with
        | askFail _ _ b1 off1 s1 r1 hp =>
          rw [h1] at hp; cases hp
          refine h.frame rfl rfl rfl rfl rfl (hgoto _ (upd_self _ _ _) (.inl rfl)) h.comms ?_
          intro t
          by_cases ht : t = u
          · subst ht; exact .inl (upd_self _ _ _)
          · have := h.box t
            rwa [← upd_ne st.box none ht] at this
        | askDone _ _ b1 off1 s1 r1 buf hp hb =>
          rcases h.box u with e1 | e1 <;> rw [e1] at hb <;> cases hb
        | _ => simp_all
  · have huser : ∀ t, st'.pc (.user t) = st.pc (.user t) ∨
        ∃ b off s ph ph', st.pc (.user t) = .own b off s ph ∧ st'.pc (.user t) = .own b off s ph' ∧
          Retry P st b ph' := fun t => .inl (comm_other hs nofun)
    have hcomm : ∀ p, st'.pc (.comm r) = p → (p = .idle ∨ ∃ t b i, p = .tryDom t b i ∧
        ∀ i, i < P.domains → P.noop = true ∨ st.cm (r * P.domains + i) ≠ none) →
        ∀ r', st'.pc (.comm r') = .idle ∨ ∃ t b i, st'.pc (.comm r') = .tryDom t b i ∧
          ∀ i, i < P.domains → P.noop = true ∨ st.cm (r' * P.domains + i) ≠ none := by
      intro p e hp r'
      by_cases hr : r' = r
      · subst hr; rw [e]; exact hp
      · rw [comm_other hs (by intro e; injection e with e; exact hr e)]; exact h.comms r'
    cases hs with
    | deliver _ _ src b op rest hp hn => rw [h.net] at hn; cases hn
    | accept _ _ t b off s hp hu hb =>
      refine h.frame rfl rfl rfl rfl rfl huser (hcomm _ (upd_self _ _ _) (.inr ⟨t, b, 0, rfl, ?_⟩)) h.box
      rcases h.users t with h1 | ⟨b, off, s, old, h1, h2⟩ | ⟨b1, off1, s1, ph, h1, h2, h3, h4⟩
      · rw [hu] at h1; cases h1
      · rw [hu] at h1; cases h1
      · rw [hu] at h1; cases h1
        rcases h2 with h2 | ⟨e, he, h2⟩ | ⟨e, he, h2⟩
        · cases h2
        · cases h2
        · cases h2
          exact h3 e he
    | fail _ _ t b i hp =>
      refine h.frame rfl rfl rfl rfl rfl huser (hcomm _ (upd_self _ _ _) (.inl rfl)) ?_
      intro u
      by_cases hu : u = t
      · subst hu; exact .inr (upd_self _ _ _)
      · have := h.box u
        rwa [← upd_ne st.box (some none) hu] at this
    | busy _ _ t b i hp =>
      refine h.frame rfl rfl rfl rfl rfl huser (hcomm _ (upd_self _ _ _) (.inr ⟨t, b, i + 1, rfl, ?_⟩)) h.box
      rcases h.comms r with h1 | ⟨_, _, _, h1, h2⟩
      · rw [hp] at h1; cases h1
      · exact h2
    | «try» _ _ t b i hp hi hno hc =>
      rcases h.comms r with h1 | ⟨_, _, _, h1, h2⟩
      · rw [hp] at h1; cases h1
      · rcases h2 i hi with h3 | h3
        · rw [hno] at h3; cases h3
        · exact absurd hc h3
    | miss _ _ t b i hp =>
      rcases h.comms r with h1 | ⟨_, _, _, h1, h2⟩ <;> rw [hp] at h1 <;> cases h1
    | hit _ _ t b i s hp =>
      rcases h.comms r with h1 | ⟨_, _, _, h1, h2⟩ <;> rw [hp] at h1 <;> cases h1
    | cell _ _ t b i s k buf hp =>
      rcases h.comms r with h1 | ⟨_, _, _, h1, h2⟩ <;> rw [hp] at h1 <;> cases h1
    | reply _ _ t b i s k buf hp =>
      rcases h.comms r with h1 | ⟨_, _, _, h1, h2⟩ <;> rw [hp] at h1 <;> cases h1
    | release _ _ i s hp =>
      rcases h.comms r with h1 | ⟨_, _, _, h1, h2⟩ <;> rw [hp] at h1 <;> cases h1

theorem Frozen.run (h : Frozen P st) {n : Nat} (hq : QuietRun P n st st') :
    Frozen P st' ∧ (∀ t, st.pc (.user t) ≠ .idle → st'.pc (.user t) ≠ .idle) ∧
      st'.lk = st.lk ∧ st'.dir = st.dir ∧ st'.data = st.data := by
  induction hq with
  | zero => exact ⟨h, fun _ ht => ht, rfl, rfl, rfl⟩
  | succ _ hq ih =>
    obtain ⟨h1, h2, e1, e2, e3⟩ := ih h
    obtain ⟨h3, h4, f1, f2, f3⟩ := h1.step hq
    exact ⟨h3, fun t ht => h4 t (h2 t ht), f1.trans e1, f2.trans e2, f3.trans e3⟩

/-! ### Schedules without requests -/

def DistCmd.isAccept : DistCmd → Bool
  | .accept _ _ => true
  | _ => false

/-- Without accepted requests the communication threads stay idle and send no replies. -/
theorem exec_no_accept {c : DistCmd} (ha : c.isAccept = false) (h : c.exec P st = some st')
    (hi : ∀ r, st.pc (.comm r) = .idle) (hb : ∀ t, st.box t = none) :
    (∀ r, st'.pc (.comm r) = .idle) ∧ ∀ t, st'.box t = none := by
  cases c with
  | call t b off =>
    simp only [DistCmd.exec] at h
    split at h
    · split_ifs at h
      cases h
      exact ⟨fun r => (upd_ne st.pc (x := Agent.comm r) (k := Agent.user t) (.wantCm b off) (by intro e; cases e)).trans (hi r), hb⟩
    · cases h
  | user t rnd =>
    have hs := execUser_sound h
    refine ⟨fun r => (user_other hs (a := .comm r) nofun).trans (hi r), ?_⟩
    have hbox : st'.box = st.box ∨ st'.box = upd st.box t none := by
      cases hs with
      | delThread | addThread | finThread =>
        left
        simp only [DistState.goto, DistState.sendOp]; split <;> rfl
      | askFail | askDone => exact .inr rfl
      | _ => exact .inl rfl
    intro u
    rcases hbox with e | e <;> rw [e]
    · exact hb u
    · rw [upd_apply]; split
      · rfl
      · exact hb u
  | deliver r src =>
    simp only [DistCmd.exec] at h
    split at h
    · cases h; exact ⟨hi, hb⟩
    · cases h
  | accept r t => cases ha
  | comm r => simp only [DistCmd.exec, execComm, hi r] at h; cases h

theorem distExec_no_accept {cmds : List DistCmd} (ha : ∀ c ∈ cmds, c.isAccept = false)
    (h : distExec P st cmds = some st')
    (hi : ∀ r, st.pc (.comm r) = .idle) (hb : ∀ t, st.box t = none) :
    (∀ r, st'.pc (.comm r) = .idle) ∧ ∀ t, st'.box t = none := by
  induction cmds generalizing st with
  | nil => cases h; exact ⟨hi, hb⟩
  | cons c cs ih =>
    simp only [distExec, Option.bind_eq_some_iff] at h
    obtain ⟨s1, h1, h2⟩ := h
    obtain ⟨a1, a2⟩ := exec_no_accept (ha c (.head _)) h1 hi hb
    exact ih (fun c hc => ha c (.tail _ hc)) h2 a1 a2

def DistCmd.callOf : DistCmd → Option Nat
  | .call t _ _ => some t
  | _ => none

/-- Threads that are never called stay outside of the getters. -/
theorem distExec_uncalled {cmds : List DistCmd} {t : Nat} (ha : ∀ c ∈ cmds, c.callOf ≠ some t)
    (h : distExec P st cmds = some st') (hi : st.pc (.user t) = .idle) :
    st'.pc (.user t) = .idle := by
  induction cmds generalizing st with
  | nil => cases h; exact hi
  | cons c cs ih =>
    simp only [distExec, Option.bind_eq_some_iff] at h
    obtain ⟨s1, h1, h2⟩ := h
    refine ih (fun c hc => ha c (.tail _ hc)) h2 ?_
    cases c with
    | call u b off =>
      have hne : u ≠ t := fun e => ha _ (.head _) (by rw [e]; rfl)
      simp only [DistCmd.exec] at h1
      split at h1
      · split_ifs at h1
        cases h1
        exact (upd_ne _ _ (by intro e; injection e with e; exact hne e.symm)).trans hi
      · cases h1
    | _ => exact (idle_stays h1 rfl hi).2

/-- Directory updates travel only from processes with threads to processes with directories. -/
theorem net_support (h : DistReach P st) : ∀ r r', st.net r r' ≠ [] →
    (∃ t, r = P.rankOf (P.dom t)) ∧ ∃ b, r' = P.home b := by
  refine Reachable.invariant (I := fun s : DistState β => ∀ r r', s.net r r' ≠ [] →
    (∃ t, r = P.rankOf (P.dom t)) ∧ ∃ b, r' = P.home b) ?_ ?_ h
  · rintro s ⟨c, -, rfl⟩ r r' hn; exact absurd rfl hn
  · intro s s' ih hs
    have hop : ∀ t b op, ∀ r r', (s.sendOp P (P.rankOf (P.dom t)) b op).net r r' ≠ [] →
        (∃ t, r = P.rankOf (P.dom t)) ∧ ∃ b, r' = P.home b := by
      intro t b op r r' hn
      unfold DistState.sendOp at hn
      split at hn
      · exact ih r r' hn
      · by_cases e1 : r = P.rankOf (P.dom t)
        · by_cases e2 : r' = P.home b
          · exact ⟨⟨t, e1⟩, ⟨b, e2⟩⟩
          · subst e1
            simp only [upd_self, upd_ne _ _ e2] at hn
            exact ih _ r' hn
        · simp only [upd_ne _ _ e1] at hn
          exact ih r r' hn
    cases hs with
    | user t hs =>
      cases hs with
      | delThread | addThread | finThread => exact hop _ _ _
      | _ => exact ih
    | comm r hs =>
      cases hs with
      | deliver _ _ src b op rest hp hn =>
        intro r1 r2 hne
        by_cases e1 : r1 = src
        · by_cases e2 : r2 = r
          · subst e1 e2; exact ih _ _ (by rw [hn]; nofun)
          · subst e1
            simp only [upd_self, upd_ne _ _ e2] at hne
            exact ih _ _ hne
        · simp only [upd_ne _ _ e1] at hne
          exact ih _ _ hne
      | _ => exact ih

end Asagi
