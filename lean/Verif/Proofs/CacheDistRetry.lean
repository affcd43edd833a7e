import Verif.Proofs.CacheDistThread
import Mathlib.Algebra.BigOperators.Group.Finset.Basic
/-
Termination with the communication thread: only refused requests prolong an access.
-/
namespace Asagi
open Spec
variable {β : Type} {P : DistParams β} {st st' : DistState β}

/-! ### The remaining work -/

/-- Work of the communication thread for a request, from domain `i`. -/
def askCost (P : DistParams β) (i : Nat) : Nat := 2 * (P.domains - i) + 4 + P.cells

/-- Work of a thread from `startTransfer`, if its request is not refused. -/
def startCost (P : DistParams β) : Nat := 9 + P.cells + askCost P 0

/-- Remaining work in a phase, except for `ask`; each message to a directory counts twice. -/
def thrPhase (P : DistParams β) : Phase β → Nat
  | .out _ => 1
  | .use => 2
  | .addLocked | .fin | .add => 4
  | .load k | .recv _ k | .copy _ k => 5 + (P.cells - k)
  | .numaCopy _ _ k => 6 + (P.cells - k)
  | .ask _ => 0
  | .xfer _ => 8 + P.cells + askCost P 0
  | .start => startCost P
  | .numa i => startCost P + 1 + 2 * (P.domains - i)
  | .numaCm i => startCost P + 2 * (P.domains - i)
  | .delLocked _ => startCost P + 2 + 2 * P.domains
  | .del _ => startCost P + 3 + 2 * P.domains

/-- Remaining work of the communication thread for thread `t`. -/
def commVal (P : DistParams β) (t : Nat) : Pc β → Nat
  | .tryDom u _ i => if u = t then askCost P i else askCost P 0 + 1
  | .tryCm u _ i => if u = t then askCost P i - 1 else askCost P 0 + 1
  | .send u _ _ _ k _ => if u = t then 3 + (P.cells - k) else askCost P 0 + 1
  | _ => askCost P 0 + 1

/-- Remaining work of a thread. -/
def userVal (P : DistParams β) (st : DistState β) (t : Nat) : Nat :=
  match st.pc (.user t) with
  | .own _ _ _ (.ask r) =>
    match st.box t with
    | none => 6 + P.cells + commVal P t (st.pc (.comm r))
    | some (some _) => 6 + P.cells
    | some none => startCost P + 1
  | .own _ _ _ ph => thrPhase P ph
  | .wantSlot _ _ _ _ => startCost P + 4 + 2 * P.domains
  | .wantCm _ _ => startCost P + 5 + 2 * P.domains
  | _ => 0

/-- A communication thread has to unlock a slot. -/
def sentVal : Pc β → Nat
  | .sent _ _ => 1
  | _ => 0

def netVal (st : DistState β) (p : Nat × Nat) : Nat := (st.net p.1 p.2).length

/-- What one step can change. `K` is the price of the step. -/
def WorkEffect (P : DistParams β) (K : Nat) (st st' : DistState β) : Prop :=
  ∃ u r p, (∀ x, x ≠ u → userVal P st' x = userVal P st x) ∧
    (∀ x, x ≠ r → sentVal (st'.pc (.comm x)) = sentVal (st.pc (.comm x))) ∧
    (∀ q, q ≠ p → netVal st' q = netVal st q) ∧
    userVal P st' u + sentVal (st'.pc (.comm r)) + netVal st' p + 1 ≤
      userVal P st u + sentVal (st.pc (.comm r)) + netVal st p + K

theorem box_other {u : Nat} (hs : UserStep P u st st') {x : Nat} (hne : x ≠ u) :
    st'.box x = st.box x := by
  cases hs with
  | delThread | addThread | finThread => simp only [DistState.goto, sendOp_box]
  | askFail | askDone => exact upd_ne _ _ hne
  | _ => rfl

theorem userVal_congr {x : Nat} (h1 : st'.pc (.user x) = st.pc (.user x)) (h2 : st'.box x = st.box x)
    (h3 : ∀ b off s r, st.pc (.user x) = .own b off s (.ask r) → st.box x = none →
      commVal P x (st'.pc (.comm r)) = commVal P x (st.pc (.comm r))) :
    userVal P st' x = userVal P st x := by
  unfold userVal
  rw [h1, h2]
  split
  · next b off s r e =>
    split
    · next eb => rw [h3 b off s r e eb]
    · rfl
    · rfl
  all_goals rfl

theorem userVal_own {t b off s : Nat} {ph : Phase β} (hp : st.pc (.user t) = .own b off s ph)
    (hn : ∀ r, ph ≠ .ask r) : userVal P st t = thrPhase P ph := by
  unfold userVal
  rw [hp]
  split
  · next e => injection e with _ _ _ e; exact absurd e (hn _)
  · next e => injection e with _ _ _ e; rw [e]
  · next e => cases e
  · next e => cases e
  · next h1 _ _ => exact absurd rfl (h1 _ _ _ _)

theorem userVal_goto {t b off s : Nat} {ph : Phase β} (hn : ∀ r, ph ≠ .ask r) :
    userVal P (st.goto t b off s ph) t = thrPhase P ph := userVal_own (upd_self _ _ _) hn

theorem goto_le {st1 : DistState β} {t b off s k : Nat} {ph ph' : Phase β}
    (hp : st.pc (.user t) = .own b off s ph) (hn : ∀ r, ph ≠ .ask r) (hn' : ∀ r, ph' ≠ .ask r)
    (hv : thrPhase P ph' + k ≤ thrPhase P ph) :
    userVal P (st1.goto t b off s ph') t + k ≤ userVal P st t := by
  rw [userVal_goto hn', userVal_own hp hn]; exact hv

theorem user_val_other {u : Nat} (hs : UserStep P u st st') {x : Nat} (hne : x ≠ u) :
    userVal P st' x = userVal P st x :=
  userVal_congr (user_other hs (by intro e; injection e with e; exact hne e)) (box_other hs hne)
    (fun _ _ _ _ _ _ => by rw [user_other hs (a := .comm _) nofun])

/-- A step of a thread that sends nothing. -/
theorem user_effect_plain {u : Nat} (hs : UserStep P u st st') (enet : st'.net = st.net)
    (hv : userVal P st' u + 1 ≤ userVal P st u) : WorkEffect P 0 st st' := by
  refine ⟨u, 0, (0, 0), fun x hx => user_val_other hs hx, ?_, ?_, ?_⟩
  · intro x _; rw [user_other hs (a := .comm x) nofun]
  · intro q _; unfold netVal; rw [enet]
  · rw [user_other hs (a := .comm 0) nofun]; unfold netVal; rw [enet]; omega

theorem sendOp_len (r b : Nat) (op : DictOp) :
    (∀ q, q ≠ (r, P.home b) → netVal (st.sendOp P r b op) q = netVal st q) ∧
      netVal (st.sendOp P r b op) (r, P.home b) ≤ netVal st (r, P.home b) + 1 := by
  unfold DistState.sendOp netVal
  split
  · exact ⟨fun _ _ => rfl, by simp⟩
  · refine ⟨?_, by simp [upd_self]⟩
    rintro ⟨q1, q2⟩ hq
    simp only
    by_cases e1 : q1 = r
    · subst e1
      rw [upd_self, upd_ne _ _ (fun e => hq (by rw [e]))]
    · rw [upd_ne _ _ e1]

/-- A step of a thread that sends a message. -/
theorem user_effect_send {u r b : Nat} {op : DictOp} (hs : UserStep P u st st')
    (enet : st'.net = (st.sendOp P r b op).net)
    (hv : userVal P st' u + 2 ≤ userVal P st u) : WorkEffect P 0 st st' := by
  obtain ⟨h1, h2⟩ := sendOp_len (P := P) (st := st) r b op
  have e : ∀ q, netVal st' q = netVal (st.sendOp P r b op) q := by
    intro q; unfold netVal; rw [enet]
  refine ⟨u, 0, (r, P.home b), fun x hx => user_val_other hs hx, ?_, ?_, ?_⟩
  · intro x _; rw [user_other hs (a := .comm x) nofun]
  · intro q hq; rw [e]; exact h1 q hq
  · rw [user_other hs (a := .comm 0) nofun, e]; omega

theorem user_decreases (hm : P.mode = .thread) (h : DistInv P st) (h' : DistInv P st') {u : Nat}
    (hs : UserStep P u st st') (hn : st.pc (.user u) ≠ .idle) : WorkEffect P 0 st st' := by
  have hs' := hs
  cases hs with
  | call _ _ b off hp => exact absurd hp hn
  | lookup _ _ b off s c' old hp =>
    refine user_effect_plain hs' rfl ?_
    simp only [userVal, upd_self, hp]; omega
  | lockSlot _ _ b off s old hp =>
    refine user_effect_plain hs' rfl ?_
    rw [userVal_own (upd_self _ _ _) (by intro r; split <;> nofun)]
    simp only [userVal, hp]
    split <;> simp only [thrPhase] <;> omega
  | unlock _ _ b off s v hp =>
    refine user_effect_plain hs' rfl ?_
    simp only [userVal, upd_self, hp, thrPhase]; omega
  | delThread _ _ b off s o hp h1 =>
    refine user_effect_send hs' rfl ?_
    refine goto_le hp nofun nofun ?_
    simp only [thrPhase]; omega
  | addThread _ _ b off s hp h1 =>
    refine user_effect_send hs' rfl ?_
    refine goto_le hp nofun nofun ?_
    simp only [thrPhase]; omega
  | finThread _ _ b off s hp h1 =>
    refine user_effect_send hs' rfl ?_
    refine goto_le hp nofun nofun ?_
    simp only [thrPhase]; omega
  | delWin _ _ b1 off1 s o hp h1 | addWin _ _ b1 off1 s hp h1 | startWin _ _ b1 off1 s rnd hp h1
  | addNone _ _ b1 off1 s hp h1 | startNone _ _ b1 off1 s hp h1
  | xferWin _ _ b1 off1 s e hp h1 | finNone _ _ b1 off1 s hp h1 | finWin _ _ b1 off1 s hp h1 =>
    rw [hm] at h1; cases h1
  | delWinEnd _ _ b1 off1 s o hp =>
    have := h.phase u b1 off1 s _ hp
    rw [show P.mode = .window from this] at hm; cases hm
  | addWinEnd _ _ b1 off1 s hp =>
    have := h.phase u b1 off1 s _ hp
    rw [show P.mode = .window from this] at hm; cases hm
  | copyCell _ _ b1 off1 s e k hp =>
    have := (h.phase u b1 off1 s _ hp).1
    rw [show P.mode = .window from this] at hm; cases hm
  | copyDone _ _ b1 off1 s e k hp =>
    have := (h.phase u b1 off1 s _ hp).1
    rw [show P.mode = .window from this] at hm; cases hm
  | xferThread _ _ b1 off1 s e hp =>
    refine user_effect_plain hs' rfl ?_
    rw [userVal_own hp nofun]
    have hb := h.box_none hp nofun
    -- the communication thread does not yet work for this thread
    have hc : ∀ r, commVal P u (st.pc (.comm r)) = askCost P 0 + 1 := by
      intro r
      have hreq : ∀ b, ¬ ((∃ i, st.pc (.comm r) = .tryDom u b i) ∨ (∃ i, st.pc (.comm r) = .tryCm u b i) ∨
          (∃ i s k buf, st.pc (.comm r) = .send u b i s k buf)) := by
        intro b hx
        obtain ⟨⟨off2, s2, hx2⟩, _⟩ := h.req r u b hx
        rw [hp] at hx2
        injection hx2 with _ _ _ e4; cases e4
      cases hcp : st.pc (.comm r) with
      | tryDom t b i =>
        simp only [commVal]; rw [if_neg]
        intro e; subst e; exact hreq b (.inl ⟨i, hcp⟩)
      | tryCm t b i =>
        simp only [commVal]; rw [if_neg]
        intro e; subst e; exact hreq b (.inr (.inl ⟨i, hcp⟩))
      | send t b i s k buf =>
        simp only [commVal]; rw [if_neg]
        intro e; subst e; exact hreq b (.inr (.inr ⟨i, s, k, buf, hcp⟩))
      | _ => rfl
    simp only [userVal, DistState.goto, upd_self, hb, upd_uc, hc, thrPhase]; omega
  | askFail _ _ b1 off1 s r hp hb =>
    refine user_effect_plain hs' rfl ?_
    rw [userVal_goto]
    · simp only [userVal, hp, hb, thrPhase]; omega
    · nofun
  | askDone _ _ b1 off1 s r buf hp hb =>
    refine user_effect_plain hs' rfl ?_
    rw [userVal_goto]
    · simp only [userVal, hp, hb, thrPhase]; omega
    · nofun
  | numaMiss _ _ b off s i hp =>
    have := (h.phase u b off s _ hp).1
    refine user_effect_plain hs' rfl ?_
    refine goto_le hp nofun nofun ?_
    simp only [thrPhase]; omega
  | numaHit _ _ b1 off1 s o o2 hp =>
    refine user_effect_plain hs' rfl ?_
    refine goto_le hp nofun nofun ?_
    simp only [thrPhase, startCost, askCost]; omega
  | delSkip _ _ b1 off1 s o hp h1
  | numaOwn _ _ b1 off1 s o hp | numaBusy _ _ b1 off1 s o hp
  | numaEnd _ _ b1 off1 s o hp
  | numaTry _ _ b1 off1 s o hp
  | numaCell _ _ b1 off1 s o o2 o3 hp
  | startThread _ _ b1 off1 s rnd hp
  | xferNone _ _ b1 off1 s e hp
  | recvCell _ _ b1 off1 s k buf hp
  | loadCell _ _ b1 off1 s k v hp
  | numaDone _ _ b1 off1 s o o2 o3 hp
  | recvDone _ _ b1 off1 s k buf hp | loadDone _ _ b1 off1 s k hp
  | convert _ _ b1 off1 s hp =>
    refine user_effect_plain hs' rfl ?_
    refine goto_le hp nofun nofun ?_
    simp only [thrPhase, startCost]; omega

/-- A step of a communication thread for the request of thread `t`. -/
theorem comm_effect {r t : Nat} {K : Nat} (hs : CommStep P r st st')
    (enet : st'.net = st.net) (ebox : ∀ x, x ≠ t → st'.box x = st.box x)
    (hcv : ∀ x, x ≠ t → commVal P x (st'.pc (.comm r)) = commVal P x (st.pc (.comm r)))
    (hv : userVal P st' t + sentVal (st'.pc (.comm r)) + 1 ≤
      userVal P st t + sentVal (st.pc (.comm r)) + K) : WorkEffect P K st st' := by
  refine ⟨t, r, (0, 0), ?_, ?_, ?_, ?_⟩
  · intro x hx
    refine userVal_congr (comm_other hs (a := .user x) nofun) (ebox x hx) ?_
    intro b off s r1 _ _
    by_cases e : r1 = r
    · subst e; exact hcv x hx
    · rw [comm_other hs (a := .comm r1) (by intro e1; injection e1 with e1; exact e e1)]
  · intro x hx; rw [comm_other hs (a := .comm x) (by intro e1; injection e1 with e1; exact hx e1)]
  · intro q _; unfold netVal; rw [enet]
  · unfold netVal; rw [enet]; omega

theorem userVal_ask {t b off s r : Nat} (hp : st.pc (.user t) = .own b off s (.ask r))
    (hb : st.box t = none) : userVal P st t = 6 + P.cells + commVal P t (st.pc (.comm r)) := by
  simp only [userVal, hp, hb]

/-- The communication thread continues to work for thread `t`. -/
theorem comm_effect_req {r t b off s : Nat} (hs : CommStep P r st st')
    (hu : st.pc (.user t) = .own b off s (.ask r)) (hb : st.box t = none)
    (enet : st'.net = st.net) (ebox : st'.box = st.box)
    (hcv : ∀ x, x ≠ t → commVal P x (st'.pc (.comm r)) = commVal P x (st.pc (.comm r)))
    (hv : commVal P t (st'.pc (.comm r)) + sentVal (st'.pc (.comm r)) + 1 ≤
      commVal P t (st.pc (.comm r)) + sentVal (st.pc (.comm r))) :
    ¬ Refused st st' ∧ WorkEffect P 0 st st' := by
  refine ⟨?_, comm_effect (t := t) hs enet (fun _ _ => by rw [ebox]) hcv ?_⟩
  · rintro ⟨x, h1, h2⟩; rw [ebox] at h2; exact h1 h2
  · rw [userVal_ask hu hb, userVal_ask ((comm_other hs (a := .user t) nofun).trans hu)
      (by rw [ebox]; exact hb)]
    omega

/-- The price of a refusal. -/
def refusalCost (P : DistParams β) : Nat := startCost P + 2

theorem comm_decreases (h : DistInv P st) {r : Nat} (hs : CommStep P r st st') :
    (¬ Refused st st' ∧ WorkEffect P 0 st st') ∨
      (Refused st st' ∧ WorkEffect P (refusalCost P) st st') := by
  have hs' := hs
  have hnr : st'.box = st.box → ¬ Refused st st' := by
    rintro e ⟨t, h1, h2⟩; rw [e] at h2; exact h1 h2
  cases hs with
  | deliver _ _ src b op rest hp hn =>
    refine .inl ⟨hnr rfl, 0, 0, (src, r), ?_, fun _ _ => rfl, ?_, ?_⟩
    · intro x _; exact userVal_congr rfl rfl (fun _ _ _ _ _ _ => rfl)
    · rintro ⟨q1, q2⟩ hq
      unfold netVal
      simp only
      by_cases e1 : q1 = src
      · subst e1
        rw [upd_self, upd_ne _ _ (fun e => hq (by rw [e]))]
      · rw [upd_ne _ _ e1]
    · unfold netVal
      simp only [upd_self, hn, List.length_cons]
      have : userVal P { st with
          dir := upd st.dir b (dictStep (st.dir b) op)
          net := upd st.net src (upd (st.net src) r rest) } 0 = userVal P st 0 :=
        userVal_congr rfl rfl (fun _ _ _ _ _ _ => rfl)
      omega
  | accept _ _ t b off s hp hu hb =>
    refine .inl (comm_effect_req hs' hu hb rfl rfl ?_ ?_)
    · intro x hx
      simp only [upd_self, hp, commVal]; rw [if_neg (Ne.symm hx)]
    · simp only [upd_self, hp, commVal, sentVal, if_pos]; omega
  | fail _ _ t b i hp hi =>
    obtain ⟨⟨off, s, hu⟩, hb⟩ := h.req r t b (.inl ⟨i, hp⟩)
    refine .inr ⟨⟨t, by rw [hb]; nofun, upd_self _ _ _⟩,
      comm_effect (t := t) hs' rfl (fun x hx => upd_ne _ _ hx) ?_ ?_⟩
    · intro x hx
      simp only [upd_self, hp, commVal]; rw [if_neg (Ne.symm hx)]
    · have e1 : userVal P { st with
          box := upd st.box t (some none)
          pc := upd st.pc (.comm r) .idle } t = startCost P + 1 := by
        simp only [userVal, upd_cu, hu, upd_self]
      rw [e1]
      simp only [upd_self, sentVal, refusalCost]; omega
  | busy _ _ t b i hp hi hc =>
    obtain ⟨⟨off, s, hu⟩, hb⟩ := h.req r t b (.inl ⟨i, hp⟩)
    refine .inl (comm_effect_req hs' hu hb rfl rfl ?_ ?_)
    · intro x hx
      simp only [upd_self, hp, commVal]; rw [if_neg (Ne.symm hx), if_neg (Ne.symm hx)]
    · simp only [upd_self, hp, commVal, sentVal, if_pos, askCost]; omega
  | «try» _ _ t b i hp hi hno hc =>
    obtain ⟨⟨off, s, hu⟩, hb⟩ := h.req r t b (.inl ⟨i, hp⟩)
    refine .inl (comm_effect_req hs' hu hb rfl rfl ?_ ?_)
    · intro x hx
      simp only [upd_self, hp, commVal]; rw [if_neg (Ne.symm hx), if_neg (Ne.symm hx)]
    · simp only [upd_self, hp, commVal, sentVal, if_pos, askCost]; omega
  | miss _ _ t b i hp hc =>
    obtain ⟨⟨off, s, hu⟩, hb⟩ := h.req r t b (.inr (.inl ⟨i, hp⟩))
    have hi := h.tryc r t b i hp
    refine .inl (comm_effect_req hs' hu hb rfl rfl ?_ ?_)
    · intro x hx
      simp only [upd_self, hp, commVal]; rw [if_neg (Ne.symm hx), if_neg (Ne.symm hx)]
    · simp only [upd_self, hp, commVal, sentVal, if_pos, askCost]; omega
  | hit _ _ t b i s1 hp hk hc =>
    obtain ⟨⟨off, s, hu⟩, hb⟩ := h.req r t b (.inr (.inl ⟨i, hp⟩))
    have hi := h.tryc r t b i hp
    refine .inl (comm_effect_req hs' hu hb rfl rfl ?_ ?_)
    · intro x hx
      simp only [upd_self, hp, commVal]; rw [if_neg (Ne.symm hx), if_neg (Ne.symm hx)]
    · simp only [upd_self, hp, commVal, sentVal, if_pos, askCost]; omega
  | cell _ _ t b i s1 k buf hp hk =>
    obtain ⟨⟨off, s, hu⟩, hb⟩ := h.req r t b (.inr (.inr ⟨i, s1, k, buf, hp⟩))
    refine .inl (comm_effect_req hs' hu hb rfl rfl ?_ ?_)
    · intro x hx
      simp only [upd_self, hp, commVal]; rw [if_neg (Ne.symm hx), if_neg (Ne.symm hx)]
    · simp only [upd_self, hp, commVal, sentVal, if_pos, askCost]; omega
  | reply _ _ t b i s1 k buf hp hk =>
    obtain ⟨⟨off, s, hu⟩, hb⟩ := h.req r t b (.inr (.inr ⟨i, s1, k, buf, hp⟩))
    refine .inl ⟨?_, comm_effect (t := t) hs' rfl (fun x hx => upd_ne _ _ hx) ?_ ?_⟩
    · rintro ⟨x, h1, h2⟩
      by_cases e : x = t
      · subst e; replace h2 : upd st.box x _ x = _ := h2; rw [upd_self] at h2; cases h2
      · replace h2 : upd st.box t _ x = _ := h2; rw [upd_ne _ _ e] at h2; exact h1 h2
    · intro x hx
      simp only [upd_self, hp, commVal]; rw [if_neg (Ne.symm hx)]
    · have e1 : userVal P { st with
          box := upd st.box t (some (some buf))
          pc := upd st.pc (.comm r) (.sent i s1) } t = 6 + P.cells := by
        simp only [userVal, upd_cu, hu, upd_self]
      rw [userVal_ask hu hb, e1]
      simp only [upd_self, hp, commVal, sentVal, if_pos]; omega
  | release _ _ i s1 hp =>
    refine .inl ⟨hnr rfl, 0, r, (0, 0), ?_, ?_, fun _ _ => rfl, ?_⟩
    · intro x _
      refine userVal_congr (comm_other hs' (a := .user x) nofun) rfl ?_
      intro b off s r1 _ _
      show commVal P x (upd st.pc _ _ _) = _
      by_cases e : r1 = r
      · subst e; rw [upd_self, hp]; rfl
      · rw [upd_cc e]
    · intro x hx
      show sentVal (upd st.pc _ _ _) = _
      rw [upd_cc hx]
    · have e0 : userVal P { st with
          lk := upd st.lk (r * P.domains + i, s1) none
          pc := upd st.pc (.comm r) .idle } 0 = userVal P st 0 := by
        refine userVal_congr (comm_other hs' (a := .user 0) nofun) rfl ?_
        intro b off s r1 _ _
        show commVal P 0 (upd st.pc _ _ _) = _
        by_cases e : r1 = r
        · subst e; rw [upd_self, hp]; rfl
        · rw [upd_cc e]
      rw [e0]
      simp only [upd_self, hp, sentVal, netVal]
      omega

theorem quiet_effect (hD : 0 < P.domains) (hm : P.mode = .thread) (h : DistInv P st)
    (hq : Quiet P st st') :
    (¬ Refused st st' ∧ WorkEffect P 0 st st') ∨
      (Refused st st' ∧ WorkEffect P (refusalCost P) st st') := by
  rcases quiet_cases hq with ⟨u, hu, hn⟩ | ⟨r, hc⟩
  · refine .inl ⟨?_, user_decreases hm h (h.user_inv hD hu) hu hn⟩
    rintro ⟨t, h1, h2⟩
    by_cases e : t = u
    · subst e
      obtain ⟨b, off, s, r, hp, -⟩ := (h.user_inv hD hu).box t _ h2
      cases hu with
      | askFail | askDone => simp only [DistState.goto, upd_self] at h2; cases h2
      | delThread | addThread | finThread =>
        simp only [DistState.goto, sendOp_box] at h2; exact h1 h2
      | _ => exact h1 h2
    · rw [box_other hu e] at h2; exact h1 h2
  · exact comm_decreases h hc

/-! ### Sums -/

/-- `f` is zero outside of `S`. -/
def Supp {ι : Type} (S : Finset ι) (f : ι → Nat) : Prop := ∀ x, x ∉ S → f x = 0

theorem sum_change {ι : Type} [DecidableEq ι] {S : Finset ι} {f f' : ι → Nat} {u : ι} (hz : Supp S f)
    (ho : ∀ x, x ≠ u → f' x = f x) :
    Supp (insert u S) f' ∧ (∑ x ∈ insert u S, f' x) + f u = (∑ x ∈ S, f x) + f' u := by
  constructor
  · intro x hx
    rw [Finset.mem_insert, not_or] at hx
    rw [ho x hx.1]; exact hz x hx.2
  · have h1 : ∑ x ∈ insert u S, f x = ∑ x ∈ S, f x := by
      by_cases hu : u ∈ S
      · rw [Finset.insert_eq_self.2 hu]
      · rw [Finset.sum_insert hu, hz u hu, Nat.zero_add]
    rw [← h1, ← Finset.add_sum_erase _ f (Finset.mem_insert_self u S),
      ← Finset.add_sum_erase _ f' (Finset.mem_insert_self u S)]
    have : ∑ x ∈ (insert u S).erase u, f' x = ∑ x ∈ (insert u S).erase u, f x :=
      Finset.sum_congr rfl fun x hx => ho x (Finset.ne_of_mem_erase hx)
    omega

/-- The remaining work is at most `m`. -/
def Work (P : DistParams β) (st : DistState β) (m : Nat) : Prop :=
  ∃ (U R : Finset Nat) (N : Finset (Nat × Nat)),
    Supp U (userVal P st) ∧ Supp R (fun r => sentVal (st.pc (.comm r))) ∧ Supp N (netVal st) ∧
    (∑ t ∈ U, userVal P st t) + (∑ r ∈ R, sentVal (st.pc (.comm r))) + (∑ p ∈ N, netVal st p) = m

theorem WorkEffect.work {K m : Nat} (he : WorkEffect P K st st') (hw : Work P st m) :
    ∃ m', Work P st' m' ∧ m' + 1 ≤ m + K := by
  obtain ⟨u, r, p, h1, h2, h3, h4⟩ := he
  obtain ⟨U, R, N, g1, g2, g3, g4⟩ := hw
  obtain ⟨a1, a2⟩ := sum_change g1 h1
  obtain ⟨b1, b2⟩ := sum_change (f' := fun r => sentVal (st'.pc (.comm r))) g2 h2
  obtain ⟨c1, c2⟩ := sum_change g3 h3
  refine ⟨_, ⟨_, _, _, a1, b1, c1, rfl⟩, ?_⟩
  omega

/-- Only finitely many threads and messages are involved. -/
theorem work_exists (hl : Legal P) (h : DistReach P st) : ∃ m, Work P st m := by
  have key : ∀ {s s' : DistState β}, (∃ u r p, (∀ x, x ≠ u → userVal P s' x = userVal P s x) ∧
      (∀ x, x ≠ r → sentVal (s'.pc (.comm x)) = sentVal (s.pc (.comm x))) ∧
      (∀ q, q ≠ p → netVal s' q = netVal s q)) → (∃ m, Work P s m) → ∃ m, Work P s' m := by
    rintro s s' ⟨u, r, p, h1, h2, h3⟩ ⟨m, U, R, N, g1, g2, g3, g4⟩
    exact ⟨_, _, _, _, (sum_change g1 h1).1,
      (sum_change (f' := fun r => sentVal (s'.pc (.comm r))) g2 h2).1, (sum_change g3 h3).1, rfl⟩
  induction h with
  | init h =>
    obtain ⟨c, -, rfl⟩ := h
    exact ⟨0, ∅, ∅, ∅, fun _ _ => rfl, fun _ _ => rfl, fun _ _ => rfl, rfl⟩
  | @step s1 s2 h1 hs ih =>
    have hI := DistInv.reach hl.domains hl.size hl.hand h1
    refine key ?_ ih
    cases hs with
    | user u hu =>
      have h1 : ∀ x, x ≠ u → userVal P s2 x = userVal P s1 x := fun x hx => user_val_other hu hx
      have h2 : ∀ x, x ≠ 0 → sentVal (s2.pc (.comm x)) = sentVal (s1.pc (.comm x)) :=
        fun x _ => by rw [user_other hu (a := .comm x) nofun]
      cases hu with
      | delThread _ _ b off s o =>
        exact ⟨u, 0, _, h1, h2, (sendOp_len (P := P) (st := s1) (P.rankOf (P.dom u)) o _).1⟩
      | addThread _ _ b off s =>
        exact ⟨u, 0, _, h1, h2, (sendOp_len (P := P) (st := s1) (P.rankOf (P.dom u)) b _).1⟩
      | finThread _ _ b off s =>
        exact ⟨u, 0, _, h1, h2, (sendOp_len (P := P) (st := s1) (P.rankOf (P.dom u)) b _).1⟩
      | _ => exact ⟨u, 0, (0, 0), h1, h2, fun _ _ => rfl⟩
    | comm r hc =>
      rcases comm_decreases hI hc with ⟨_, h1⟩ | ⟨_, h1⟩
      · obtain ⟨u, r, p, a1, a2, a3, _⟩ := h1; exact ⟨u, r, p, a1, a2, a3⟩
      · obtain ⟨u, r, p, a1, a2, a3, _⟩ := h1; exact ⟨u, r, p, a1, a2, a3⟩

/-- Each refusal prolongs an execution by at most `refusalCost` steps. -/
theorem quietRunF_le (hl : Legal P) (hm : P.mode = .thread) (h : DistReach P st) {m n f : Nat}
    (hw : Work P st m) (hq : QuietRunF P n f st st') :
    DistReach P st' ∧ ∃ m', Work P st' m' ∧ n + m' ≤ m + f * refusalCost P := by
  induction hq with
  | zero => exact ⟨h, m, hw, by omega⟩
  | @served n f s s1 s2 hr hq hnr ih =>
    obtain ⟨h1, m1, hw1, hle⟩ := ih h hw
    have hI := DistInv.reach hl.domains hl.size hl.hand h1
    refine ⟨.step h1 hq.1, ?_⟩
    have he : WorkEffect P 0 s1 s2 := by
      rcases quiet_effect hl.domains hm hI hq with ⟨_, he⟩ | ⟨hx, _⟩
      · exact he
      · exact absurd hx hnr
    obtain ⟨m2, hw2, hle2⟩ := he.work hw1
    exact ⟨m2, hw2, by omega⟩
  | @refused n f s s1 s2 hr hq hnr ih =>
    obtain ⟨h1, m1, hw1, hle⟩ := ih h hw
    have hI := DistInv.reach hl.domains hl.size hl.hand h1
    refine ⟨.step h1 hq.1, ?_⟩
    have he : WorkEffect P (refusalCost P) s1 s2 := by
      rcases quiet_effect hl.domains hm hI hq with ⟨hx, _⟩ | ⟨_, he⟩
      · exact absurd hnr hx
      · exact he
    obtain ⟨m2, hw2, hle2⟩ := he.work hw1
    exact ⟨m2, hw2, by rw [Nat.add_mul, Nat.one_mul]; omega⟩

end Asagi
