import Verif.Proofs.CacheDistRetry
/-
A single access with the communication thread, while nobody else uses the caches: its request is not
refused.
-/
namespace Asagi
open Spec
variable {β : Type} {P : DistParams β} {st st' : DistState β}

/-- No update of the directory of block `b` is on the way. -/
def NoMail (st : DistState β) (b : Nat) : Prop := ∀ r r' op, (b, op) ∉ st.net r r'

/-- No communication thread works on a request. -/
def CommIdle (st : DistState β) : Prop := ∀ r, st.pc (.comm r) = .idle

/-- The owners in the directory have announced the block. -/
theorem ThrInv.owner (h : ThrInv P st) {b e : Nat} (hn : NoMail st b) (he : (e : Int) ∈ st.dir b) :
    ∃ d s, s < P.size ∧ e = P.entry d s ∧ Announced P st d s b := by
  obtain ⟨L, h1, h2, h3, h4⟩ := h.dir b
  have hL : e ∈ L := by rw [h1] at he; exact enc_mem.1 he
  obtain ⟨d, s, hs, rfl⟩ := h4 e hL
  refine ⟨d, s, hs, rfl, ?_⟩
  obtain ⟨x, hx, y, hy, halt⟩ := h.alt d s b hs
  have : aboutOps b (P.entry d s) (st.net (P.rankOf d) (P.home b)) = [] := by
    unfold aboutOps
    rw [List.map_eq_nil_iff, List.filter_eq_nil_iff]
    rintro ⟨b1, o1⟩ hm hc
    simp only [Bool.and_eq_true, beq_iff_eq] at hc
    rw [hc.1] at hm
    exact hn _ _ _ hm
  rw [this] at halt
  have hxy : x = y := halt
  exact hy.1 (hxy ▸ hx he)

theorem fetch_mem {d : List Int} {L : List Nat} (hd : d = enc dictEntrySize L) {rnd e : Nat}
    (he : dictFetch d rnd = (e : Int)) : (e : Int) ∈ d := by
  rw [hd, dictFetch_enc] at he
  by_cases hL : L = []
  · rw [if_pos hL] at he; omega
  · rw [if_neg hL] at he
    have hlt : rnd % L.length < L.length := Nat.mod_lt _ (List.length_pos_of_ne_nil hL)
    rw [List.getD_eq_getElem?_getD, List.getElem?_eq_getElem hlt, Option.getD_some] at he
    rw [hd, ← he]
    exact enc_mem.2 (List.getElem_mem hlt)

/-- Slot `s` of domain `d` is announced for block `b`. -/
def Target (P : DistParams β) (st : DistState β) (b d s : Nat) : Prop :=
  s < P.size ∧ Announced P st d s b

/-- What is known in the phases of the access. -/
def SoloPhase (P : DistParams β) (st : DistState β) (t b : Nat) : Phase β → Prop
  | .del _ | .numa _ | .numaCm _ | .numaCopy _ _ _ | .start => NoMail st b ∧ CommIdle st
  | .xfer e => CommIdle st ∧ ∀ e' : Nat, e = (e' : Int) → ∃ d s, e' = P.entry d s ∧ Target P st b d s
  | .ask r => (∀ r', r' ≠ r → st.pc (.comm r') = .idle) ∧ st.box t ≠ some none ∧
      (st.box t = none → ∀ i s, st.pc (.comm r) ≠ .sent i s) ∧
      ∃ d s, P.rankOf d = r ∧ Target P st b d s ∧
        ∀ i, st.pc (.comm r) = .tryDom t b i ∨ st.pc (.comm r) = .tryCm t b i → i ≤ d % P.domains
  | _ => True

def SoloPc (P : DistParams β) (st : DistState β) (t b : Nat) : Pc β → Prop
  | .wantCm b' _ => b' = b ∧ NoMail st b ∧ CommIdle st
  | .wantSlot b' _ _ _ => b' = b ∧ NoMail st b ∧ CommIdle st
  | .own b' _ _ ph => b' = b ∧ SoloPhase P st t b ph
  | _ => True

/-- A thread outside of getters, or about to ask the directory. -/
def Parked (p : Pc β) : Prop := p = .idle ∨ ∃ b off s, p = .own b off s .start

/-- Thread `t` accesses block `b`, all other threads are parked. -/
structure Solo (P : DistParams β) (st : DistState β) (t b : Nat) : Prop where
  alone : ∀ u, u ≠ t → Parked (st.pc (.user u))
  here : SoloPc P st t b (st.pc (.user t))

theorem sendOp_mail {r b o : Nat} {op : DictOp} (h : NoMail st b) (ho : o ≠ b) :
    NoMail (st.sendOp P r o op) b := by
  intro r1 r2 op1 hm
  unfold DistState.sendOp at hm
  split at hm
  · exact h _ _ _ hm
  · by_cases e1 : r1 = r
    · subst e1
      simp only [upd_self] at hm
      by_cases e2 : r2 = P.home o
      · subst e2
        rw [upd_self] at hm
        rcases List.mem_append.1 hm with hm | hm
        · exact h _ _ _ hm
        · rw [List.mem_singleton] at hm
          injection hm with e3 _
          exact ho e3.symm
      · rw [upd_ne _ _ e2] at hm; exact h _ _ _ hm
    · simp only [upd_ne _ _ e1] at hm; exact h _ _ _ hm

theorem announced_phase {t b off s : Nat} {ph ph' : Phase β} (h' : DistInv P st') (h : DistInv P st)
    (hp : st.pc (.user t) = .own b off s ph)
    (epc : st'.pc = upd st.pc (.user t) (.own b off s ph')) (ecl : st'.cl = st.cl)
    (hf : fills ph = true) (hc : pubClass b ph' = pubClass b ph) {d s1 x : Nat}
    (ha : Announced P st d s1 x) : Announced P st' d s1 x :=
  (OwnStep.announced_same ⟨hp, epc, ecl, fun _ => hf⟩ h h' hc d s1 x).2 ha

/-- Steps of the thread. -/
theorem Solo.user (hl : Legal P) (hm : P.mode = .thread) (hr : DistReach P st) {t b : Nat}
    (h : Solo P st t b) (hs : UserStep P t st st') (hn : st.pc (.user t) ≠ .idle) :
    Solo P st' t b := by
  have hI := DistInv.reach hl.domains hl.size hl.hand hr
  have hI' := hI.user_inv hl.domains hs
  refine ⟨fun u hu => ?_, ?_⟩
  · rw [user_other hs (by intro e; injection e with e; exact hu e)]; exact h.alone u hu
  have hcomm : ∀ r, st'.pc (.comm r) = st.pc (.comm r) := fun r => user_other hs (a := .comm r) nofun
  have hci : CommIdle st → CommIdle st' := fun hc r => by rw [hcomm]; exact hc r
  have hh := h.here
  cases hs with
  | call _ _ b1 off hp => exact absurd hp hn
  | lookup _ _ b1 off s c' old hp =>
    rw [hp] at hh
    simp only [upd_self]
    exact ⟨hh.1, hh.2.1, hci hh.2.2⟩
  | lockSlot _ _ b1 off s old hp =>
    rw [hp] at hh
    simp only [upd_self]
    refine ⟨hh.1, ?_⟩
    split
    · trivial
    · exact ⟨hh.2.1, hci hh.2.2⟩
  | unlock _ _ b1 off s v hp => simp only [upd_self]; trivial
  | delThread _ _ b1 off s o hp h1 =>
    rw [hp] at hh
    have ho := (hI.phase t b1 off s _ hp).1
    obtain ⟨rfl, h2, h3⟩ := hh
    simp only [DistState.goto, upd_self]
    exact ⟨rfl, sendOp_mail h2 (fun e => ho (by rw [e])), hci h3⟩
  | startThread _ _ b1 off s rnd hp h1 h2 =>
    rw [hp] at hh
    obtain ⟨rfl, h3, h4⟩ := hh
    have hT := ThrInv.reach hl hm hr
    simp only [DistState.goto, upd_self]
    refine ⟨rfl, hci h4, fun e' he => ?_⟩
    obtain ⟨L, g1, -⟩ := hT.dir b1
    obtain ⟨d, s1, a1, a2, a3⟩ := hT.owner h3 (fetch_mem g1 he)
    exact ⟨d, s1, a2, a1, announced_phase hI' hI hp rfl rfl rfl rfl a3⟩
  | xferThread _ _ b1 off s e hp h1 h2 =>
    rw [hp] at hh
    obtain ⟨rfl, h3, h4⟩ := hh
    obtain ⟨d, s1, a1, a2, a3⟩ := h4 e rfl
    have hrk : P.rankOf d = ownerRank P.rankCache e := by
      have hslt : s1 + P.size * (d % P.domains) < P.rankCache := by
        unfold DistParams.rankCache
        have e1 : d % P.domains + 1 ≤ P.domains := Nat.mod_lt _ hl.domains
        have e2 := Nat.mul_le_mul_left P.size e1
        rw [Nat.mul_comm P.domains P.size]
        rw [Nat.mul_add] at e2; omega
      have hR : 0 < P.rankCache := by omega
      rw [a1]
      unfold ownerRank DistParams.entry ownerEntry
      rw [Nat.mul_comm, Nat.mul_add_div hR, Nat.div_eq_of_lt hslt, Nat.add_zero]
    simp only [DistState.goto, upd_self]
    refine ⟨rfl, fun r' _ => hci h3 r', ?_, fun _ i s2 => ?_, d, s1, hrk, ⟨a2, ?_⟩, ?_⟩
    · show st.box t ≠ some none
      rw [hI.box_none hp nofun]; nofun
    · intro hx
      cases (hci h3 _).symm.trans hx
    · exact announced_phase hI' hI hp rfl rfl rfl rfl a3
    · intro i hx
      rcases hx with hx | hx <;> cases (hci h3 _).symm.trans hx
  | askFail _ _ b1 off s r hp hb =>
    rw [hp] at hh
    exact absurd hb hh.2.2.1
  | delWin _ _ b1 off1 s o hp h1 | addWin _ _ b1 off1 s hp h1 | startWin _ _ b1 off1 s rnd hp h1
  | addNone _ _ b1 off1 s hp h1 | startNone _ _ b1 off1 s hp h1
  | xferWin _ _ b1 off1 s e hp h1 | finNone _ _ b1 off1 s hp h1 | finWin _ _ b1 off1 s hp h1 =>
    rw [hm] at h1; cases h1
  | delWinEnd _ _ b1 off1 s o hp =>
    have := hI.phase t b1 off1 s _ hp
    rw [show P.mode = .window from this] at hm; cases hm
  | delSkip _ _ b1 off s o hp
  | numaOwn _ _ b1 off s o hp | numaBusy _ _ b1 off s o hp
  | numaEnd _ _ b1 off s o hp | numaTry _ _ b1 off s o hp | numaMiss _ _ b1 off s o hp
  | numaHit _ _ b1 off s o o2 hp | numaCell _ _ b1 off s o o2 o3 hp =>
    rw [hp] at hh
    obtain ⟨rfl, h2, h3⟩ := hh
    simp only [DistState.goto, upd_self]
    exact ⟨rfl, h2, hci h3⟩
  | addThread _ _ b1 off s hp | addWinEnd _ _ b1 off s hp
  | finThread _ _ b1 off s hp
  | numaDone _ _ b1 off s o o2 o3 hp | xferNone _ _ b1 off s e hp
  | askDone _ _ b1 off s r buf hp | copyCell _ _ b1 off s e k hp | copyDone _ _ b1 off s e k hp
  | recvCell _ _ b1 off s k buf hp | recvDone _ _ b1 off s k buf hp
  | loadCell _ _ b1 off s k v hp | loadDone _ _ b1 off s k hp | convert _ _ b1 off s hp =>
    rw [hp] at hh
    simp only [DistState.goto, upd_self]
    exact ⟨hh.1, trivial⟩

/-- The communication thread of the process with the announced slot finds it. -/
theorem Solo.found (hI : DistInv P st) {t b off s r d s1 : Nat} (h : Solo P st t b)
    (hp : st.pc (.user t) = .own b off s (.ask r)) (ht : Target P st b d s1)
    (hc1 : ∀ r', r' ≠ r → st.pc (.comm r') = .idle)
    (hc2 : ∀ t b i s k buf, st.pc (.comm r) ≠ .send t b i s k buf)
    (hc3 : ∀ i s, st.pc (.comm r) ≠ .sent i s) :
    (st.cl d).peek b = some s1 ∧ st.lk (d, s1) = none := by
  have hno : ∀ u b' off' s' old, st.pc (.user u) ≠ .wantSlot b' off' s' old := by
    intro u b' off' s' old hx
    by_cases e : u = t
    · subst e; rw [hp] at hx; cases hx
    · rcases h.alone u e with x | ⟨_, _, _, x⟩ <;> rw [x] at hx <;> cases hx
  obtain ⟨hlt, ha⟩ := ht
  rcases ha with ⟨hf, ha⟩ | ⟨u, b', off', ph', hu, hd, hc⟩
  · constructor
    · rcases ha with ⟨u, b', off', hx, _⟩ | ⟨_, hi⟩
      · exact absurd hx (hno _ _ _ _ _)
      · obtain ⟨h0, inv, _⟩ := hI.lists d
        exact (inv.bij b s1).2 hi
    · cases hk : st.lk (d, s1) with
      | none => rfl
      | some a =>
        have := (hI.lk (d, s1) a).1 hk
        cases a with
        | user u =>
          by_cases e : u = t
          · subst e
            rw [hp] at this
            simp only [LkOf, SrcOf, or_false] at this
            injection this with e1 e2
            subst e1 e2
            exact absurd rfl (hf u _ _ _ hp)
          · rcases h.alone u e with x | ⟨_, _, _, x⟩
            · rw [x] at this; exact this.elim
            · rw [x] at this
              simp only [LkOf, SrcOf, or_false] at this
              injection this with e1 e2
              subst e1 e2
              exact absurd rfl (hf u _ _ _ x)
        | comm r' =>
          by_cases e : r' = r
          · subst e
            cases hcp : st.pc (.comm r') with
            | send t b i s k buf => exact absurd hcp (hc2 _ _ _ _ _ _)
            | sent i s => exact absurd hcp (hc3 _ _)
            | _ => rw [hcp] at this; exact this.elim
          · rw [hc1 r' e] at this; exact this.elim
  · exfalso
    have e : u = t := by
      by_contra e
      rcases h.alone u e with x | ⟨_, _, _, x⟩ <;> rw [x] at hu <;> cases hu
      cases hc
    subst e
    rw [hp] at hu
    injection hu with _ _ _ e4
    subst e4; cases hc

/-- Steps of the communication threads. -/
theorem Solo.comm (hl : Legal P) (hno : P.noop = false) (hr : DistReach P st)
    {t b r : Nat} (h : Solo P st t b) (hs : CommStep P r st st') : Solo P st' t b := by
  have hI := DistInv.reach hl.domains hl.size hl.hand hr
  have hpu : ∀ u, st'.pc (.user u) = st.pc (.user u) := fun u => comm_other hs (a := .user u) nofun
  refine ⟨fun u hu => by rw [hpu]; exact h.alone u hu, ?_⟩
  rw [hpu]
  have hh := h.here
  have hann := comm_announced (P := P) hs
  have hmail : NoMail st b → NoMail st' b := by
    intro hn
    cases hs with
    | deliver _ _ src b1 op rest hp hn1 =>
      intro r1 r2 op1 hm
      replace hm : (b, op1) ∈ upd st.net src (upd (st.net src) r rest) r1 r2 := hm
      by_cases e1 : r1 = src
      · subst e1
        rw [upd_self] at hm
        by_cases e2 : r2 = r
        · subst e2
          rw [upd_self] at hm
          exact hn r1 r2 op1 (by rw [hn1]; exact List.mem_cons_of_mem _ hm)
        · rw [upd_ne _ _ e2] at hm; exact hn _ _ _ hm
      · rw [upd_ne _ _ e1] at hm; exact hn _ _ _ hm
    | _ => exact hn
  -- while the thread does not ask, idle communication threads stay idle
  have hidle : (∀ b' off s r, st.pc (.user t) ≠ .own b' off s (.ask r)) → CommIdle st → CommIdle st' := by
    intro hna hc
    have hcr := hc r
    cases hs with
    | deliver => exact hc
    | accept _ _ u b1 off s _ hu =>
      by_cases e : u = t
      · subst e; exact absurd hu (hna _ _ _ _)
      · rcases h.alone u e with x | ⟨_, _, _, x⟩ <;> rw [x] at hu <;> cases hu
    | _ => simp_all
  cases hpc : st.pc (.user t) with
  | wantCm b1 off =>
    rw [hpc] at hh
    exact ⟨hh.1, hmail hh.2.1, hidle (by rw [hpc]; nofun) hh.2.2⟩
  | wantSlot b1 off s old =>
    rw [hpc] at hh
    exact ⟨hh.1, hmail hh.2.1, hidle (by rw [hpc]; nofun) hh.2.2⟩
  | own b1 off s ph =>
    rw [hpc] at hh
    obtain ⟨rfl, hh⟩ := hh
    refine ⟨rfl, ?_⟩
    have hna : (∀ r, ph ≠ .ask r) → ∀ b' off s r, st.pc (.user t) ≠ .own b' off s (.ask r) := by
      intro h1 b' off' s' r' hx
      rw [hpc] at hx
      injection hx with _ _ _ e; exact h1 _ e
    cases ph with
    | del | numa | numaCm | numaCopy | start => exact ⟨hmail hh.1, hidle (hna nofun) hh.2⟩
    | xfer e =>
      refine ⟨hidle (hna nofun) hh.1, fun e' he => ?_⟩
      obtain ⟨d, s1, a1, a2, a3⟩ := hh.2 e' he
      exact ⟨d, s1, a1, a2, (hann _ _ _).2 a3⟩
    | ask r0 =>
      obtain ⟨g1, g2, g3, d, s1, g4, g5, g6⟩ := hh
      have hmd : d % P.domains < P.domains := Nat.mod_lt _ hl.domains
      have hd : r0 * P.domains + d % P.domains = d := by
        rw [← g4]; unfold DistParams.rankOf
        rw [Nat.mul_comm]; exact Nat.div_add_mod d P.domains
      have g5' : Target P st' b1 d s1 := ⟨g5.1, (hann _ _ _).2 g5.2⟩
      by_cases hr0 : r = r0
      · subst hr0
        have hoth : ∀ r', r' ≠ r → st'.pc (.comm r') = .idle := by
          intro r' hr'
          rw [comm_other hs (a := .comm r') (by intro e; injection e with e; exact hr' e)]
          exact g1 r' hr'
        -- a request in progress is the one of this thread
        have hme : ∀ u b2, ((∃ i, st.pc (.comm r) = .tryDom u b2 i) ∨ (∃ i, st.pc (.comm r) = .tryCm u b2 i) ∨
            (∃ i s k buf, st.pc (.comm r) = .send u b2 i s k buf)) → u = t ∧ b2 = b1 ∧ st.box t = none := by
          intro u b2 hx
          obtain ⟨⟨off2, s2, hx2⟩, hx3⟩ := hI.req r u b2 hx
          have e : u = t := by
            by_contra e
            rcases h.alone u e with x | ⟨_, _, _, x⟩ <;> rw [x] at hx2 <;> cases hx2
          subst e
          rw [hpc] at hx2
          injection hx2 with e1
          exact ⟨rfl, e1.symm, hx3⟩
        cases hs with
        | deliver => exact ⟨g1, g2, g3, d, s1, g4, g5', g6⟩
        | accept _ _ u b2 off2 s2 hp hu hb =>
          have e : u = t := by
            by_contra e
            rcases h.alone u e with x | ⟨_, _, _, x⟩ <;> rw [x] at hu <;> cases hu
          subst e
          rw [hpc] at hu
          injection hu with e1
          subst e1
          refine ⟨hoth, g2, fun _ => by simp only [upd_self]; nofun, d, s1, g4, g5', ?_⟩
          intro i hx
          simp only [upd_self] at hx
          rcases hx with hx | hx
          · injection hx with _ _ hx; omega
          · cases hx
        | fail _ _ u b2 i hp hi =>
          obtain ⟨rfl, rfl, _⟩ := hme u b2 (.inl ⟨i, hp⟩)
          have := g6 i (.inl hp)
          omega
        | busy _ _ u b2 i hp hi hc =>
          exfalso
          rcases hc with hc | hc
          · rw [hno] at hc; cases hc
          · cases hcm : st.cm (r * P.domains + i) with
            | none => exact hc hcm
            | some a =>
              have := (hI.cm _ a).1 hcm
              cases a with
              | user u2 =>
                by_cases e : u2 = t
                · subst e; rw [hpc] at this; exact this.elim
                · rcases h.alone u2 e with x | ⟨_, _, _, x⟩ <;> rw [x] at this <;> exact this.elim
              | comm r' =>
                by_cases e : r' = r
                · subst e; rw [hp] at this; exact this.elim
                · rw [g1 r' e] at this; exact this.elim
        | «try» _ _ u b2 i hp hi _ hc =>
          obtain ⟨rfl, rfl, _⟩ := hme u b2 (.inl ⟨i, hp⟩)
          refine ⟨hoth, g2, fun _ => by simp only [upd_self]; nofun, d, s1, g4, g5', ?_⟩
          intro j hx
          simp only [upd_self] at hx
          rcases hx with hx | hx
          · cases hx
          · injection hx with _ _ hx
            subst hx; exact g6 i (.inl hp)
        | miss _ _ u b2 i hp hc =>
          obtain ⟨rfl, rfl, hb⟩ := hme u b2 (.inr (.inl ⟨i, hp⟩))
          refine ⟨hoth, g2, fun _ => by simp only [upd_self]; nofun, d, s1, g4, g5', ?_⟩
          intro j hx
          simp only [upd_self] at hx
          have hle := g6 i (.inr hp)
          have hne : i ≠ d % P.domains := by
            intro e
            obtain ⟨f1, f2⟩ := h.found hI hpc g5 g1 (by rw [hp]; nofun) (by rw [hp]; nofun)
            rw [e, hd] at hc
            exact hc s1 f1 f2
          rcases hx with hx | hx
          · injection hx with _ _ hx
            omega
          · cases hx
        | hit _ _ u b2 i s2 hp hk hc =>
          obtain ⟨rfl, rfl, hb⟩ := hme u b2 (.inr (.inl ⟨i, hp⟩))
          refine ⟨hoth, g2, fun _ => by simp only [upd_self]; nofun, d, s1, g4, g5', ?_⟩
          intro j hx
          simp only [upd_self] at hx
          rcases hx with hx | hx <;> cases hx
        | cell _ _ u b2 i s2 k buf hp hk =>
          refine ⟨hoth, g2, fun _ => by simp only [upd_self]; nofun, d, s1, g4, g5', ?_⟩
          intro j hx
          simp only [upd_self] at hx
          rcases hx with hx | hx <;> cases hx
        | reply _ _ u b2 i s2 k buf hp hk =>
          obtain ⟨rfl, rfl, hb⟩ := hme u b2 (.inr (.inr ⟨i, s2, k, buf, hp⟩))
          refine ⟨hoth, ?_, ?_, d, s1, g4, g5', ?_⟩
          · simp only [upd_self]; nofun
          · simp only [upd_self]; nofun
          · intro j hx
            simp only [upd_self] at hx
            rcases hx with hx | hx <;> cases hx
        | release _ _ i s2 hp =>
          refine ⟨hoth, g2, fun _ => by simp only [upd_self]; nofun, d, s1, g4, g5', ?_⟩
          intro j hx
          simp only [upd_self] at hx
          rcases hx with hx | hx <;> cases hx
      · -- other communication threads only deliver directory updates
        have hcr := g1 r hr0
        cases hs with
        | deliver => exact ⟨g1, g2, g3, d, s1, g4, g5', g6⟩
        | accept _ _ u b2 off2 s2 hp hu hb =>
          have e : u = t := by
            by_contra e
            rcases h.alone u e with x | ⟨_, _, _, x⟩ <;> rw [x] at hu <;> cases hu
          subst e
          rw [hpc] at hu
          injection hu with _ _ _ e4
          injection e4 with e4
          exact absurd e4.symm hr0
        | _ => simp_all
    | _ => trivial
  | idle => trivial
  | tryDom | tryCm | send | sent => trivial

/-- No refusal is on the way. -/
theorem Solo.box (hI : DistInv P st) {t b : Nat} (h : Solo P st t b) (u : Nat) :
    st.box u ≠ some none := by
  intro hb
  obtain ⟨b1, off, s, r, hp, -⟩ := hI.box u _ hb
  have e : u = t := by
    by_contra e
    rcases h.alone u e with x | ⟨_, _, _, x⟩ <;> rw [x] at hp <;> cases hp
  subst e
  have := h.here
  rw [hp] at this
  exact this.2.2.1 hb

/-- No request of the access is refused. -/
theorem Solo.run (hl : Legal P) (hm : P.mode = .thread) (hno : P.noop = false) (hr : DistReach P st)
    {t b : Nat} (h : Solo P st t b) (hal : ∀ u, u ≠ t → st.pc (.user u) = .idle) {n : Nat}
    (hq : QuietRun P n st st') :
    DistReach P st' ∧ Solo P st' t b ∧ (∀ u, u ≠ t → st'.pc (.user u) = .idle) ∧
      QuietRunF P n 0 st st' := by
  induction hq with
  | zero => exact ⟨hr, h, hal, .zero _⟩
  | @succ n s s1 s2 hrun hq ih =>
    obtain ⟨h1, h2, ha, h3⟩ := ih hr h hal
    have h2' : Solo P s2 t b := by
      rcases quiet_cases hq with ⟨u, hu, hn⟩ | ⟨r, hc⟩
      · have e : u = t := by
          by_contra e
          exact hn (ha u e)
        subst e
        exact h2.user hl hm h1 hu hn
      · exact h2.comm hl hno h1 hc
    refine ⟨.step h1 hq.1, h2', fun u hu => hq.2 u (ha u hu), .served h3 hq ?_⟩
    rintro ⟨u, -, hb⟩
    exact h2'.box (DistInv.reach hl.domains hl.size hl.hand (Reachable.step h1 hq.1)) u hb

end Asagi
