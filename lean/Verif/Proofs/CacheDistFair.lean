import Verif.Proofs.CacheDistDrain
import Mathlib.Order.Filter.AtTopBot.Basic
import Mathlib.Order.Filter.Finite
/-
Fair executions with the communication thread, if no two getters run in the same NUMA domain: only
finitely many requests are refused.
-/
namespace Asagi
open Spec
variable {β : Type} {P : DistParams β} {st st' : DistState β}

/-! ### Steps inside of the retry loop -/

/-- The retry loop of a block request. -/
def inLoop : Pc β → Prop
  | .own _ _ _ .start | .own _ _ _ (.xfer _) | .own _ _ _ (.ask _) => True
  | _ => False

/-- Bound for the number of steps outside of the retry loop. -/
def loopRank (P : DistParams β) : Pc β → Nat
  | .own _ _ _ .start | .own _ _ _ (.xfer _) | .own _ _ _ (.ask _) => 5 + P.cells
  | p => stepsLeft P p

/-- A step from one position of the retry loop to another. -/
inductive LoopStep (P : DistParams β) (u : Nat) (st st' : DistState β) : Prop
  | fetch (b off s rnd : Nat) (hp : st.pc (.user u) = .own b off s .start)
      (e : st' = st.goto u b off s (.xfer (dictFetch (st.dir b) rnd)))
  | request (b off s e : Nat) (hp : st.pc (.user u) = .own b off s (.xfer (e : Int)))
      (e : st' = { st with
        blk := upd st.blk (P.rankOf (P.dom u)) (some (.user u))
        }.goto u b off s (.ask (ownerRank P.rankCache e)))
  | again (b off s r : Nat) (hp : st.pc (.user u) = .own b off s (.ask r))
      (hb : st.box u = some none)
      (e : st' = { st with
        box := upd st.box u none
        blk := upd st.blk (P.rankOf (P.dom u)) none }.goto u b off s .start)

theorem LoopStep.frame {u : Nat} (h : LoopStep P u st st') : st'.cl = st.cl ∧ st'.lk = st.lk ∧
    st'.cm = st.cm ∧ st'.net = st.net ∧ inLoop (st.pc (.user u)) ∧ inLoop (st'.pc (.user u)) := by
  cases h with
  | fetch b off s rnd hp e | request b off s e hp e | again b off s r hp hb e =>
    subst e
    refine ⟨rfl, rfl, rfl, rfl, ?_, ?_⟩
    · rw [hp]; trivial
    · simp only [DistState.goto, upd_self]; trivial

theorem rank_step (h : DistInv P st) (hm : P.mode = .thread) {u : Nat} (hs : UserStep P u st st')
    (hn : st.pc (.user u) ≠ .idle) :
    loopRank P (st'.pc (.user u)) < loopRank P (st.pc (.user u)) ∨ LoopStep P u st st' := by
  cases hs with
  | call _ _ b off hp => exact absurd hp hn
  | lookup _ _ b off s c' old hp => left; rw [hp]; simp only [upd_self, loopRank, stepsLeft]; omega
  | lockSlot _ _ b off s old hp =>
    left; rw [hp]; simp only [upd_self]; split <;> simp only [loopRank, stepsLeft, phaseLeft] <;> omega
  | startThread _ _ b off s rnd hp h1 => exact .inr (.fetch b off s rnd hp rfl)
  | xferThread _ _ b off s e hp h1 => exact .inr (.request b off s e hp rfl)
  | askFail _ _ b off s r hp hb => exact .inr (.again b off s r hp hb rfl)
  | numaMiss _ _ b off s i hp =>
    have := (h.phase u b off s _ hp).1
    left; rw [hp]; simp only [DistState.goto, upd_self, loopRank, stepsLeft, phaseLeft]; omega
  | unlock _ _ b off s v hp =>
    left; rw [hp]; simp only [upd_self, loopRank, stepsLeft, phaseLeft]; omega
  | delThread _ _ b off s o hp | addThread _ _ b off s hp | finThread _ _ b off s hp =>
    left; rw [hp]; simp only [DistState.goto, upd_self, loopRank, stepsLeft, phaseLeft]; omega
  | startNone _ _ b1 off1 s hp h1 | startWin _ _ b1 off1 s rnd hp h1
  | xferWin _ _ b1 off1 s e hp h1 => rw [hm] at h1; cases h1
  | delSkip _ _ b1 off1 s o hp | delWin _ _ b1 off1 s o hp | delWinEnd _ _ b1 off1 s o hp
  | numaOwn _ _ b1 off1 s o hp | numaBusy _ _ b1 off1 s o hp
  | numaEnd _ _ b1 off1 s o hp
  | numaTry _ _ b1 off1 s o hp | numaHit _ _ b1 off1 s o o2 hp
  | numaCell _ _ b1 off1 s o o2 o3 hp | numaDone _ _ b1 off1 s o o2 o3 hp
  | addNone _ _ b1 off1 s hp | addWin _ _ b1 off1 s hp | addWinEnd _ _ b1 off1 s hp
  | xferNone _ _ b1 off1 s e hp | copyCell _ _ b1 off1 s e k hp
  | askDone _ _ b1 off1 s r buf hp
  | copyDone _ _ b1 off1 s e k hp | recvCell _ _ b1 off1 s k buf hp
  | recvDone _ _ b1 off1 s k buf hp | loadCell _ _ b1 off1 s k v hp | loadDone _ _ b1 off1 s k hp
  | finNone _ _ b1 off1 s hp | finWin _ _ b1 off1 s hp | convert _ _ b1 off1 s hp =>
    left; rw [hp]; simp only [DistState.goto, upd_self, loopRank, stepsLeft, phaseLeft]; omega

theorem loopRank_loop {p : Pc β} (h : inLoop p) : loopRank P p = 5 + P.cells := by
  unfold inLoop at h
  split at h
  · rfl
  · rfl
  · rfl
  · exact h.elim

/-- Outside of the retry loop, a thread with a slot can always continue. -/
theorem own_can (hm : P.mode = .thread) {t b off s : Nat} {ph : Phase β}
    (hp : st.pc (.user t) = .own b off s ph) (hn : ¬ inLoop (st.pc (.user t))) :
    ∃ st', UserStep P t st st' := by
  rw [hp] at hn
  have hx : ∃ st', execOwn P st t 0 b off s ph = some st' := by
    cases ph with
    | start | ask | xfer => exact absurd trivial hn
    | del old =>
      cases old with
      | none => exact ⟨_, rfl⟩
      | some o => simp only [execOwn, hm]; exact ⟨_, rfl⟩
    | delLocked o => exact ⟨_, rfl⟩
    | numa i =>
      simp only [execOwn]; repeat' split
      all_goals exact ⟨_, rfl⟩
    | numaCm i =>
      simp only [execOwn]; repeat' split
      all_goals exact ⟨_, rfl⟩
    | numaCopy i s' k => simp only [execOwn]; split <;> exact ⟨_, rfl⟩
    | add => simp only [execOwn, hm]; exact ⟨_, rfl⟩
    | addLocked => exact ⟨_, rfl⟩
    | copy e k => simp only [execOwn]; split <;> exact ⟨_, rfl⟩
    | recv buf k => simp only [execOwn]; split <;> exact ⟨_, rfl⟩
    | load k => simp only [execOwn]; split <;> exact ⟨_, rfl⟩
    | fin => simp only [execOwn, hm]; exact ⟨_, rfl⟩
    | use => exact ⟨_, rfl⟩
    | out v => exact ⟨_, rfl⟩
  obtain ⟨st', hx⟩ := hx
  exact ⟨st', execOwn_sound hp hx⟩

/-- The domain of a communication thread that releases a slot. -/
theorem sent_lt (hl : Legal P) (h : DistReach P st) {r i s : Nat} (hp : st.pc (.comm r) = .sent i s) :
    i < P.domains := by
  induction h generalizing r i s with
  | init h => obtain ⟨c, -, rfl⟩ := h; cases hp
  | @step s1 s2 h1 hs ih =>
    cases hs with
    | user u hu => rw [user_other hu (a := .comm r) nofun] at hp; exact ih hp
    | comm r1 hc =>
      by_cases hr : r = r1
      · subst hr
        have hI := DistInv.reach hl.domains hl.size hl.hand h1
        cases hc with
        | deliver => exact ih hp
        | reply _ _ t b i1 s1 k buf h2 hk =>
          simp only [upd_self] at hp
          injection hp with e1 e2
          subst e1
          exact (hI.send r t b _ _ _ _ h2).1
        | _ => simp only [upd_self] at hp; cases hp
      · rw [comm_other hc (by intro e; injection e with e; exact hr e)] at hp; exact ih hp

/-- Remaining steps of a communication thread. -/
def commLeft (P : DistParams β) : Pc β → Nat
  | .tryDom _ _ i => 2 * (P.domains - i) + P.cells + 5
  | .tryCm _ _ i => 2 * (P.domains - i) + P.cells + 4
  | .send _ _ _ _ k _ => 2 + (P.cells - k)
  | .sent _ _ => 1
  | _ => 0

theorem commLeft_lt (h : DistInv P st) {r : Nat} (hs : CommStep P r st st')
    (hn : st.pc (.comm r) ≠ .idle) : commLeft P (st'.pc (.comm r)) < commLeft P (st.pc (.comm r)) := by
  cases hs with
  | deliver _ _ src b op rest hp | accept _ _ t b off s hp => exact absurd hp hn
  | miss _ _ t b i hp =>
    have := h.tryc r t b i hp
    rw [hp]; simp only [upd_self, commLeft]; omega
  | fail _ _ t b i hp | busy _ _ t b i hp | «try» _ _ t b i hp
  | hit _ _ t b i s hp | cell _ _ t b i s k buf hp | reply _ _ t b i s k buf hp
  | release _ _ i s hp =>
    rw [hp]; simp only [upd_self, commLeft]; omega

/-! ### Infinite executions -/

theorem eventually_const {f : Nat → Nat} {n0 : Nat} (h : ∀ n, n0 ≤ n → f (n + 1) ≤ f n) :
    ∃ N, n0 ≤ N ∧ ∀ n, N ≤ n → f (n + 1) = f n := by
  have key : ∀ k n, n0 ≤ n → f n ≤ k → ∃ N, n0 ≤ N ∧ ∀ m, N ≤ m → f (m + 1) = f m := by
    intro k
    induction k with
    | zero =>
      intro n hn hk
      refine ⟨n, hn, fun m hm => ?_⟩
      have hz : ∀ j, f (n + j) = 0 := by
        intro j
        induction j with
        | zero => simpa using hk
        | succ j ih => have := h (n + j) (by omega); rw [← Nat.add_assoc]; omega
      have h1 := hz (m - n)
      have h2 := hz (m + 1 - n)
      rw [show n + (m - n) = m by omega] at h1
      rw [show n + (m + 1 - n) = m + 1 by omega] at h2
      omega
    | succ k ih =>
      intro n hn hk
      by_cases hx : ∃ m, n ≤ m ∧ f m ≤ k
      · obtain ⟨m, hm, hle⟩ := hx
        exact ih m (by omega) hle
      · push Not at hx
        refine ⟨n, hn, fun m hm => ?_⟩
        have hz : ∀ j, f (n + j) ≤ k + 1 := by
          intro j
          induction j with
          | zero => simpa using hk
          | succ j ih => have := h (n + j) (by omega); rw [← Nat.add_assoc]; omega
        have h1 := hz (m - n)
        have h2 := hz (m + 1 - n)
        rw [show n + (m - n) = m by omega] at h1
        rw [show n + (m + 1 - n) = m + 1 by omega] at h2
        have := hx m hm
        have := hx (m + 1) (by omega)
        omega
  exact key (f n0) n0 (Nat.le_refl _) (Nat.le_refl _)

theorem forever {Q : Nat → Prop} {n : Nat} (h0 : Q n) (hs : ∀ m, n ≤ m → Q m → Q (m + 1)) :
    ∀ m, n ≤ m → Q m := by
  intro m hm
  induction m, hm using Nat.le_induction with
  | base => exact h0
  | succ m hm ih => exact hs m hm ih

/-- From some time on, threads only move inside of the retry loop. -/
theorem loop_only (hl : Legal P) (hm : P.mode = .thread) {σ : Nat → DistState β}
    (hr : ∀ n, DistReach P (σ n)) (hq : ∀ n, Quiet P (σ n) (σ (n + 1))) :
    ∃ N, ∀ n, N ≤ n → (∃ u, UserStep P u (σ n) (σ (n + 1)) ∧ LoopStep P u (σ n) (σ (n + 1))) ∨
      ∃ r, CommStep P r (σ n) (σ (n + 1)) := by
  obtain ⟨L, hL⟩ := busy_finite (hr 0)
  have hbusy : ∀ n t, (σ n).pc (.user t) ≠ .idle → t ∈ L := by
    intro n
    induction n with
    | zero => exact hL
    | succ n ih => exact fun t ht => ih t (fun e => ht ((hq n).2 t e))
  have hle : ∀ n x, loopRank P ((σ (n + 1)).pc (.user x)) ≤ loopRank P ((σ n).pc (.user x)) := by
    intro n x
    rcases quiet_cases (hq n) with ⟨u, hu, hn⟩ | ⟨r, hc⟩
    · by_cases e : x = u
      · subst e
        rcases rank_step (DistInv.reach hl.domains hl.size hl.hand (hr n)) hm hu hn with h1 | h1
        · exact Nat.le_of_lt h1
        · obtain ⟨-, -, -, -, h2, h3⟩ := h1.frame
          rw [loopRank_loop h2, loopRank_loop h3]
      · rw [user_other hu (by intro e1; injection e1 with e1; exact e e1)]
    · rw [comm_other hc (a := .user x) nofun]
  obtain ⟨N, -, hN⟩ := eventually_const (n0 := 0)
    (f := fun n => (L.map fun t => loopRank P ((σ n).pc (.user t))).sum) (fun n _ => sum_le' (hle n) L)
  refine ⟨N, fun n hn => ?_⟩
  rcases quiet_cases (hq n) with ⟨u, hu, hb⟩ | hc
  · refine .inl ⟨u, hu, ?_⟩
    rcases rank_step (DistInv.reach hl.domains hl.size hl.hand (hr n)) hm hu hb with h1 | h1
    · exfalso
      have := sum_lt (f := fun t => loopRank P ((σ n).pc (.user t)))
        (g := fun t => loopRank P ((σ (n + 1)).pc (.user t))) (hle n) (hbusy n u hb) h1
      have := hN n hn
      omega
    · exact h1
  · exact .inr hc

/-- The data about an infinite execution after that time. -/
structure Late (P : DistParams β) (σ : Nat → DistState β) (N : Nat) : Prop where
  reach : ∀ n, DistReach P (σ n)
  inv : ∀ n, DistInv P (σ n)
  quiet : ∀ n, Quiet P (σ n) (σ (n + 1))
  one : ∀ n, OnePer P (σ n)
  fair : Fair P σ
  step : ∀ n, N ≤ n → (∃ u, UserStep P u (σ n) (σ (n + 1)) ∧ LoopStep P u (σ n) (σ (n + 1))) ∨
      ∃ r, CommStep P r (σ n) (σ (n + 1))

namespace Late
variable {σ : Nat → DistState β} {N : Nat}

theorem mono (h : Late P σ N) {N' : Nat} (hn : N ≤ N') : Late P σ N' :=
  { h with step := fun n hn' => h.step n (by omega) }

/-- Threads outside of the loop do not move. -/
theorem stay (h : Late P σ N) {n u : Nat} (hn : N ≤ n) (hp : ¬ inLoop ((σ n).pc (.user u))) :
    ∀ m, n ≤ m → (σ m).pc (.user u) = (σ n).pc (.user u) := by
  refine forever (Q := fun m => (σ m).pc (.user u) = (σ n).pc (.user u)) rfl (fun m hm e => ?_)
  rcases h.step m (by omega) with ⟨v, hv, hlp⟩ | ⟨r, hc⟩
  · by_cases e1 : u = v
    · subst e1
      exact absurd (e ▸ hlp.frame.2.2.2.2.1) hp
    · rw [user_other hv (by intro e2; injection e2 with e2; exact e1 e2)]; exact e
  · rw [comm_other hc (a := .user u) nofun]; exact e

/-- A thread outside of the loop is blocked again and again. -/
theorem blocked (h : Late P σ N) (hm : P.mode = .thread) {n u : Nat} (hn : N ≤ n)
    (hp : ¬ inLoop ((σ n).pc (.user u))) (hi : (σ n).pc (.user u) ≠ .idle) (n' : Nat) (hn' : n ≤ n') :
    ∃ m, n' ≤ m ∧ ∀ st', ¬ UserStep P u (σ m) st' := by
  obtain ⟨m, hm1, hf⟩ := h.fair.users u n'
  have e := h.stay hn hp m (by omega)
  have e' := h.stay hn hp (m + 1) (by omega)
  refine ⟨m, hm1, ?_⟩
  rcases hf with hf | hf | hf
  · exact absurd (e.symm.trans hf) hi
  · exfalso
    rcases rank_step (h.inv m) hm hf (by rw [e]; exact hi) with h1 | h1
    · rw [e, e'] at h1; exact Nat.lt_irrefl _ h1
    · exact hp (e ▸ h1.frame.2.2.2.2.1)
  · exact hf

/-- Only the retry loop is left for threads with a slot. -/
theorem own (h : Late P σ N) (hm : P.mode = .thread) {n u b off s : Nat} {ph : Phase β} (hn : N ≤ n)
    (hp : (σ n).pc (.user u) = .own b off s ph) : inLoop ((σ n).pc (.user u)) := by
  by_contra hx
  obtain ⟨m, hm1, hb⟩ := h.blocked hm hn hx (by rw [hp]; nofun) n (Nat.le_refl _)
  have e := h.stay hn hx m hm1
  obtain ⟨st', hs⟩ := own_can (st := σ m) hm (e.trans hp) (by rw [e]; exact hx)
  exact hb st' hs

/-- Communication threads become idle again and again. -/
theorem commIdle (h : Late P σ N) (r n : Nat) : ∃ m, n ≤ m ∧ (σ m).pc (.comm r) = .idle := by
  by_contra hx
  push Not at hx
  have hle : ∀ m, n ≤ m → commLeft P ((σ (m + 1)).pc (.comm r)) ≤ commLeft P ((σ m).pc (.comm r)) := by
    intro m hm
    rcases quiet_cases (h.quiet m) with ⟨u, hu, -⟩ | ⟨r', hc⟩
    · rw [user_other hu (a := .comm r) nofun]
    · by_cases e : r = r'
      · subst e; exact Nat.le_of_lt (commLeft_lt (h.inv m) hc (hx m hm))
      · rw [comm_other hc (by intro e1; injection e1 with e1; exact e e1)]
  obtain ⟨M, hM, hc⟩ := eventually_const (f := fun m => commLeft P ((σ m).pc (.comm r))) hle
  obtain ⟨m, hm1, hf⟩ := h.fair.comm r M
  rcases hf with hf | hf
  · have := commLeft_lt (h.inv m) hf (hx m (by omega))
    have := hc m hm1
    omega
  · obtain ⟨st', hs⟩ := (h.inv m).comm_enabled (hx m (by omega))
    exact hf st' hs

theorem rank_of {r i d : Nat} (hi : i < P.domains) (h : d = r * P.domains + i) : P.rankOf d = r := by
  have hD : 0 < P.domains := by omega
  unfold DistParams.rankOf
  rw [h, Nat.mul_comm, Nat.mul_add_div hD, Nat.div_eq_of_lt hi, Nat.add_zero]

/-- Nobody waits for the lock of a slot. -/
theorem noSlot (hl : Legal P) (h : Late P σ N) (hm : P.mode = .thread) {n : Nat} (hn : N ≤ n)
    (u b off s : Nat) (old : Option Nat) : (σ n).pc (.user u) ≠ .wantSlot b off s old := by
  intro hp
  have hx : ¬ inLoop ((σ n).pc (.user u)) := by rw [hp]; exact fun e => e
  have hi : (σ n).pc (.user u) ≠ .idle := by rw [hp]; nofun
  have hst := fun m hm => (h.stay hn hx m hm).trans hp
  obtain ⟨m1, hm1, hidle⟩ := h.commIdle (P.rankOf (P.dom u)) n
  have hfree : (σ m1).lk (P.dom u, s) = none := by
    cases hk : (σ m1).lk (P.dom u, s) with
    | none => rfl
    | some a =>
      exfalso
      have ho := ((h.inv m1).lk _ a).1 hk
      cases a with
      | comm r =>
        cases hc : (σ m1).pc (.comm r) with
        | send t b i s k buf =>
          rw [hc] at ho
          injection ho with e1 e2
          rw [rank_of ((h.inv m1).send r t b i s k buf hc).1 e1, hc] at hidle
          cases hidle
        | sent i s =>
          rw [hc] at ho
          injection ho with e1 e2
          rw [rank_of (sent_lt hl (h.reach m1) hc) e1, hc] at hidle
          cases hidle
        | _ => rw [hc] at ho; exact ho.elim
      | user v =>
        cases hv : (σ m1).pc (.user v) with
        | own b1 off1 s1 ph =>
          have hloop := h.own hm (n := m1) (by omega) hv
          rw [hv] at ho hloop
          rcases ho with ho | ho
          · injection ho with e1 e2
            have e := h.one m1 u v (by rw [hst m1 hm1]; nofun) (by rw [hv]; nofun) e1
            subst e
            rw [hst m1 hm1] at hv; cases hv
          · cases ph with
            | numaCopy => exact hloop
            | _ => exact ho
        | _ => rw [hv] at ho; exact ho.elim
  have hkeep : ∀ m, m1 ≤ m → (σ m).lk (P.dom u, s) = none := by
    refine forever (Q := fun m => (σ m).lk (P.dom u, s) = none) hfree (fun m hm2 e => ?_)
    rcases h.step m (by omega) with ⟨v, -, hlp⟩ | ⟨r, hc⟩
    · rw [hlp.frame.2.1]; exact e
    · generalize hg : σ (m + 1) = st2 at hc
      have hcm : (σ m).cm (P.dom u) = some (.user u) :=
        ((h.inv m).cm _ _).2 (by rw [hst m (by omega)]; exact rfl)
      cases hc with
      | hit _ _ t b1 i s1 hp1 h2 h3 =>
        by_cases e2 : (P.dom u, s) = (r * P.domains + i, s1)
        · exfalso
          injection e2 with e3 e4
          have : (σ m).cm (P.dom u) = some (.comm r) :=
            ((h.inv m).cm _ _).2 (by rw [hp1]; exact e3)
          rw [hcm] at this
          cases this
        · exact (upd_ne _ _ e2).trans e
      | release _ _ i s1 hp1 =>
        by_cases e2 : (P.dom u, s) = (r * P.domains + i, s1)
        · rw [e2]; exact upd_self _ _ _
        · exact (upd_ne _ _ e2).trans e
      | _ => exact e
  obtain ⟨m2, hm2, hb⟩ := h.blocked hm hn hx hi m1 hm1
  exact hb _ (.lockSlot (σ m2) u b off s old (hst m2 (by omega)) (hkeep m2 hm2))

/-- The messages on the way become less. -/
theorem net_le (h : Late P σ N) {n : Nat} (hn : N ≤ n) (r r' : Nat) :
    ((σ (n + 1)).net r r').length ≤ ((σ n).net r r').length := by
  rcases h.step n hn with ⟨u, -, hlp⟩ | ⟨r1, hc⟩
  · rw [hlp.frame.2.2.2.1]
  · generalize σ (n + 1) = st2 at hc
    cases hc with
    | deliver _ _ src b op rest hp hn1 =>
      simp only
      by_cases e1 : r = src
      · subst e1
        rw [upd_self]
        by_cases e2 : r' = r1
        · subst e2
          rw [upd_self, hn1]; simp
        · rw [upd_ne _ _ e2]
      · rw [upd_ne _ _ e1]
    | _ => exact Nat.le_refl _

/-- All messages arrive. -/
theorem noMail (hl : Legal P) (h : Late P σ N) : ∃ M, N ≤ M ∧ ∀ n, M ≤ n → ∀ r r', (σ n).net r r' = [] := by
  obtain ⟨m, U, R, S, -, -, hS, -⟩ := work_exists hl (h.reach N)
  have hq : ∀ r r', ∃ M, ∀ n, M ≤ n → (σ n).net r r' = [] := by
    intro r r'
    obtain ⟨M, hM, hc⟩ := eventually_const (f := fun n => ((σ n).net r r').length)
      (fun n hn => h.net_le hn r r')
    refine ⟨M, fun n hn => ?_⟩
    by_contra hne
    obtain ⟨k, hk, hlt⟩ := h.fair.mail r r' n hne
    have := hc k (by omega)
    omega
  have hS' : ∀ᶠ n in Filter.atTop, ∀ p ∈ S, (σ n).net p.1 p.2 = [] := by
    rw [Filter.eventually_all_finset]
    intro p _
    obtain ⟨M, hM⟩ := hq p.1 p.2
    exact Filter.eventually_atTop.2 ⟨M, hM⟩
  obtain ⟨M, hM⟩ := Filter.eventually_atTop.1 hS'
  refine ⟨max M N, by omega, fun n hn r r' => ?_⟩
  by_cases hp : (r, r') ∈ S
  · exact hM n (by omega) (r, r') hp
  · have h0 : (σ N).net r r' = [] := List.eq_nil_of_length_eq_zero (hS (r, r') hp)
    refine forever (Q := fun n => (σ n).net r r' = []) h0 (fun k hk e => ?_) n (by omega)
    have := h.net_le hk r r'
    rw [e] at this
    exact List.eq_nil_of_length_eq_zero (Nat.le_zero.1 this)

end Late

/-! ### Requests after the last message -/

/-- The request of thread `t` will be served. -/
def WillServe (P : DistParams β) (st : DistState β) (t : Nat) : Prop :=
  (∀ b off s (e : Nat), st.pc (.user t) = .own b off s (.xfer (e : Int)) →
    ∃ d s, e = P.entry d s ∧ Target P st b d s) ∧
  (∀ b off s r, st.pc (.user t) = .own b off s (.ask r) → st.box t ≠ some none ∧
    ∃ d s, P.rankOf d = r ∧ Target P st b d s ∧
      ∀ i, st.pc (.comm r) = .tryDom t b i ∨ st.pc (.comm r) = .tryCm t b i → i ≤ d % P.domains)

theorem LoopStep.announced (h : DistInv P st) (h' : DistInv P st') {u : Nat} (hs : LoopStep P u st st')
    {d s x : Nat} (ha : Announced P st d s x) : Announced P st' d s x := by
  cases hs with
  | fetch b off s1 rnd hp e | request b off s1 e hp e | again b off s1 r hp hb e =>
    subst e
    exact announced_phase h' h hp rfl rfl rfl rfl ha

/-- A calm state: threads wait for the mutex of a cache, or are in the retry loop. -/
structure Calm (P : DistParams β) (st : DistState β) : Prop where
  own : ∀ u b off s ph, st.pc (.user u) = .own b off s ph → inLoop (st.pc (.user u))
  slot : ∀ u b off s old, st.pc (.user u) ≠ .wantSlot b off s old

/-- In a calm state, the communication thread of the process with an announced slot finds it. -/
theorem Calm.found (hl : Legal P) (hr : DistReach P st) (hc : Calm P st) {b d s r : Nat}
    (ht : Target P st b d s) (hd : P.rankOf d = r)
    (hc2 : ∀ t b i s k buf, st.pc (.comm r) ≠ .send t b i s k buf)
    (hc3 : ∀ i s, st.pc (.comm r) ≠ .sent i s) :
    (st.cl d).peek b = some s ∧ st.lk (d, s) = none := by
  have hI := DistInv.reach hl.domains hl.size hl.hand hr
  obtain ⟨hlt, ha⟩ := ht
  rcases ha with ⟨hf, ha⟩ | ⟨u, b', off', ph', hu, -, hp⟩
  · constructor
    · rcases ha with ⟨u, b', off', hx, _⟩ | ⟨_, hi⟩
      · exact absurd hx (hc.slot _ _ _ _ _)
      · obtain ⟨h0, inv, _⟩ := hI.lists d
        exact (inv.bij b s).2 hi
    · cases hk : st.lk (d, s) with
      | none => rfl
      | some a =>
        exfalso
        have ho := (hI.lk (d, s) a).1 hk
        cases a with
        | user u =>
          cases hu : st.pc (.user u) with
          | own b1 off1 s1 ph =>
            have hloop := hc.own u _ _ _ _ hu
            rw [hu] at ho hloop
            rcases ho with ho | ho
            · injection ho with e1 e2
              subst e1 e2
              exact hf u _ _ _ hu rfl
            · cases ph with
              | numaCopy => exact hloop
              | _ => exact ho
          | _ => rw [hu] at ho; exact ho
        | comm r' =>
          cases hcp : st.pc (.comm r') with
          | send t b i s k buf =>
            rw [hcp] at ho
            injection ho with e1 e2
            rw [Late.rank_of (hI.send r' t b i s k buf hcp).1 e1] at hd
            subst hd
            exact hc2 _ _ _ _ _ _ hcp
          | sent i s =>
            rw [hcp] at ho
            injection ho with e1 e2
            rw [Late.rank_of (sent_lt hl hr hcp) e1] at hd
            subst hd
            exact hc3 _ _ hcp
          | _ => rw [hcp] at ho; exact ho
  · exfalso
    have hloop := hc.own u _ _ _ _ hu
    rw [hu] at hloop
    cases ph' with
    | start | xfer | ask => cases hp
    | _ => exact hloop

/-- In a calm state, only the communication thread of the process has the mutex of a cache. -/
theorem Calm.mutex (hl : Legal P) (hr : DistReach P st) (hc : Calm P st) {d r : Nat}
    (hd : P.rankOf d = r) (hc1 : ∀ t b i, st.pc (.comm r) ≠ .tryCm t b i) : st.cm d = none := by
  have hI := DistInv.reach hl.domains hl.size hl.hand hr
  cases hk : st.cm d with
  | none => rfl
  | some a =>
    exfalso
    have ho := (hI.cm d a).1 hk
    cases a with
    | user u =>
      cases hu : st.pc (.user u) with
      | own b1 off1 s1 ph =>
        have hloop := hc.own u _ _ _ _ hu
        rw [hu] at ho hloop
        cases ph with
        | numaCm => exact hloop
        | _ => exact ho
      | wantSlot => exact hc.slot _ _ _ _ _ hu
      | _ => rw [hu] at ho; exact ho
    | comm r' =>
      cases hcp : st.pc (.comm r') with
      | tryCm t b i =>
        rw [hcp] at ho
        rw [Late.rank_of (hI.tryc r' t b i hcp) ho] at hd
        subst hd
        exact hc1 _ _ _ hcp
      | _ => rw [hcp] at ho; exact ho

theorem entry_rank (hl : Legal P) {d s : Nat} (hs : s < P.size) :
    ownerRank P.rankCache (P.entry d s) = P.rankOf d := by
  have hslt : s + P.size * (d % P.domains) < P.rankCache := by
    unfold DistParams.rankCache
    have e1 : d % P.domains + 1 ≤ P.domains := Nat.mod_lt _ hl.domains
    have e2 := Nat.mul_le_mul_left P.size e1
    rw [Nat.mul_comm P.domains P.size]
    rw [Nat.mul_add] at e2; omega
  have hR : 0 < P.rankCache := by omega
  unfold ownerRank DistParams.entry ownerEntry
  rw [Nat.mul_comm, Nat.mul_add_div hR, Nat.div_eq_of_lt hslt, Nat.add_zero]

/-- Steps of threads. -/
theorem WillServe.user (hl : Legal P) (hm : P.mode = .thread) (hr : DistReach P st)
    (hr' : DistReach P st') (hmail : ∀ r r', st.net r r' = []) {t u : Nat}
    (h : WillServe P st t) (hu : UserStep P u st st') (hs : LoopStep P u st st') : WillServe P st' t := by
  have hI := DistInv.reach hl.domains hl.size hl.hand hr
  have hI' := DistInv.reach hl.domains hl.size hl.hand hr'
  have hann : ∀ {b d s : Nat}, Target P st b d s → Target P st' b d s :=
    fun ha => ⟨ha.1, hs.announced hI hI' ha.2⟩
  by_cases e : t = u
  · subst e
    cases hs with
    | fetch b off s rnd hp e =>
      subst e
      refine ⟨fun b1 off1 s1 e hx => ?_, fun b1 off1 s1 r hx => ?_⟩
      · simp only [DistState.goto, upd_self] at hx
        injection hx with e1 _ _ e4
        injection e4 with e4
        subst e1
        have hT := ThrInv.reach hl hm hr
        obtain ⟨L, g1, -⟩ := hT.dir b
        obtain ⟨d, s2, a1, a2, a3⟩ := hT.owner (fun r r' op hx => by rw [hmail] at hx; cases hx)
          (fetch_mem g1 e4)
        exact ⟨d, s2, a2, hann ⟨a1, a3⟩⟩
      · simp only [DistState.goto, upd_self] at hx; cases hx
    | request b off s e hp e1 =>
      subst e1
      obtain ⟨d, s2, a1, a2⟩ := h.1 b off s e hp
      refine ⟨fun b1 off1 s1 e hx => ?_, fun b1 off1 s1 r hx => ?_⟩
      · simp only [DistState.goto, upd_self] at hx; cases hx
      · simp only [DistState.goto, upd_self] at hx
        injection hx with e1 _ _ e4
        injection e4 with e4
        subst e1
        refine ⟨?_, d, s2, ?_, hann a2, ?_⟩
        · show st.box t ≠ some none
          rw [hI.box_none hp nofun]; nofun
        · rw [← e4, a1, entry_rank hl a2.1]
        · intro i hx
          exfalso
          rw [user_other hu (a := .comm r) nofun] at hx
          obtain ⟨⟨off2, s3, hx2⟩, -⟩ := hI.req r t b
            (hx.elim (fun hx => .inl ⟨i, hx⟩) (fun hx => .inr (.inl ⟨i, hx⟩)))
          rw [hp] at hx2; cases hx2
    | again b off s r hp hb e => exact absurd hb (h.2 b off s r hp).1
  · have epc : st'.pc (.user t) = st.pc (.user t) :=
      user_other hu (by intro e1; injection e1 with e1; exact e e1)
    refine ⟨fun b1 off1 s1 e hx => ?_, fun b1 off1 s1 r hx => ?_⟩
    · obtain ⟨d, s2, a1, a2⟩ := h.1 b1 off1 s1 e (epc ▸ hx)
      exact ⟨d, s2, a1, hann a2⟩
    · obtain ⟨a0, d, s2, a1, a2, a3⟩ := h.2 b1 off1 s1 r (epc ▸ hx)
      refine ⟨by rw [box_other hu e]; exact a0, d, s2, a1, hann a2, ?_⟩
      rw [user_other hu (a := .comm r) nofun]
      exact a3

/-- Steps of communication threads. -/
theorem WillServe.comm (hl : Legal P) (hno : P.noop = false) (hr : DistReach P st) (hcalm : Calm P st)
    {t r0 : Nat} (h : WillServe P st t) (hs : CommStep P r0 st st') : WillServe P st' t := by
  have hI := DistInv.reach hl.domains hl.size hl.hand hr
  have epc : st'.pc (.user t) = st.pc (.user t) := comm_other hs (a := .user t) nofun
  have hann : ∀ {b d s : Nat}, Target P st b d s → Target P st' b d s :=
    fun ha => ⟨ha.1, (comm_announced (P := P) hs _ _ _).2 ha.2⟩
  refine ⟨fun b1 off1 s1 e hx => ?_, fun b off s r hx => ?_⟩
  · obtain ⟨d, s2, a1, a2⟩ := h.1 b1 off1 s1 e (epc ▸ hx)
    exact ⟨d, s2, a1, hann a2⟩
  rw [epc] at hx
  obtain ⟨a0, d, s2, a1, a2, a3⟩ := h.2 b off s r hx
  have a2' := hann a2
  have hmd : d % P.domains < P.domains := Nat.mod_lt _ hl.domains
  have hd : r * P.domains + d % P.domains = d := by
    rw [← a1]; unfold DistParams.rankOf
    rw [Nat.mul_comm]; exact Nat.div_add_mod d P.domains
  -- a request of this thread
  have hme : ∀ b2, ((∃ i, st.pc (.comm r0) = .tryDom t b2 i) ∨ (∃ i, st.pc (.comm r0) = .tryCm t b2 i) ∨
      (∃ i s k buf, st.pc (.comm r0) = .send t b2 i s k buf)) → r0 = r ∧ b2 = b := by
    intro b2 hx1
    obtain ⟨⟨off2, s3, hx2⟩, -⟩ := hI.req r0 t b2 hx1
    rw [hx] at hx2
    injection hx2 with e1 _ _ e4
    injection e4 with e4
    exact ⟨e4.symm, e1.symm⟩
  by_cases hr0 : r0 = r
  · subst hr0
    cases hs with
    | deliver => exact ⟨a0, d, s2, a1, a2', a3⟩
    | accept _ _ u b2 off2 s3 hp hu hb =>
      refine ⟨a0, d, s2, a1, a2', fun i hx => ?_⟩
      simp only [upd_self] at hx
      rcases hx with hx | hx
      · injection hx with _ _ hx; omega
      · cases hx
    | fail _ _ u b2 i hp hi =>
      have e : u ≠ t := by
        rintro rfl
        obtain ⟨-, rfl⟩ := hme b2 (.inl ⟨i, hp⟩)
        have := a3 i (.inl hp)
        omega
      refine ⟨?_, d, s2, a1, a2', fun j hx => ?_⟩
      · simp only [upd_ne _ _ (Ne.symm e)]; exact a0
      · simp only [upd_self] at hx
        rcases hx with hx | hx <;> cases hx
    | busy _ _ u b2 i hp hi hc =>
      refine ⟨a0, d, s2, a1, a2', fun j hx => ?_⟩
      simp only [upd_self] at hx
      rcases hx with hx | hx
      · injection hx with e1 e2 e3
        subst e1 e2
        have hle := a3 i (.inl hp)
        have hne : i ≠ d % P.domains := by
          intro e
          rw [e, hd, hcalm.mutex hl hr a1 (by rw [hp]; nofun), hno] at hc
          rcases hc with hc | hc
          · cases hc
          · exact hc rfl
        omega
      · cases hx
    | «try» _ _ u b2 i hp hi _ hc =>
      refine ⟨a0, d, s2, a1, a2', fun j hx => ?_⟩
      simp only [upd_self] at hx
      rcases hx with hx | hx
      · cases hx
      · injection hx with e1 e2 e3
        subst e1 e2 e3
        exact a3 i (.inl hp)
    | miss _ _ u b2 i hp hc =>
      refine ⟨a0, d, s2, a1, a2', fun j hx => ?_⟩
      simp only [upd_self] at hx
      rcases hx with hx | hx
      · injection hx with e1 e2 e3
        subst e1 e2
        have hle := a3 i (.inr hp)
        have hne : i ≠ d % P.domains := by
          intro e
          obtain ⟨f1, f2⟩ := hcalm.found hl hr a2 a1 (by rw [hp]; nofun) (by rw [hp]; nofun)
          rw [e, hd] at hc
          exact hc s2 f1 f2
        omega
      · cases hx
    | reply _ _ u b2 i s3 k buf hp hk =>
      refine ⟨?_, d, s2, a1, a2', fun j hx => ?_⟩
      · by_cases e : t = u
        · subst e; simp only [upd_self]; nofun
        · simp only [upd_ne _ _ e]; exact a0
      · simp only [upd_self] at hx
        rcases hx with hx | hx <;> cases hx
    | hit | cell | release =>
      refine ⟨a0, d, s2, a1, a2', fun j hx => ?_⟩
      simp only [upd_self] at hx
      rcases hx with hx | hx <;> cases hx
  · have ec : st'.pc (.comm r) = st.pc (.comm r) :=
      comm_other hs (by intro e; injection e with e; exact hr0 e.symm)
    refine ⟨?_, d, s2, a1, a2', fun j hx => a3 j (ec ▸ hx)⟩
    cases hs with
    | fail _ _ u b2 i hp hi =>
      by_cases e : t = u
      · subst e; exact absurd (hme b2 (.inl ⟨i, hp⟩)).1 hr0
      · simp only [upd_ne _ _ e]; exact a0
    | reply _ _ u b2 i s3 k buf hp hk =>
      by_cases e : t = u
      · subst e; exact absurd (hme b2 (.inr (.inr ⟨i, s3, k, buf, hp⟩))).1 hr0
      · simp only [upd_ne _ _ e]; exact a0
    | _ => exact a0

namespace Late
variable {σ : Nat → DistState β} {N : Nat}

theorem calm (hl : Legal P) (h : Late P σ N) (hm : P.mode = .thread) {n : Nat} (hn : N ≤ n) :
    Calm P (σ n) :=
  ⟨fun _ _ _ _ _ hp => h.own hm hn hp, fun u b off s old => h.noSlot hl hm hn u b off s old⟩

/-- Only finitely many requests of a thread are refused. -/
theorem finite_refusals (hl : Legal P) (h : Late P σ N) (hm : P.mode = .thread) (hno : P.noop = false)
    (hmail : ∀ n, N ≤ n → ∀ r r', (σ n).net r r' = []) (t : Nat) :
    ∃ M, ∀ n, M ≤ n → ¬ ((σ n).box t ≠ some none ∧ (σ (n + 1)).box t = some none) := by
  by_cases hG : ∃ n, N ≤ n ∧ WillServe P (σ n) t
  · obtain ⟨n, hn, hg⟩ := hG
    have hall : ∀ m, n ≤ m → WillServe P (σ m) t := by
      refine forever hg (fun m hm1 hg => ?_)
      rcases h.step m (by omega) with ⟨u, hu, hs⟩ | ⟨r, hc⟩
      · exact hg.user hl hm (h.reach m) (h.reach (m + 1)) (hmail m (by omega)) hu hs
      · exact hg.comm hl hno (h.reach m) (h.calm hl hm (by omega)) hc
    refine ⟨n, fun m hm1 hx => ?_⟩
    obtain ⟨b, off, s, r, hp, -⟩ := (h.inv (m + 1)).box t _ hx.2
    exact ((hall (m + 1) (by omega)).2 b off s r hp).1 hx.2
  · push Not at hG
    by_cases hB : ∃ n, N ≤ n ∧ (σ n).box t = some none
    · obtain ⟨n, hn, hb⟩ := hB
      have hall : ∀ m, n ≤ m → (σ m).box t = some none := by
        refine forever (Q := fun m => (σ m).box t = some none) hb (fun m hm1 hb => ?_)
        rcases h.step m (by omega) with ⟨u, hu, hs⟩ | ⟨r, hc⟩
        · by_cases e : t = u
          · subst e
            obtain ⟨b, off, s, r, hp, -⟩ := (h.inv m).box t _ hb
            cases hs with
            | fetch b off s rnd hp1 e => rw [hp] at hp1; cases hp1
            | request b off s e hp1 e1 => rw [hp] at hp1; cases hp1
            | again b off s r hp hb e =>
              exfalso
              refine hG (m + 1) (by omega) ?_
              rw [e]
              exact ⟨fun _ _ _ _ hx => (by simp only [DistState.goto, upd_self] at hx; cases hx),
                fun _ _ _ _ hx => (by simp only [DistState.goto, upd_self] at hx; cases hx)⟩
          · rw [box_other hu e]; exact hb
        · have hI := h.inv m
          generalize σ (m + 1) = st2 at hc
          cases hc with
          | fail _ _ u b2 i hp hi =>
            by_cases e : t = u
            · subst e; exact upd_self _ _ _
            · exact (upd_ne _ _ e).trans hb
          | reply _ _ u b2 i s3 k buf hp hk =>
            by_cases e : t = u
            · subst e
              rw [(hI.req r t b2 (.inr (.inr ⟨i, s3, k, buf, hp⟩))).2] at hb
              cases hb
            · exact (upd_ne _ _ e).trans hb
          | _ => exact hb
      exact ⟨n, fun m hm1 hx => hx.1 (hall m hm1)⟩
    · push Not at hB
      exact ⟨N, fun m hm1 hx => hB (m + 1) (by omega) hx.2⟩

end Late

/-- There is no infinite fair execution without new calls. -/
theorem no_infinite (hl : Legal P) (hm : P.mode = .thread) (hno : P.noop = false)
    {σ : Nat → DistState β} (h0 : DistReach P (σ 0)) (h1 : OnePer P (σ 0))
    (hq : ∀ n, Quiet P (σ n) (σ (n + 1))) (hf : Fair P σ) : False := by
  have hr : ∀ n, DistReach P (σ n) := fun n => by
    induction n with
    | zero => exact h0
    | succ n ih => exact .step ih (hq n).1
  have hone : ∀ n, OnePer P (σ n) := fun n => by
    induction n with
    | zero => exact h1
    | succ n ih => exact ih.quiet (hq n)
  obtain ⟨N, hN⟩ := loop_only hl hm hr hq
  have hlate : Late P σ N :=
    ⟨hr, fun n => DistInv.reach hl.domains hl.size hl.hand (hr n), hq, hone, hf, hN⟩
  obtain ⟨M, hM, hmail⟩ := hlate.noMail hl
  replace hlate := hlate.mono hM
  obtain ⟨L, hL⟩ := busy_finite h0
  have hbusy : ∀ n t, (σ n).pc (.user t) ≠ .idle → t ∈ L := by
    intro n
    induction n with
    | zero => exact hL
    | succ n ih => exact fun t ht => ih t (fun e => ht ((hq n).2 t e))
  have hev : ∀ᶠ n in Filter.atTop, ∀ t ∈ L.toFinset,
      ¬ ((σ n).box t ≠ some none ∧ (σ (n + 1)).box t = some none) := by
    rw [Filter.eventually_all_finset]
    intro t _
    obtain ⟨K, hK⟩ := hlate.finite_refusals hl hm hno hmail t
    exact Filter.eventually_atTop.2 ⟨K, hK⟩
  obtain ⟨K, hK⟩ := Filter.eventually_atTop.1 hev
  have hnr : ∀ n, K ≤ n → ¬ Refused (σ n) (σ (n + 1)) := by
    rintro n hn ⟨t, ht1, ht2⟩
    obtain ⟨b, off, s, r, hp, -⟩ := (hlate.inv (n + 1)).box t _ ht2
    exact hK n hn t (List.mem_toFinset.2 (hbusy (n + 1) t (by rw [hp]; nofun))) ⟨ht1, ht2⟩
  have hrun : ∀ k, QuietRunF P k 0 (σ K) (σ (K + k)) := by
    intro k
    induction k with
    | zero => exact .zero _
    | succ k ih => exact .served ih (hq (K + k)) (hnr (K + k) (by omega))
  obtain ⟨m, hw⟩ := work_exists hl (hr K)
  obtain ⟨-, m', -, hle⟩ := quietRunF_le hl hm (hr K) hw (hrun (m + 1))
  omega

/-! ### Fair executions exist -/

theorem settled_end (hs : Settled st) (hi : ∀ t, st.pc (.user t) = .idle) :
    (∀ r st', ¬ CommStep P r st st') ∧ ∀ st', ¬ Quiet P st st' := by
  have hc : ∀ r st', ¬ CommStep P r st st' := by
    intro r st' hc
    have h1 := hs.comm r
    cases hc with
    | deliver _ _ src b op rest hp hn => rw [hs.mail] at hn; cases hn
    | accept _ _ t b off s hp hu => rw [hi] at hu; cases hu
    | _ => simp_all
  refine ⟨hc, fun st' hq => ?_⟩
  rcases quiet_cases hq with ⟨u, -, hn⟩ | ⟨r, hx⟩
  · exact hn (hi u)
  · exact hc r st' hx

/-- A finite execution until nobody can continue, as a sequence of states. -/
theorem execution_of {n : Nat} (h : QuietRun P n st st') (he : ∀ x, ¬ Quiet P st' x) :
    ∃ σ : Nat → DistState β, σ 0 = st ∧ Execution P σ ∧ ∀ m, n ≤ m → σ m = st' := by
  have key : ∃ σ : Nat → DistState β, σ 0 = st ∧ (∀ m, m < n → Quiet P (σ m) (σ (m + 1))) ∧
      ∀ m, n ≤ m → σ m = st' := by
    clear he
    induction h with
    | zero s0 => exact ⟨fun _ => s0, rfl, fun m hm => by omega, fun _ _ => rfl⟩
    | @succ n st st1 st2 hr hq ih =>
      obtain ⟨σ, h0, h1, h2⟩ := ih
      refine ⟨fun m => if m ≤ n then σ m else st2, by simpa using h0, fun m hm => ?_, fun m hm => ?_⟩
      · simp only [if_pos (show m ≤ n by omega)]
        by_cases e : m + 1 ≤ n
        · simp only [if_pos e]; exact h1 m (by omega)
        · simp only [if_neg e]
          rw [h2 m (by omega)]; exact hq
      · simp only [if_neg (show ¬ m ≤ n by omega)]
  obtain ⟨σ, h0, h1, h2⟩ := key
  refine ⟨σ, h0, fun m => ?_, h2⟩
  by_cases hm : m < n
  · exact .inl (h1 m hm)
  · rw [h2 m (by omega), h2 (m + 1) (by omega)]
    exact .inr ⟨rfl, he⟩

theorem fair_exists (hl : Legal P) (hm : P.mode = .thread) (hno : P.noop = false) (h : DistReach P st)
    (h1 : OnePer P st) : ∃ σ, σ 0 = st ∧ Execution P σ ∧ Fair P σ := by
  obtain ⟨L, hL⟩ := busy_finite h
  obtain ⟨n1, st1, hr1, hi1⟩ := all_run hl hm hno L h h1 hL
  have h2 := quietRun_reach h hr1
  obtain ⟨m, hw⟩ := work_exists hl h2
  obtain ⟨n2, st2, hr2, hset⟩ := drain_run (L := []) hl hm _ h2 (h1.run hr1) hw
    (fun t ht => absurd (hi1 t) ht) (Nat.le_refl _)
  have hi2 : ∀ t, st2.pc (.user t) = .idle := fun t => quietRun_idle hr2 (hi1 t)
  obtain ⟨hc, he⟩ := settled_end (P := P) hset hi2
  obtain ⟨σ, h0, hx, hend⟩ := execution_of (quietRun_trans hr1 hr2) he
  refine ⟨σ, h0, hx, ⟨fun t n => ⟨max n (n1 + n2), by omega, .inl ?_⟩,
    fun r n => ⟨max n (n1 + n2), by omega, .inr ?_⟩, fun r r' n hne => ?_⟩⟩
  · rw [hend _ (by omega)]; exact hi2 t
  · rw [hend _ (by omega)]; exact hc r
  · -- the queue is empty at the end
    by_contra hno
    push Not at hno
    have hge : ∀ m, n ≤ m → (σ m).net r r' ≠ [] := by
      refine forever hne (fun m hm1 hx e => ?_)
      have := hno m hm1
      rw [e] at this
      exact hx (List.eq_nil_of_length_eq_zero (Nat.le_zero.1 this))
    exact hge (max n (n1 + n2)) (by omega) (by rw [hend _ (by omega)]; exact hset.mail r r')

end Asagi
