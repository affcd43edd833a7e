import Verif.Proofs.CacheDistStep
import Verif.Proofs.CacheDistRun
/-
Progress of the shared caches: somebody can always continue; without the communication thread,
every access finishes.
-/
namespace Asagi
open Spec
variable {β : Type} {P : DistParams β} {st st' : DistState β}

/-- A step of a thread inside of a getter is not a call. -/
theorem quiet_user {u : Nat} (hs : UserStep P u st st') (hn : st.pc (.user u) ≠ .idle) :
    Quiet P st st' := by
  refine ⟨.user u hs, fun t hi => ?_⟩
  have hne : Agent.user t ≠ Agent.user u := by intro e; rw [e] at hi; exact hn hi
  cases hs with
  | delThread => simp only [DistState.goto, sendOp_pc]; exact (upd_ne _ _ hne).trans hi
  | addThread => simp only [DistState.goto, sendOp_pc]; exact (upd_ne _ _ hne).trans hi
  | finThread => simp only [DistState.goto, sendOp_pc]; exact (upd_ne _ _ hne).trans hi
  | _ => exact (upd_ne _ _ hne).trans hi

theorem quiet_comm {r : Nat} (hs : CommStep P r st st') : Quiet P st st' := by
  refine ⟨.comm r hs, fun t hi => ?_⟩
  cases hs <;> exact hi

/-- Steps of other agents. -/
theorem user_other {u : Nat} (hs : UserStep P u st st') {a : Agent} (hne : a ≠ .user u) :
    st'.pc a = st.pc a := by
  cases hs with
  | delThread => simp only [DistState.goto, sendOp_pc]; exact upd_ne _ _ hne
  | addThread => simp only [DistState.goto, sendOp_pc]; exact upd_ne _ _ hne
  | finThread => simp only [DistState.goto, sendOp_pc]; exact upd_ne _ _ hne
  | _ => exact upd_ne _ _ hne

theorem comm_other {r : Nat} (hs : CommStep P r st st') {a : Agent} (hne : a ≠ .comm r) :
    st'.pc a = st.pc a := by
  cases hs <;> first | rfl | exact upd_ne _ _ hne

namespace DistInv

/-- A communication thread that works on a request can always continue. -/
theorem comm_enabled (h : DistInv P st) {r : Nat} (hn : st.pc (.comm r) ≠ .idle) :
    ∃ st', CommStep P r st st' := by
  have hx : ∃ st', execComm P st r = some st' := by
    obtain ⟨k1, k2, k3⟩ := h.kindC r
    unfold execComm
    cases hp : st.pc (.comm r) with
    | idle => exact absurd hp hn
    | wantCm b off => exact absurd hp (k1 _ _)
    | wantSlot b off s old => exact absurd hp (k2 _ _ _ _)
    | own b off s ph => exact absurd hp (k3 _ _ _ _)
    | tryDom t b i => simp only; repeat' split
                      all_goals exact ⟨_, rfl⟩
    | tryCm t b i => simp only; repeat' split
                     all_goals exact ⟨_, rfl⟩
    | send t b i s k buf => simp only; repeat' split
                            all_goals exact ⟨_, rfl⟩
    | sent i s => exact ⟨_, rfl⟩
  obtain ⟨st', hx⟩ := hx
  exact ⟨st', execComm_sound hx⟩

theorem exec_quiet {t b off s : Nat} {ph : Phase β} (hp : st.pc (.user t) = .own b off s ph)
    (hx : ∃ st', execOwn P st t 0 b off s ph = some st') : ∃ st', Quiet P st st' := by
  obtain ⟨st', hx⟩ := hx
  exact ⟨st', quiet_user (execOwn_sound hp hx) (by rw [hp]; nofun)⟩

/-- The holder of the lock of a directory entry can continue. -/
theorem dl_enabled (h : DistInv P st) {b : Nat} {a : Agent} (hd : st.dl b = some a) :
    ∃ st', Quiet P st st' := by
  have ho := (h.dl b a).1 hd
  cases a with
  | comm r => cases hp : st.pc (.comm r) <;> rw [hp] at ho <;> exact ho.elim
  | user t =>
    cases hp : st.pc (.user t) with
    | own b1 off s ph =>
      rw [hp] at ho
      obtain ⟨hm, hd⟩ := ho
      refine exec_quiet hp ?_
      cases ph with
      | delLocked o => exact ⟨_, rfl⟩
      | addLocked => exact ⟨_, rfl⟩
      | xfer e =>
        cases e with
        | negSucc n => exact ⟨_, rfl⟩
        | ofNat e => simp only [execOwn, hm]; exact ⟨_, rfl⟩
      | copy e k => simp only [execOwn]; split <;> exact ⟨_, rfl⟩
      | load k => simp only [execOwn]; split <;> exact ⟨_, rfl⟩
      | fin => simp only [execOwn, hm]; exact ⟨_, rfl⟩
      | _ => cases hd
    | _ => rw [hp] at ho; exact ho.elim

/-- The thread that has the transfer mutex of a process, or a communication thread, can continue. -/
theorem blk_enabled (h : DistInv P st) {r : Nat} {a : Agent} (hb : st.blk r = some a) :
    ∃ st', Quiet P st st' := by
  have ho := (h.blk r a).1 hb
  cases a with
  | comm r => cases hp : st.pc (.comm r) <;> rw [hp] at ho <;> exact ho.elim
  | user t =>
    cases hp : st.pc (.user t) with
    | own b1 off s ph =>
      rw [hp] at ho
      cases ph with
      | ask r1 =>
        cases hbox : st.box t with
        | some m =>
          refine exec_quiet hp ?_
          cases m with
          | none => simp only [execOwn, hbox]; exact ⟨_, rfl⟩
          | some buf => simp only [execOwn, hbox]; exact ⟨_, rfl⟩
        | none =>
          cases hc : st.pc (.comm r1) with
          | idle => exact ⟨_, quiet_comm (.accept st r1 t b1 off s hc hp hbox)⟩
          | _ =>
            obtain ⟨st', hs⟩ := h.comm_enabled (r := r1) (by rw [hc]; nofun)
            exact ⟨st', quiet_comm hs⟩
      | recv buf k =>
        refine exec_quiet hp ?_
        simp only [execOwn]; split <;> exact ⟨_, rfl⟩
      | _ => exact ho.elim
    | _ => rw [hp] at ho; exact ho.elim

/-- The holder of a slot, or somebody it waits for, can continue. -/
theorem own_enabled (h : DistInv P st) {t b off s : Nat} {ph : Phase β}
    (hp : st.pc (.user t) = .own b off s ph) : ∃ st', Quiet P st st' := by
  cases ph with
  | del old =>
    cases old with
    | none => exact exec_quiet hp ⟨_, rfl⟩
    | some o =>
      cases hm : P.mode with
      | none => exact exec_quiet hp (by simp only [execOwn, hm]; exact ⟨_, rfl⟩)
      | thread => exact exec_quiet hp (by simp only [execOwn, hm]; exact ⟨_, rfl⟩)
      | window =>
        cases hd : st.dl o with
        | some a => exact h.dl_enabled hd
        | none => exact exec_quiet hp (by simp only [execOwn, hm, hd]; exact ⟨_, rfl⟩)
  | delLocked o => exact exec_quiet hp ⟨_, rfl⟩
  | numa i =>
    refine exec_quiet hp ?_
    simp only [execOwn]; repeat' split
    all_goals exact ⟨_, rfl⟩
  | numaCm i =>
    refine exec_quiet hp ?_
    simp only [execOwn]; repeat' split
    all_goals exact ⟨_, rfl⟩
  | numaCopy i s' k =>
    refine exec_quiet hp ?_
    simp only [execOwn]; split <;> exact ⟨_, rfl⟩
  | add =>
    cases hm : P.mode with
    | none => exact exec_quiet hp (by simp only [execOwn, hm]; exact ⟨_, rfl⟩)
    | thread => exact exec_quiet hp (by simp only [execOwn, hm]; exact ⟨_, rfl⟩)
    | window =>
      cases hd : st.dl b with
      | some a => exact h.dl_enabled hd
      | none => exact exec_quiet hp (by simp only [execOwn, hm, hd]; exact ⟨_, rfl⟩)
  | addLocked => exact exec_quiet hp ⟨_, rfl⟩
  | start =>
    cases hm : P.mode with
    | none => exact exec_quiet hp (by simp only [execOwn, hm]; exact ⟨_, rfl⟩)
    | window =>
      cases hd : st.dl b with
      | some a => exact h.dl_enabled hd
      | none => exact exec_quiet hp (by simp only [execOwn, hm, hd]; exact ⟨_, rfl⟩)
    | thread =>
      by_cases hh : P.home b = P.rankOf (P.dom t)
      · exact exec_quiet hp (by simp only [execOwn, hm, if_pos hh]; exact ⟨_, rfl⟩)
      · cases hc : st.pc (.comm (P.home b)) with
        | idle => exact exec_quiet hp (by simp only [execOwn, hm, if_neg hh, hc]; exact ⟨_, rfl⟩)
        | _ =>
          obtain ⟨st', hs⟩ := h.comm_enabled (r := P.home b) (by rw [hc]; nofun)
          exact ⟨st', quiet_comm hs⟩
  | xfer e =>
    cases e with
    | negSucc n => exact exec_quiet hp ⟨_, rfl⟩
    | ofNat e =>
      cases hm : P.mode with
      | none =>
        have := (h.phase t b off s _ hp).2 hm
        exact absurd this (by simp)
      | window => exact exec_quiet hp (by simp only [execOwn, hm]; exact ⟨_, rfl⟩)
      | thread =>
        cases hb : st.blk (P.rankOf (P.dom t)) with
        | some a => exact h.blk_enabled hb
        | none => exact exec_quiet hp (by simp only [execOwn, hm, hb]; exact ⟨_, rfl⟩)
  | copy e k => exact exec_quiet hp (by simp only [execOwn]; split <;> exact ⟨_, rfl⟩)
  | ask r =>
    exact h.blk_enabled (r := P.rankOf (P.dom t)) (a := .user t) ((h.blk _ _).2 (by rw [hp]; exact rfl))
  | recv buf k => exact exec_quiet hp (by simp only [execOwn]; split <;> exact ⟨_, rfl⟩)
  | load k => exact exec_quiet hp (by simp only [execOwn]; split <;> exact ⟨_, rfl⟩)
  | fin =>
    exact exec_quiet hp (by cases hm : P.mode <;> simp only [execOwn, hm] <;> exact ⟨_, rfl⟩)
  | use => exact exec_quiet hp ⟨_, rfl⟩
  | out v => exact exec_quiet hp ⟨_, rfl⟩

theorem lk_enabled (h : DistInv P st) {k : Nat × Nat} {a : Agent} (hk : st.lk k = some a) :
    ∃ st', Quiet P st st' := by
  have ho := (h.lk k a).1 hk
  cases a with
  | comm r =>
    obtain ⟨st', hs⟩ := h.comm_enabled (r := r) (by intro e; rw [e] at ho; exact ho)
    exact ⟨st', quiet_comm hs⟩
  | user t =>
    cases hp : st.pc (.user t) with
    | own b off s ph => exact h.own_enabled hp
    | _ => rw [hp] at ho; exact ho.elim

theorem slot_enabled (h : DistInv P st) {t b off s : Nat} {old : Option Nat}
    (hp : st.pc (.user t) = .wantSlot b off s old) : ∃ st', Quiet P st st' := by
  cases hk : st.lk (P.dom t, s) with
  | some a => exact h.lk_enabled hk
  | none => exact ⟨_, quiet_user (.lockSlot st t b off s old hp hk) (by rw [hp]; nofun)⟩

theorem cm_enabled (h : DistInv P st) {d : Nat} {a : Agent} (hk : st.cm d = some a) :
    ∃ st', Quiet P st st' := by
  have ho := (h.cm d a).1 hk
  cases a with
  | comm r =>
    obtain ⟨st', hs⟩ := h.comm_enabled (r := r) (by intro e; rw [e] at ho; exact ho)
    exact ⟨st', quiet_comm hs⟩
  | user t =>
    cases hp : st.pc (.user t) with
    | own b off s ph => exact h.own_enabled hp
    | wantSlot b off s old => exact h.slot_enabled hp
    | _ => rw [hp] at ho; exact ho.elim

/-- If a thread is inside of a getter, somebody can continue. -/
theorem progress (h : DistInv P st) {t : Nat} (hn : st.pc (.user t) ≠ .idle) :
    ∃ st', Quiet P st st' := by
  obtain ⟨k1, k2, k3, k4⟩ := h.kind t
  cases hp : st.pc (.user t) with
  | idle => exact absurd hp hn
  | wantCm b off =>
    cases hc : st.cm (P.dom t) with
    | some a => exact h.cm_enabled hc
    | none =>
      obtain ⟨h0, inv, -⟩ := h.lists (P.dom t)
      obtain ⟨c', s, old, hg, -⟩ := inv.get b
      exact ⟨_, quiet_user (.lookup st t b off s c' old hp hc hg) hn⟩
  | wantSlot b off s old => exact h.slot_enabled hp
  | own b off s ph => exact h.own_enabled hp
  | tryDom u b i => exact absurd hp (k1 _ _ _)
  | tryCm u b i => exact absurd hp (k2 _ _ _)
  | send u b i s k buf => exact absurd hp (k3 _ _ _ _ _ _)
  | sent i s => exact absurd hp (k4 _ _)

end DistInv

/-! ### Termination without the communication thread -/

/-- Bound for the number of remaining steps in a phase. -/
def phaseLeft (P : DistParams β) : Phase β → Nat
  | .out _ => 1
  | .use => 2
  | .addLocked | .fin => 3
  | .add => 4
  | .load k | .recv _ k | .copy _ k => 4 + (P.cells - k)
  | .numaCopy _ _ k => 5 + (P.cells - k)
  | .ask _ | .xfer _ => 5 + P.cells
  | .start => 6 + P.cells
  | .numa i => 7 + P.cells + 2 * (P.domains - i)
  | .numaCm i => 6 + P.cells + 2 * (P.domains - i)
  | .delLocked _ => 8 + P.cells + 2 * P.domains
  | .del _ => 9 + P.cells + 2 * P.domains

/-- Bound for the number of remaining steps of a call. -/
def stepsLeft (P : DistParams β) : Pc β → Nat
  | .own _ _ _ ph => phaseLeft P ph
  | .wantSlot _ _ _ _ => 10 + P.cells + 2 * P.domains
  | .wantCm _ _ => 11 + P.cells + 2 * P.domains
  | _ => 0

/-- Without the communication thread, the communication threads do nothing. -/
theorem no_comm_idle (h : DistInv P st) (hm : P.mode ≠ .thread) {r : Nat}
    (hi : st.pc (.comm r) = .idle) : ¬ CommStep P r st st' := by
  intro hs
  cases hs with
  | deliver _ _ src b op rest hp hn => rw [h.net hm] at hn; cases hn
  | accept _ _ t b off s _ hu => exact hm (h.phase t b off s _ hu)
  | _ => simp_all

theorem comm_idle (hl : Legal P) (hm : P.mode ≠ .thread) (h : DistReach P st) (r : Nat) :
    st.pc (.comm r) = .idle := by
  induction h with
  | init h => obtain ⟨c, -, rfl⟩ := h; rfl
  | @step s1 s2 h1 hs ih =>
    cases hs with
    | user u hu => exact (user_other hu (a := .comm r) nofun).trans ih
    | comm r1 hc =>
      by_cases hr : r1 = r
      · subst hr
        exact absurd hc (no_comm_idle (DistInv.reach hl.domains hl.size hl.hand h1) hm ih)
      · exact (comm_other hc (by intro e; injection e with e; exact hr e.symm)).trans ih

/-- Each step of a call reduces the number of remaining steps. -/
theorem stepsLeft_lt (h : DistInv P st) (hm : P.mode ≠ .thread) {u : Nat} (hs : UserStep P u st st')
    (hn : st.pc (.user u) ≠ .idle) :
    stepsLeft P (st'.pc (.user u)) < stepsLeft P (st.pc (.user u)) := by
  cases hs with
  | call _ _ b off hp => exact absurd hp hn
  | lookup _ _ b off s c' old hp => rw [hp]; simp only [upd_self, stepsLeft]; omega
  | lockSlot _ _ b off s old hp =>
    rw [hp]; simp only [upd_self, stepsLeft]; split <;> simp only [phaseLeft] <;> omega
  | delThread _ _ b off s o hp h1 => exact absurd h1 hm
  | addThread _ _ b off s hp h1 => exact absurd h1 hm
  | finThread _ _ b off s hp h1 => exact absurd h1 hm
  | startThread _ _ b off s rnd hp h1 => exact absurd h1 hm
  | xferThread _ _ b off s e hp h1 => exact absurd h1 hm
  | askFail _ _ b off s r hp => exact absurd (h.phase u b off s _ hp) hm
  | askDone _ _ b off s r buf hp => exact absurd (h.phase u b off s _ hp) hm
  | numaMiss _ _ b off s i hp =>
    have := (h.phase u b off s _ hp).1
    rw [hp]; simp only [DistState.goto, upd_self, stepsLeft, phaseLeft]; omega
  | unlock _ _ b off s v hp => rw [hp]; simp only [upd_self, stepsLeft, phaseLeft]; omega
  | delSkip _ _ b1 off1 s o hp | delWin _ _ b1 off1 s o hp | delWinEnd _ _ b1 off1 s o hp
  | numaOwn _ _ b1 off1 s o hp | numaBusy _ _ b1 off1 s o hp
  | numaEnd _ _ b1 off1 s o hp
  | numaTry _ _ b1 off1 s o hp | numaHit _ _ b1 off1 s o o2 hp
  | numaCell _ _ b1 off1 s o o2 o3 hp | numaDone _ _ b1 off1 s o o2 o3 hp
  | addNone _ _ b1 off1 s hp | addWin _ _ b1 off1 s hp | addWinEnd _ _ b1 off1 s hp
  | startNone _ _ b1 off1 s hp | startWin _ _ b1 off1 s rnd hp
  | xferNone _ _ b1 off1 s e hp | xferWin _ _ b1 off1 s e hp | copyCell _ _ b1 off1 s e k hp
  | copyDone _ _ b1 off1 s e k hp | recvCell _ _ b1 off1 s k buf hp
  | recvDone _ _ b1 off1 s k buf hp | loadCell _ _ b1 off1 s k v hp | loadDone _ _ b1 off1 s k hp
  | finNone _ _ b1 off1 s hp | finWin _ _ b1 off1 s hp | convert _ _ b1 off1 s hp =>
    rw [hp]; simp only [DistState.goto, upd_self, stepsLeft, phaseLeft]; omega

/-- Only finitely many threads are inside of getters. -/
theorem busy_finite (h : DistReach P st) : ∃ L : List Nat, ∀ t, st.pc (.user t) ≠ .idle → t ∈ L := by
  induction h with
  | init h => obtain ⟨c, -, rfl⟩ := h; exact ⟨[], fun t ht => absurd rfl ht⟩
  | @step s1 s2 _ hs ih =>
    obtain ⟨L, hL⟩ := ih
    cases hs with
    | user u hu =>
      refine ⟨u :: L, fun t ht => ?_⟩
      by_cases htu : t = u
      · subst htu; exact List.mem_cons_self
      · refine List.mem_cons_of_mem _ (hL t ?_)
        rwa [user_other hu (by intro e; injection e with e; exact htu e)] at ht
    | comm r hc => exact ⟨L, fun t ht => hL t (by rwa [comm_other hc (a := .user t) nofun] at ht)⟩

theorem sum_lt {f g : Nat → Nat} {L : List Nat} (hle : ∀ x, g x ≤ f x) {u : Nat} (hu : u ∈ L)
    (hlt : g u < f u) : (L.map g).sum < (L.map f).sum := by
  have hle' : ∀ L : List Nat, (L.map g).sum ≤ (L.map f).sum := by
    intro L
    induction L with
    | nil => simp
    | cons x L ih => simp only [List.map_cons, List.sum_cons]; have := hle x; omega
  induction L with
  | nil => cases hu
  | cons x L ih =>
    simp only [List.map_cons, List.sum_cons]
    rcases List.mem_cons.1 hu with rfl | hu
    · have := hle' L; omega
    · have := ih hu; have := hle x; omega

/-- The bound for all threads in `L`. -/
def totalLeft (P : DistParams β) (L : List Nat) (st : DistState β) : Nat :=
  (L.map fun t => stepsLeft P (st.pc (.user t))).sum

/-- A step without new calls is a step of a thread inside of a getter. -/
theorem quiet_cases (hq : Quiet P st st') :
    (∃ u, UserStep P u st st' ∧ st.pc (.user u) ≠ .idle) ∨ ∃ r, CommStep P r st st' := by
  obtain ⟨hs, hi⟩ := hq
  cases hs with
  | comm r hc => exact .inr ⟨r, hc⟩
  | user u hu =>
    refine .inl ⟨u, hu, fun e => ?_⟩
    have := hi u e
    cases hu with
    | call => simp only [upd_self] at this; cases this
    | _ => simp_all

theorem quiet_lt (hl : Legal P) (hm : P.mode ≠ .thread) (h : DistReach P st) {L : List Nat}
    (hL : ∀ t, st.pc (.user t) ≠ .idle → t ∈ L) (hq : Quiet P st st') :
    totalLeft P L st' < totalLeft P L st := by
  have hI := DistInv.reach hl.domains hl.size hl.hand h
  rcases quiet_cases hq with ⟨u, hu, hn⟩ | ⟨r, hc⟩
  · refine sum_lt (u := u) (fun t => ?_) (hL u hn) (stepsLeft_lt hI hm hu hn)
    by_cases htu : t = u
    · subst htu; exact Nat.le_of_lt (stepsLeft_lt hI hm hu hn)
    · rw [user_other hu (by intro e; injection e with e; exact htu e)]; exact Nat.le_refl _
  · exact absurd hc (no_comm_idle hI hm (comm_idle hl hm h r))

theorem quietRun_le (hl : Legal P) (hm : P.mode ≠ .thread) (h : DistReach P st) {L : List Nat}
    (hL : ∀ t, st.pc (.user t) ≠ .idle → t ∈ L) {n : Nat} (hq : QuietRun P n st st') :
    DistReach P st' ∧ (∀ t, st'.pc (.user t) ≠ .idle → t ∈ L) ∧
      n + totalLeft P L st' ≤ totalLeft P L st := by
  induction hq with
  | zero => exact ⟨h, hL, by omega⟩
  | @succ n s1 s2 s3 hr hq ih =>
    obtain ⟨h1, h2, h3⟩ := ih h hL
    refine ⟨.step h1 hq.1, fun t ht => h2 t (fun e => ht (hq.2 t e)), ?_⟩
    have := quiet_lt hl hm h1 h2 hq
    omega

end Asagi
