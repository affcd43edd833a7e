import Verif.Proofs.OpenSync
/-
Every step with the implemented barriers corresponds to steps with counters of arrivals.
-/
namespace Asagi
open Asagi.Spec Asagi.Props

variable {P : OpenParams} {ob : Nat → Nat → Nat}

/-- The state corresponds to a reachable state with counters. -/
def OSOk (P : OpenParams) (ob : Nat → Nat → Nat) (s : OSState) : Prop :=
  ∃ a, OpenReach P a ∧ SameOpen P ob s a ∧ OSInv P ob s a.waiting

theorem same_abs {s : OSState} {a : OpenState} (h : SameOpen P ob s a) :
    a = s.abs P ob a.waiting a.cnt a.fin a.data := by
  obtain ⟨a1, a2, a3, a4, a5, a6, a7, a8, a9, a10⟩ := a
  obtain ⟨h1, h2, h3, h4, h5, h6⟩ := h
  simp only [OSState.abs] at h1 h2 h3 h4 h5 h6 ⊢
  subst h1 h2 h3 h4 h5
  congr 1
  exact funext h6

section
variable {s : OSState} {w : Nat} {cnt : Nat → Nat → Nat} {fin : Nat → Nat} {data : Nat → Option Error}
  (hT : 0 < P.total) (hn : P.total = 0 ∨ P.n ≤ P.total) (hr : OpenReach P (s.abs P ob w cnt fin data))

include hn hr in
/-- The thread with number 0. -/
theorem os_root (hi : s.initialised = true) : ∃ r < P.n, s.rootThread P.n = some r ∧
    ∃ q, s.reg r = some q ∧ q.thread = 0 := by
  have hI := hr.inv hn
  obtain ⟨ar, ha⟩ := hI.reg
  obtain ⟨h1, h2⟩ := hI.init.1 hi
  rw [ha.wait] at h2
  obtain ⟨c1, c2, -⟩ := C20_registration P.detect (ar.map P.node)
  rw [List.length_map] at c1
  have hreg : s.reg ar[0] = some ((registerAll P.detect (ar.map P.node)).2[0]'(by omega)) :=
    (ha.reg _ _).2 ⟨0, List.getElem?_eq_getElem h2, List.getElem?_eq_getElem (by omega)⟩
  have hz := c2 0 _ (List.getElem?_eq_getElem (by omega))
  cases hf : s.rootThread P.n with
  | none =>
    exfalso
    unfold OSState.rootThread at hf
    have := List.find?_eq_none.1 hf ar[0] (List.mem_range.2 (ha.lt _ (List.getElem_mem h2)))
    rw [hreg] at this
    simp [hz] at this
  | some r =>
    unfold OSState.rootThread at hf
    have h3 := List.find?_some hf
    have h4 := List.mem_range.1 (List.mem_of_find?_eq_some hf)
    refine ⟨r, h4, rfl, ?_⟩
    cases hq : s.reg r with
    | none => rw [hq] at h3; cases h3
    | some q =>
      rw [hq] at h3
      exact ⟨q, rfl, by simpa using h3⟩

theorem thParams_eq {r : Nat} (h : s.rootThread P.n = some r) : s.thParams P = thP P r := by
  unfold OSState.thParams thP
  rw [h]

theorem thP_root {r : Nat} (h : r < P.total) : ∀ k u, (thP P r).root k = some u → u < (thP P r).n := by
  intro k u hk
  unfold thP at hk ⊢
  simp only at hk ⊢
  split at hk
  · cases hk
  · cases hk; exact h

include hT hn hr in
/-- Registration of a thread. -/
theorem os_register (hI : OSInv P ob s w) (h0 : s.initialised = false) {t : Nat} {th' : SyncState (Nat × Nat)}
    (ht : t < P.n) (hp : s.pc t = .reg) (ha : s.th.arrives t = true)
    (hx : s.th.next (s.thParams P) t = some th') :
    OSOk P ob { s with
        numa := (registerThread s.numa s.th.synced (P.node t) P.detect).1
        initialised := s.initialised || decide (0 < P.total ∧ P.total ≤ s.th.synced + 1)
        reg := upd s.reg t (some (registerThread s.numa s.th.synced (P.node t) P.detect).2)
        pc := upd s.pc t (if th'.rnd t = s.th.rnd t then .reg else
          .afterReg (registerThread s.numa s.th.synced (P.node t) P.detect).2.master)
        th := th' } := by
  obtain ⟨hf, hsy, ho, hpc⟩ := hI.early h0
  subst hsy
  have htt : t < P.total := by omega
  have hidle : s.th.pc t = .idle := by
    rcases (hpc t).2 with h | h
    · exact h
    · simp [SyncState.arrives, h] at ha
  obtain ⟨hc0, hri, hcalls, hcpu⟩ := hI.regPc t hp
  have harr : arrivedPc P ob s t = .start := by
    simp [arrivedPc, hp, hidle, SyncPc.inside]
  have hr1 : OpenReach P _ := .step hr (.register _ t ht harr (by show s.call t < _; omega) h0 hcpu)
  have hw : s.th.synced + 1 ≤ P.total := by
    obtain ⟨ar, h1⟩ := (hr1.inv hn).reg
    have h2 := h1.wait
    simp only [OSState.abs] at h2
    have h3 := (List.subperm_of_subset h1.nodup (fun x hx => List.mem_range.2 (h1.lt x hx) :
      ar ⊆ List.range P.n)).length_le
    rw [List.length_range] at h3
    omega
  have hoth := fun u (hu : u ≠ t) => next_other hx hu
  have hnr : ¬ (s.thParams P).isRoot s.th t := by
    unfold SyncParams.isRoot OSState.thParams
    simp only
    rw [if_pos (hpc t).1]
    simp
  have hxx : th' = s.th.arrive (s.thParams P) t := by
    have := hx
    simp only [SyncState.next, hidle, hf] at this
    simpa using this.symm
  have hthr : ∀ r < P.total, SyncReach (thP P r) false th' := by
    intro r hr1
    refine .step (hI.thr r hr1 (by simp [h0])) (next_step (t := t) htt ?_)
    rw [← hx]
    exact next_congr rfl (by rw [(hpc t).1]; rfl) rfl
  have hmaster : ∀ x, x ≠ t → ∀ y : OSState, y.reg = upd s.reg t
      (some (registerThread s.numa s.th.synced (P.node t) P.detect).2) → y.reg x = s.reg x := by
    intro x hx y hy
    rw [hy, upd_ne _ _ hx]
  have habs0 : ∀ x, s.call x = 0 ∧ (s.pc x = .start ∨ s.pc x = .reg ∨ s.pc x = .quit) := by
    intro x
    obtain ⟨h1, h2⟩ := (hr.inv hn).early x h0
    refine ⟨h1, ?_⟩
    cases hq : s.pc x with
    | start => simp
    | reg => simp
    | quit => simp
    | ops i => exact absurd (os_late hn hr (.inl ⟨i, hq⟩)) (by simp [h0])
    | final e => exact absurd (os_late hn hr (.inr ⟨e, hq⟩)) (by simp [h0])
  by_cases hlast : s.th.synced + 1 = P.total
  · -- the last thread leaves the barrier at once
    have hl : th'.rnd t = s.th.rnd t + 1 ∧ th'.pc t = .idle := by
      rw [hxx]
      unfold SyncState.arrive
      simp only
      rw [if_pos (by exact hlast)]
      unfold SyncState.afterCond
      rw [if_neg (fun h => hnr h.1)]
      exact ⟨leave_self.2, leave_self.1⟩
    have hne : ¬ th'.rnd t = s.th.rnd t := by omega
    have hr2 : OpenReach P _ := .step hr1 (.registered _ t
      (registerThread s.numa s.th.synced (P.node t) P.detect).2 ht (by simp [OSState.abs, upd_self])
      (by simp [OSState.abs, hlast]) (by simp [OSState.abs, upd_self]))
    simp only [if_neg hne]
    have hini : (s.initialised || decide (0 < P.total ∧ P.total ≤ s.th.synced + 1)) = true := by
      rw [h0, Bool.false_or]
      exact decide_eq_true ⟨hT, by omega⟩
    rw [hini]
    refine ⟨_, hr2, ⟨rfl, by simp [OSState.abs, hlast], rfl, rfl, rfl, ?_⟩, ?_⟩
    · intro x
      by_cases hxt : x = t
      · subst hxt
        simp only [OSState.abs, upd_self]
        unfold arrivedPc
        simp only [upd_self]
        rcases hm : (registerThread s.numa s.th.synced (P.node x) P.detect).2.master with _ | _
        · simp only [OSPc.afterReg, afterRegistration, Bool.false_eq_true, if_false, hl.2]
          rfl
        · simp only [OSPc.afterReg, afterRegistration, if_true]
          rw [if_neg]
          rintro ⟨-, h2⟩
          rw [ho] at h2
          cases h2
      · simp only [OSState.abs, upd_ne _ _ hxt]
        symm
        exact arrivedPc_other (upd_ne _ _ hxt) rfl (upd_ne _ _ hxt) (hoth x hxt).1.inside fun _ _ _ => rfl
    · have hnot : ∀ b, OSPc.afterReg b ≠ .reg ∧ OSPc.afterReg b ≠ .start := by
        intro b; unfold OSPc.afterReg; split <;> simp
      refine ⟨?_, ?_, ?_, ?_, ?_, ?_, ?_, ?_, ?_, ?_, ?_⟩
      · intro x hx
        simp only [upd_ne _ _ (show x ≠ t by omega)]
        exact hI.out x hx
      · intro h; cases h
      · intro r hr1 _
        exact hthr r hr1
      · intro x h1 h2
        by_cases hxt : x = t
        · subst hxt; exact hl.2
        · simp only [upd_ne _ _ hxt] at h1 h2
          exact (hoth x hxt).1.idle.2 (hI.thIdle x h1 h2)
      · intro x
        by_cases hxt : x = t
        · subst hxt
          simp only [upd_self]
          rw [hl.1, (hpc x).1, hc0]
          unfold OSPc.afterReg
          split <;> rfl
        · simp only [upd_ne _ _ hxt]
          exact (hoth x hxt).2.trans (hI.thRnd x)
      · intro x h
        by_cases hxt : x = t
        · subst hxt
          simp only [upd_self] at h
          exact absurd h (hnot _).1
        · simp only [upd_ne _ _ hxt] at h ⊢
          obtain ⟨h1, h2, h3⟩ := hI.regPc x h
          refine ⟨h1, ?_, h3⟩
          rw [h2]
          exact Eq.congr_left (hoth x hxt).1.inside.symm
      · intro x h
        by_cases hxt : x = t
        · subst hxt
          simp only [upd_self] at h
          exact absurd h (hnot _).2
        · simp only [upd_ne _ _ hxt] at h ⊢; exact hI.unreg x h
      · intro x e h
        by_cases hxt : x = t
        · subst hxt
          simp only [upd_self] at h
          simp only [OSState.master, upd_self, Option.map_some, Option.getD_some]
          unfold OSPc.afterReg at h
          split at h
          · cases h
          · next hc => cases h; rw [if_neg hc]
        · simp only [upd_ne _ _ hxt] at h
          rcases (habs0 x).2 with h' | h' | h' <;> rw [h'] at h <;> cases h
      · intro _ o
        rw [show s.obj o = .start from ho o]
        exact .init rfl
      · intro o d h
        rw [show s.obj o = .start from ho o] at h
        exact absurd rfl h
      · intro _ x hx hm o
        rw [show s.obj o = .start from ho o]
        by_cases hxt : x = t
        · subst hxt
          simp only [upd_self, OSState.master, Option.map_some, Option.getD_some] at hm ⊢
          rw [hc0, hm]
          simp [OSPc.afterReg, usedAt, uses, usedIn, SyncState.start]
        · simp only [upd_ne _ _ hxt]
          rw [(habs0 x).1]
          rcases (habs0 x).2 with h' | h' | h' <;> rw [h'] <;> rfl
  · -- the thread waits
    have hf1 : th'.rnd = s.th.rnd ∧ th'.finishing = false ∧ th'.synced = s.th.synced + 1 ∧
        th'.pc = upd s.th.pc t .waitCond := by
      rw [hxx]
      unfold SyncState.arrive
      simp only
      rw [if_neg (by exact hlast)]
      exact ⟨rfl, hf, rfl, rfl⟩
    obtain ⟨g1, g2, g3, g4⟩ := hf1
    have hin : ∀ x, (th'.pc x).inside = (upd (fun u => (s.th.pc u).inside) t true) x := by
      intro x
      rw [g4]
      by_cases hxt : x = t
      · subst hxt; rw [upd_self, upd_self]; rfl
      · rw [upd_ne _ _ hxt, upd_ne _ _ hxt]
    simp only [if_pos (congrFun g1 t)]
    have hpcu : upd s.pc t .reg = s.pc := by
      funext x
      by_cases hxt : x = t
      · subst hxt; rw [upd_self, hp]
      · rw [upd_ne _ _ hxt]
    rw [hpcu]
    have hini : (s.initialised || decide (0 < P.total ∧ P.total ≤ s.th.synced + 1)) = false := by
      rw [h0, Bool.false_or]
      exact decide_eq_false (by omega)
    rw [hini]
    refine ⟨_, hr1, ⟨rfl, by simp [OSState.abs, hlast], rfl, rfl, rfl, ?_⟩, ?_⟩
    · intro x
      by_cases hxt : x = t
      · subst hxt
        simp only [OSState.abs, upd_self]
        unfold arrivedPc
        simp only [hp]
        rw [if_pos]
        rw [hin x, upd_self]
      · simp only [OSState.abs, upd_ne _ _ hxt]
        symm
        exact arrivedPc_other rfl rfl (upd_ne _ _ hxt) (hoth x hxt).1.inside fun _ _ _ => rfl
    · refine ⟨hI.out, ?_, ?_, ?_, ?_, ?_, ?_, ?_, ?_, ?_, ?_⟩
      · intro _
        refine ⟨g2, g3, ho, fun x => ⟨by rw [show th'.rnd x = s.th.rnd x from congrFun g1 x]; exact (hpc x).1, ?_⟩⟩
        show th'.pc x = _ ∨ th'.pc x = _
        rw [g4]
        by_cases hxt : x = t
        · subst hxt; right; rw [upd_self]
        · rw [upd_ne _ _ hxt]; exact (hpc x).2
      · intro r hr1 _
        exact hthr r hr1
      · intro x h1 h2
        by_cases hxt : x = t
        · subst hxt; exact absurd hp h1
        · exact (hoth x hxt).1.idle.2 (hI.thIdle x h1 h2)
      · intro x
        exact (congrFun g1 x).trans (hI.thRnd x)
      · intro x h
        obtain ⟨h1, h2, h3⟩ := hI.regPc x h
        refine ⟨h1, ?_, h3⟩
        show (upd s.reg t _ x).isSome ↔ (th'.pc x).inside = true
        rw [hin x]
        by_cases hxt : x = t
        · subst hxt
          rw [upd_self, upd_self]; simp
        · rw [upd_ne _ _ hxt, upd_ne _ _ hxt]; exact h2
      · intro x h hc
        by_cases hxt : x = t
        · subst hxt
          rw [show s.pc x = .start from h] at hp; cases hp
        · simp only [upd_ne _ _ hxt]; exact hI.unreg x h hc
      · intro x e h
        rcases (habs0 x).2 with h' | h' | h' <;> rw [show s.pc x = .final e from h] at h' <;> cases h'
      · intro h; cases h
      · intro o d h
        rw [show s.obj o = .start from ho o] at h
        exact absurd rfl h
      · intro h; cases h

include hn hr in
/-- When a thread leaves grid.cpp 244, all threads have arrived there. -/
theorem os_all_final (hI : OSInv P ob s w) (hi : s.initialised = true) {t : Nat} {e : Error}
    {th' : SyncState (Nat × Nat)} (ht : t < P.n) (hp : s.pc t = .final e)
    (hx : s.th.next (s.thParams P) t = some th') (hl : th'.rnd t ≠ s.th.rnd t) (x : Nat) (hxn : x < P.n)
    (hxt : x ≠ t) : s.call t < s.call x ∨ (s.call x = s.call t ∧ (s.th.pc x).inside = true ∧ ∃ e, s.pc x = .final e) := by
  obtain ⟨h1, h2, h3⟩ := (hr.inv hn).ready hn hi
  obtain ⟨r, r1, r2, -⟩ := os_root hn hr hi
  rw [thParams_eq r2] at hx
  have hrt := hI.thRnd t
  rw [hp] at hrt
  have hrx := hI.thRnd x
  have hle : roundAt (s.call x) (s.pc x) ≤ s.call x + 1 := by
    cases s.pc x <;> simp only [roundAt] <;> try omega
    split <;> omega
  rcases left_all (P := thP P r) (by show 0 < P.total; omega) (thP_root (by omega)) (hI.thr r (by omega) fun _ => r2)
    (by show t < P.total; omega) hx hl x (by show x < P.total; omega) hxt with h | ⟨h, hin⟩
  · left
    simp only [roundAt] at hrt
    omega
  · right
    have hnid : s.th.pc x ≠ .idle := by
      intro hc; rw [hc] at hin; cases hin
    cases hq : s.pc x with
    | final e' =>
      rw [hq] at hrx
      simp only [roundAt] at hrt hrx
      exact ⟨by omega, hin, e', rfl⟩
    | reg =>
      rw [hq] at hrx
      simp only [roundAt] at hrt hrx
      omega
    | start => exact absurd (hI.thIdle x (by simp [hq]) (by simp [hq])) hnid
    | quit => exact absurd (hI.thIdle x (by simp [hq]) (by simp [hq])) hnid
    | ops i => exact absurd (hI.thIdle x (by simp [hq]) (by simp [hq])) hnid

theorem fin_of_all {a : OpenState} (hI : OpenInv P a) {k : Nat}
    (h : ∀ x < P.n, past P a x k (2 * (P.plan k).length + 4)) : a.fin k = P.n := by
  rw [hI.fin, Finset.filter_true_of_mem (fun x hx => h x (Finset.mem_range.1 hx)), Finset.card_range]

include hn hr in
/-- The value a thread reads at grid.cpp 244. -/
theorem os_read (hI : OSInv P ob s w) (hi : s.initialised = true) {t : Nat} {e : Error}
    {th' : SyncState (Nat × Nat)} (ht : t < P.n) (hp : s.pc t = .final e)
    (hx : s.th.next (s.thParams P) t = some th') (hl : th'.rnd t ≠ s.th.rnd t) :
    s.readErr (th'.got t (s.th.rnd t)) = some (outcome P (s.call t) 0) := by
  have hall := os_all_final hn hr hI hi ht hp hx hl
  obtain ⟨h1, h2, h3⟩ := (hr.inv hn).ready hn hi
  obtain ⟨r, r1, r2, q, r3, r4⟩ := os_root hn hr hi
  rw [thParams_eq r2] at hx
  have hrt := hI.thRnd t
  rw [hp] at hrt
  simp only [roundAt] at hrt
  have hroot : (thP P r).root (s.th.rnd t) = some r := by
    unfold thP
    simp only
    rw [if_neg (by omega)]
  have hT : 0 < (thP P r).n := by show 0 < P.total; omega
  have hreach := hI.thr r (by omega) fun _ => r2
  have hgot := left_got hT (thP_root (by omega)) hreach (by show t < P.total; omega) hx hl hroot
  have hst := root_stays hT (thP_root (by omega)) hreach (t := t) (by show t < P.total; omega) hroot
  have hfin : s.call r = s.call t ∧ ∃ e', s.pc r = .final e' := by
    by_cases hrt' : r = t
    · subst hrt'; exact ⟨rfl, e, hp⟩
    · rcases hall r r1 hrt' with h | ⟨h, -, h'⟩
      · rw [hI.thRnd r, hrt] at hst
        exfalso
        have : s.call t + 2 ≤ roundAt (s.call r) (s.pc r) ∨ s.pc r = .reg ∨ s.pc r = .quit := by
          cases s.pc r <;> simp only [roundAt] <;> try simp
          all_goals first | omega | (split <;> omega)
        rcases this with h' | h' | h'
        · omega
        · have := (hI.regPc r h').1; omega
        · have := (hr.inv hn).quit r (by simp [OSState.abs, arrivedPc, h'])
          rw [show s.reg r = none from this.1] at r3; cases r3
      · exact ⟨h, h'⟩
  obtain ⟨hc, e', he'⟩ := hfin
  obtain ⟨hm, hd⟩ := (os_facts hn hr).zero r q r3 r4
  have hv := hI.fin r e' he'
  rw [show s.master r = true by simp [OSState.master, r3, hm], if_pos rfl, hc,
    show s.domainId r = 0 by simp [OSState.domainId, r3, hd]] at hv
  rw [hgot]
  show s.readErr (some (some (r, _))) = _
  simp only [OSState.readErr, he', hv]

/-- Every step of the threads corresponds to steps with counters. -/
theorem OSOk.step {s s' : OSState} (hT : 0 < P.total) (hn' : P.n ≤ P.total) (h : OSOk P ob s) (hs : OSStep P ob s s') :
    OSOk P ob s' := by
  have hn : P.total = 0 ∨ P.n ≤ P.total := .inr hn'
  obtain ⟨a, hr, hsame, hI⟩ := h
  obtain ⟨w, cnt, fin, data, ha⟩ : ∃ w cnt fin data, a = s.abs P ob w cnt fin data := ⟨_, _, _, _, same_abs hsame⟩
  subst ha
  change OSInv P ob s w at hI
  clear hsame
  have hO := hr.inv hn
  cases hs with
  | noCpu t ht hp hc h0 hcpu =>
    have hidle := hI.thIdle t (by simp [hp]) (by simp [hp])
    obtain ⟨e1, e2, e3, e4⟩ := hI.early h0
    refine ⟨_, .step hr (.noCpu _ t ht (by simp [OSState.abs, arrivedPc, hp]) hc h0 hcpu), ⟨rfl, rfl, rfl, rfl, rfl, ?_⟩, ?_⟩
    · intro x
      by_cases hxt : x = t
      · subst hxt; simp [OSState.abs, upd_self, arrivedPc]
      · simp only [OSState.abs, upd_ne _ _ hxt]
        symm
        exact arrivedPc_other (upd_ne _ _ hxt) rfl rfl rfl fun _ _ _ => rfl
    · refine ⟨?_, hI.early, hI.thr, ?_, ?_, ?_, ?_, ?_, hI.objReach, ?_, ?_⟩
      · intro x hx
        simp only [upd_ne _ _ (show x ≠ t by omega)]
        exact hI.out x hx
      · intro x h1 h2
        by_cases hx : x = t
        · subst hx; exact hidle
        · simp only [upd_ne _ _ hx] at h1 h2
          exact hI.thIdle x h1 h2
      · intro x
        by_cases hx : x = t
        · subst hx
          simp only [upd_self]
          exact (e4 x).1
        · simp only [upd_ne _ _ hx]; exact hI.thRnd x
      · intro x h
        by_cases hx : x = t
        · subst hx; simp only [upd_self] at h; cases h
        · simp only [upd_ne _ _ hx] at h; exact hI.regPc x h
      · intro x h
        by_cases hx : x = t
        · subst hx; simp only [upd_self] at h; cases h
        · simp only [upd_ne _ _ hx] at h; exact hI.unreg x h
      · intro x e h
        by_cases hx : x = t
        · subst hx; simp only [upd_self] at h; cases h
        · simp only [upd_ne _ _ hx] at h; exact hI.fin x e h
      · intro o d h
        rw [show s.obj o = .start from e3 o] at h
        exact absurd rfl h
      · intro h
        rw [show s.initialised = true from h] at h0; cases h0
  | check t ht hp hc h0 hcpu =>
    have hidle := hI.thIdle t (by simp [hp]) (by simp [hp])
    obtain ⟨e1, e2, e3, e4⟩ := hI.early h0
    have hc0 : s.call t = 0 := (hO.early t h0).1
    refine ⟨_, hr, ⟨rfl, rfl, rfl, rfl, rfl, ?_⟩, ?_⟩
    · intro x
      by_cases hxt : x = t
      · subst hxt; simp [OSState.abs, upd_self, arrivedPc, hp, hidle, SyncPc.inside]
      · symm
        exact arrivedPc_other (upd_ne _ _ hxt) rfl rfl rfl fun _ _ _ => rfl
    · refine ⟨?_, hI.early, hI.thr, ?_, ?_, ?_, ?_, ?_, hI.objReach, ?_, ?_⟩
      · intro x hx
        simp only [upd_ne _ _ (show x ≠ t by omega)]
        exact hI.out x hx
      · intro x h1 h2
        by_cases hx : x = t
        · subst hx; exact hidle
        · simp only [upd_ne _ _ hx] at h1 h2
          exact hI.thIdle x h1 h2
      · intro x
        by_cases hx : x = t
        · subst hx
          simp only [upd_self]
          exact (e4 x).1
        · simp only [upd_ne _ _ hx]; exact hI.thRnd x
      · intro x h
        by_cases hx : x = t
        · subst hx
          refine ⟨hc0, ?_, by omega, hcpu⟩
          show (s.reg x).isSome ↔ _
          rw [hI.unreg x hp hc0]
          show _ ↔ (s.th.pc x).inside = true
          rw [hidle]; simp [SyncPc.inside]
        · simp only [upd_ne _ _ hx] at h; exact hI.regPc x h
      · intro x h
        by_cases hx : x = t
        · subst hx; simp only [upd_self] at h; cases h
        · simp only [upd_ne _ _ hx] at h; exact hI.unreg x h
      · intro x e h
        by_cases hx : x = t
        · subst hx; simp only [upd_self] at h; cases h
        · simp only [upd_ne _ _ hx] at h; exact hI.fin x e h
      · intro o d h
        rw [show s.obj o = .start from e3 o] at h
        exact absurd rfl h
      · intro h
        rw [show s.initialised = true from h] at h0; cases h0
  | again t ht hp hc hi =>
    have hidle := hI.thIdle t (by simp [hp]) (by simp [hp])
    obtain ⟨r, hg, g1, g2, g3⟩ := os_ready hn hr hi ht
    have hc0 : s.call t ≠ 0 := by
      intro h0
      rw [hI.unreg t hp h0] at hg; cases hg
    have hmas : s.numa.masters[s.threadId t]?.getD false = s.master t := by
      rw [g1, show s.numa.masters[r.thread]? = some r.master from (os_facts hn hr).masters t r hg, g3]
      rfl
    have hns : ∀ i, s.pc t = .ops i → (P.plan (s.call t))[i]? ≠ some .sync := by
      intro i h; rw [hp] at h; cases h
    obtain ⟨i1, i2⟩ := os_move hn hr hI hi ht (p' := .afterReg (s.numa.masters[s.threadId t]?.getD false))
      (q := afterRegistration (s.numa.masters[s.threadId t]?.getD false)) hns hidle
      (by rw [hp]; simp [roundAt, hc0])
      (by
        rw [hmas]
        cases hm : s.master t
        · exact .inr ⟨.SUCCESS, rfl, rfl, by simp⟩
        · exact .inl ⟨0, rfl, rfl, rfl⟩)
      (by
        intro hm o
        rw [hmas, hm, hp]
        simp [OSPc.afterReg, usedAt, uses])
    exact ⟨_, .step hr (.again _ t ht (by simp [OSState.abs, arrivedPc, hp]) hc hi),
      ⟨rfl, rfl, rfl, rfl, rfl, fun x => (i2 x).symm⟩, i1⟩
  | regWait t th' ht hp hin har hx =>
    exfalso
    by_cases hi : s.initialised = true
    · obtain ⟨r, hg, -⟩ := os_ready hn hr hi ht
      have := (hI.regPc t hp).2.1.1 (by rw [hg]; rfl)
      rw [hin] at this; cases this
    · obtain ⟨e1, -, -, e4⟩ := hI.early (by simpa using hi)
      rcases (e4 t).2 with h | h
      · simp [SyncState.arrives, h, e1] at har
      · simp [h, SyncPc.inside] at hin
  | regArrive t th' ht hp har hx =>
    have h0 : s.initialised = false := by
      by_contra hi
      have hi : s.initialised = true := by simpa using hi
      obtain ⟨r, hg, -⟩ := os_ready hn hr hi ht
      have := (hI.regPc t hp).2.1.1 (by rw [hg]; rfl)
      unfold SyncState.arrives at har
      cases hq : s.th.pc t <;> simp [hq, SyncPc.inside] at this har
    exact os_register hT hn hr hI h0 ht hp har hx
  | regPass t r th' ht hp hin hg hx =>
    have hi : s.initialised = true := by
      by_contra hi
      obtain ⟨e1, -, -, e4⟩ := hI.early (by simpa using hi)
      rcases (e4 t).2 with h | h
      · simp [h, SyncPc.inside] at hin
      · simp [SyncState.next, h] at hx
    rcases next_self hx with ⟨h1, h2, -⟩ | ⟨h1, h2, -, h4⟩
    · rw [if_neg (by omega)]
      obtain ⟨i1, i2⟩ := os_reg_left hn hr hI hi ht (by omega) hp hg hx h2 h1
      exact ⟨_, .step hr (.registered _ t r ht (by simp [OSState.abs, arrivedPc, hp, hin]) hi hg),
        ⟨rfl, rfl, rfl, rfl, rfl, fun x => (i2 x).symm⟩, i1⟩
    · rw [if_pos h1]
      have hpcu : upd s.pc t .reg = s.pc := by
        funext x
        by_cases hxt : x = t
        · subst hxt; rw [upd_self, hp]
        · rw [upd_ne _ _ hxt]
      rw [hpcu]
      have hin' : (th'.pc t).inside = true := by rw [h4, hin]; rfl
      obtain ⟨i1, i2⟩ := os_th_stay hn hr hI hi (by omega) (.inl hp) hx h1 fun _ => hin'
      refine ⟨_, hr, ⟨rfl, rfl, rfl, rfl, rfl, fun x => ?_⟩, i1⟩
      by_cases hxt : x = t
      · subst hxt
        simp [OSState.abs, arrivedPc, hp, hin, hin']
      · exact (i2 x hxt).symm
  | opDone t i ht hp hlt hns he =>
    have hi := os_late hn hr (.inl ⟨i, hp⟩)
    have hidle := hI.thIdle t (by simp [hp]) (by simp [hp])
    have hns' : ∀ j, s.pc t = .ops j → (P.plan (s.call t))[j]? ≠ some .sync := by
      intro j h; rw [hp] at h; cases h; exact hns
    obtain ⟨i1, i2⟩ := os_move hn hr hI hi ht (p' := .ops (i + 1)) (q := .ops (i + 1)) hns' hidle
      (by rw [hp]; rfl) (.inl ⟨_, rfl, rfl, (os_ops hn hr hp).1⟩)
      (by
        intro hm o
        rw [hp]
        simp only [usedAt]
        rw [uses_succ, if_neg (fun h => hns h.1)]
        omega)
    exact ⟨_, .step hr (.opDone _ t i ht (by simp [OSState.abs, arrivedPc, hp, hns]) hlt hns he),
      ⟨rfl, rfl, rfl, rfl, rfl, fun x => (i2 x).symm⟩, i1⟩
  | opFail t i e ht hp he =>
    have hi := os_late hn hr (.inl ⟨i, hp⟩)
    have hidle := hI.thIdle t (by simp [hp]) (by simp [hp])
    have hns := (opError_lt he).2
    have hns' : ∀ j, s.pc t = .ops j → (P.plan (s.call t))[j]? ≠ some .sync := by
      intro j h; rw [hp] at h; cases h; exact hns
    obtain ⟨hm, hle⟩ := os_ops hn hr hp
    have heq := stops_eq hle he
    obtain ⟨i1, i2⟩ := os_move hn hr hI hi ht (p' := .final e) (q := .toFinal e) hns' hidle
      (by rw [hp]; rfl) (.inr ⟨_, rfl, rfl, by
        rw [if_pos hm]
        unfold outcome
        rw [← heq, he]; rfl⟩)
      (by
        intro hm o
        rw [hp]
        simp only [usedAt]
        rw [heq])
    exact ⟨_, .step hr (.opFail _ t i e ht (by simp [OSState.abs, arrivedPc, hp, hns]) he),
      ⟨rfl, rfl, rfl, rfl, rfl, fun x => (i2 x).symm⟩, i1⟩
  | initDone t i ht hp hle =>
    have hi := os_late hn hr (.inl ⟨i, hp⟩)
    have hidle := hI.thIdle t (by simp [hp]) (by simp [hp])
    have hns : (P.plan (s.call t))[i]? ≠ some .sync := by
      rw [List.getElem?_eq_none hle]; simp
    have hns' : ∀ j, s.pc t = .ops j → (P.plan (s.call t))[j]? ≠ some .sync := by
      intro j h; rw [hp] at h; cases h; exact hns
    obtain ⟨hm, hlt⟩ := os_ops hn hr hp
    have heq : i = stopsAt P (s.call t) (s.domainId t) := le_antisymm hlt ((stopsAt_le _ _ _).trans hle)
    obtain ⟨i1, i2⟩ := os_move hn hr hI hi ht (p' := .final .SUCCESS) (q := .toFinal .SUCCESS) hns' hidle
      (by rw [hp]; rfl) (.inr ⟨_, rfl, rfl, by rw [if_pos hm, outcome_done hlt hle]⟩)
      (by
        intro hm o
        rw [hp]
        simp only [usedAt]
        rw [heq])
    exact ⟨_, .step hr (.initDone _ t i ht (by simp [OSState.abs, arrivedPc, hp, hns]) hle),
      ⟨rfl, rfl, rfl, rfl, rfl, fun x => (i2 x).symm⟩, i1⟩
  | sync t i o' ht hp hsy hx =>
    have hi := os_late hn hr (.inl ⟨i, hp⟩)
    have hd := os_dom hn hr hi ht
    obtain ⟨hm, hle⟩ := os_ops hn hr hp
    -- all masters have arrived if the thread leaves
    have hall : o'.rnd (s.domainId t) ≠ (s.obj (ob (s.call t) i)).rnd (s.domainId t) → ∀ x < P.n, s.master x = true →
        x ≠ t → joins P (s.abs P ob w cnt fin data) x (s.call t) i ∧
          past P (s.abs P ob w cnt fin data) x (s.call t) (2 * i + 2) := by
      intro hl x hxn hxm hxt
      have hdx : s.domainId x ≠ s.domainId t := fun e => hxt (os_unique hn hr hi hxn ht hxm hm e)
      refine os_arrived hn hr hI hi ht hxn hp hsy hxm ?_
      exact left_all (P := s.domParams) (by show 0 < s.numa.domains.length; omega)
        (by intro k r hk; cases hk; show 0 < s.numa.domains.length; omega) (hI.objReach hi _) hd hx hl _
        (os_dom hn hr hi hxn) hdx
    have harrive : ((s.obj (ob (s.call t) i)).pc (s.domainId t)).inside = false →
        arrivedPc P ob s t = .ops i := by
      intro h; simp [arrivedPc, hp, h]
    have hinside : ((s.obj (ob (s.call t) i)).pc (s.domainId t)).inside = true →
        arrivedPc P ob s t = .waitSync i := by
      intro h; simp [arrivedPc, hp, h, hsy]
    rcases next_self hx with ⟨h1, h2, h3⟩ | ⟨h1, h2, -, h4⟩
    · rw [if_neg (by omega)]
      obtain ⟨i1, i2⟩ := os_sync hn hr hI hi ht hp hsy hx (.inr ⟨h2, h1, rfl, rfl⟩)
      have hall := hall (by omega)
      cases hin : ((s.obj (ob (s.call t) i)).pc (s.domainId t)).inside with
      | true =>
        refine ⟨_, .step hr (.leave _ t i ht (hinside hin) ?_),
          ⟨rfl, rfl, rfl, rfl, rfl, fun x => (i2 x).symm⟩, i1⟩
        refine cnt_of_all hn hO hi fun x hxn hxm => ?_
        by_cases hxt : x = t
        · subst hxt
          refine ⟨os_joins hn hr hp hsy, .inr ⟨rfl, ?_⟩⟩
          simp [OSState.abs, hinside hin, OpenPc.stage]
        · exact hall x hxn hxm hxt
      | false =>
        have hr1 : OpenReach P _ := .step hr (.arrive _ t i ht (harrive hin) hsy)
        refine ⟨_, .step hr1 (.leave _ t i ht (by simp [OSState.abs, upd_self]) ?_),
          ⟨rfl, rfl, rfl, rfl, rfl, fun x => ?_⟩, i1⟩
        · refine cnt_of_all hn (hr1.inv hn) hi fun x hxn hxm => ?_
          by_cases hxt : x = t
          · subst hxt
            refine ⟨os_joins hn hr hp hsy, .inr ⟨rfl, ?_⟩⟩
            simp [OSState.abs, upd_self, OpenPc.stage]
          · obtain ⟨j1, j2⟩ := hall x hxn hxm hxt
            refine ⟨j1, ?_⟩
            unfold past at j2 ⊢
            simp only [upd_ne _ _ hxt]
            exact j2
        · rw [i2 x]
          by_cases hxt : x = t
          · subst hxt; simp [OSState.abs, upd_self]
          · simp [OSState.abs, upd_ne _ _ hxt]
    · rw [if_pos h1]
      obtain ⟨i1, i2⟩ := os_sync hn hr hI hi ht hp hsy hx (.inl ⟨h1, rfl, rfl⟩)
      rw [h4] at i2
      cases hin : ((s.obj (ob (s.call t) i)).pc (s.domainId t)).inside with
      | true =>
        refine ⟨_, hr, ⟨rfl, rfl, rfl, rfl, rfl, fun x => ?_⟩, i1⟩
        rw [i2 x, hin]
        by_cases hxt : x = t
        · subst hxt; simp [OSState.abs, upd_self, hinside hin]
        · simp [OSState.abs, upd_ne _ _ hxt]
      | false =>
        cases har : (s.obj (ob (s.call t) i)).arrives (s.domainId t) with
        | false =>
          refine ⟨_, hr, ⟨rfl, rfl, rfl, rfl, rfl, fun x => ?_⟩, i1⟩
          rw [i2 x, hin, har]
          by_cases hxt : x = t
          · subst hxt; simp [OSState.abs, upd_self, harrive hin]
          · simp [OSState.abs, upd_ne _ _ hxt]
        | true =>
          refine ⟨_, .step hr (.arrive _ t i ht (harrive hin) hsy), ⟨rfl, rfl, rfl, rfl, rfl, fun x => ?_⟩, i1⟩
          rw [i2 x, hin, har]
          simp [OSState.abs]
  | final t e th' ht hp hx hl =>
    have hi := os_late hn hr (.inr ⟨e, hp⟩)
    obtain ⟨i1, i2⟩ := os_th_stay hn hr hI hi (by omega) (.inr ⟨e, hp⟩) hx hl (by simp [hp])
    have h4 : (th'.pc t).inside = ((s.th.pc t).inside || s.th.arrives t) := by
      rcases next_self hx with ⟨-, h2, -⟩ | ⟨-, -, -, h4⟩
      · omega
      · exact h4
    by_cases hst : (s.th.pc t).inside = false ∧ s.th.arrives t = true
    · refine ⟨_, .step hr (.arriveFinal _ t e ht (by simp [OSState.abs, arrivedPc, hp, hst.1])),
        ⟨rfl, rfl, rfl, rfl, rfl, fun x => ?_⟩, i1⟩
      by_cases hxt : x = t
      · subst hxt
        simp [OSState.abs, arrivedPc, hp, h4, hst.2, upd_self]
      · rw [i2 x hxt]
        simp [OSState.abs, upd_ne _ _ hxt]
    · refine ⟨_, hr, ⟨rfl, rfl, rfl, rfl, rfl, fun x => ?_⟩, i1⟩
      by_cases hxt : x = t
      · subst hxt
        simp only [OSState.abs, arrivedPc, hp, h4]
        cases hin : (s.th.pc x).inside
        · have : s.th.arrives x = false := by
            by_contra hc; exact hst ⟨hin, by simpa using hc⟩
          rw [this]; rfl
        · rfl
      · exact (i2 x hxt).symm
  | «return» t e th' ht hp hx hl =>
    have hi := os_late hn hr (.inr ⟨e, hp⟩)
    obtain ⟨-, htot, -⟩ := hO.ready hn hi
    have hall := os_all_final hn hr hI hi ht hp hx hl
    rw [os_read hn hr hI hi ht hp hx hl]
    obtain ⟨h1, h2, h3⟩ : th'.pc t = .idle ∧ th'.rnd t = s.th.rnd t + 1 ∧
        ((s.th.pc t).inside = true ∨ s.th.arrives t = true) := by
      rcases next_self hx with h | ⟨h, -⟩
      · exact h
      · exact absurd h hl
    obtain ⟨i1, i2⟩ := os_return hI hi ht (by omega) hp hx h2 h1
      (upd s.res t (upd (s.res t) (s.call t) (some (some (outcome P (s.call t) 0)))))
    obtain ⟨r, r1, r2, q, r3, r4⟩ := os_root hn hr hi
    have hpast : ∀ x < P.n, x ≠ t →
        past P (s.abs P ob w cnt fin data) x (s.call t) (2 * (P.plan (s.call t)).length + 4) := by
      intro x hxn hxt
      rcases hall x hxn hxt with h | ⟨h, h', e', h''⟩
      · exact .inl h
      · refine .inr ⟨h.symm, ?_⟩
        simp [OSState.abs, arrivedPc, h'', h', OpenPc.stage]
    cases hin : (s.th.pc t).inside with
    | true =>
      have hpt : past P (s.abs P ob w cnt fin data) t (s.call t) (2 * (P.plan (s.call t)).length + 4) := by
        refine .inr ⟨rfl, ?_⟩
        simp [OSState.abs, arrivedPc, hp, hin, OpenPc.stage]
      have hpast' : ∀ x < P.n,
          past P (s.abs P ob w cnt fin data) x (s.call t) (2 * (P.plan (s.call t)).length + 4) := by
        intro x hxn
        by_cases hxt : x = t
        · subst hxt; exact hpt
        · exact hpast x hxn hxt
      have hd := hO.data r q (s.call t) r3 r4 (hpast' r r1)
      refine ⟨_, .step hr (.return _ t ht (by simp [OSState.abs, arrivedPc, hp, hin]) ?_),
        ⟨rfl, rfl, rfl, rfl, ?_, fun x => (i2 x).symm⟩, i1⟩
      · exact (fin_of_all hO hpast').trans htot.symm
      · show upd s.res t (upd (s.res t) (s.call t) (some (data (s.call t)))) = _
        rw [show data (s.call t) = _ from hd]
    | false =>
      have hr1 : OpenReach P _ := .step hr (.arriveFinal _ t e ht (by simp [OSState.abs, arrivedPc, hp, hin]))
      have hO1 := hr1.inv hn
      have hpast' : ∀ x < P.n, past P { s.abs P ob w cnt fin data with
          fin := upd fin (s.call t) (fin (s.call t) + 1)
          data := if s.threadId t = 0 then upd data (s.call t) (some e) else data
          pc := upd (s.abs P ob w cnt fin data).pc t .waitFinal } x
          (s.call t) (2 * (P.plan (s.call t)).length + 4) := by
        intro x hxn
        by_cases hxt : x = t
        · subst hxt
          refine .inr ⟨rfl, ?_⟩
          simp [OSState.abs, upd_self, OpenPc.stage]
        · have := hpast x hxn hxt
          unfold past at this ⊢
          simp only [upd_ne _ _ hxt]
          exact this
      have hd := hO1.data r q (s.call t) r3 r4 (hpast' r r1)
      refine ⟨_, .step hr1 (.return _ t ht (by simp [OSState.abs, upd_self]) ?_),
        ⟨rfl, rfl, rfl, rfl, ?_, fun x => ?_⟩, i1⟩
      · exact (fin_of_all hO1 hpast').trans htot.symm
      · simp only [OSState.abs] at hd ⊢
        rw [hd]
      · rw [i2 x]
        by_cases hxt : x = t
        · subst hxt; simp [OSState.abs, upd_self]
        · simp [OSState.abs, upd_ne _ _ hxt]

theorem OSOk.fresh : OSOk P ob OSState.fresh := by
  refine ⟨_, .init rfl, ⟨rfl, rfl, rfl, rfl, rfl, fun _ => rfl⟩, ?_⟩
  refine ⟨?_, ?_, fun _ _ _ => .init rfl, fun _ _ _ => rfl, fun _ => rfl, ?_, fun _ _ _ => rfl, ?_, fun _ _ => .init rfl, ?_, ?_⟩
  all_goals simp [OSState.fresh, OpenState.fresh, SyncState.start]

theorem OSReach.ok {s : OSState} (hT : 0 < P.total) (hn' : P.n ≤ P.total) (h : OSReach P ob s) : OSOk P ob s :=
  Reachable.invariant (fun _ e => e ▸ OSOk.fresh) (fun _ _ hi hs => hi.step hT hn' hs) h

end

end Asagi
