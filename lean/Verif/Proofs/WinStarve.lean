import Verif.Proofs.MtxStarve
import Verif.Proofs.CacheLibStarve
import Verif.Proofs.WinCacheLive
/-
The caches with MPI windows and the implemented lock: no thread starves.
-/
namespace Asagi
open Spec Props
variable {β : Type} {C : WinParams β} {ws ws' : WinState β} {st st' : DistState β}
  {P : DistParams β}

/-- Locks are taken only if they are free. -/
theorem win_holder {own own' : Option Agent} {Of : Agent → Pc β → Prop}
    (h : ∀ a, own = some a ↔ Of a (st.pc a)) (h' : ∀ a, own' = some a ↔ Of a (st'.pc a)) {x : Agent}
    (hx : ∀ a, a ≠ x → st'.pc a = st.pc a) : own' = own ∨ own = none ∨ own' = none := by
  cases e : own with
  | none => exact .inr (.inl rfl)
  | some a =>
    cases e' : own' with
    | none => exact .inr (.inr rfl)
    | some a' =>
      left
      have h1 := (h a).1 e
      have h2 := (h' a').1 e'
      by_cases hax : a = x
      · by_cases hax' : a' = x
        · rw [hax, hax']
        · rw [hx a' hax'] at h2
          rw [← (h a').2 h2, e]
      · rw [← hx a hax] at h1
        rw [← (h' a).2 h1, e']

theorem dist_locks (hI : DistInv P st) (hI' : DistInv P st') (hs : DistStep P st st') :
    (∀ k, st'.lk k = st.lk k ∨ st.lk k = none ∨ st'.lk k = none) ∧
    (∀ d, st'.cm d = st.cm d ∨ st.cm d = none ∨ st'.cm d = none) := by
  have hx : ∃ x, ∀ a, a ≠ x → st'.pc a = st.pc a := by
    cases hs with
    | user u hu => exact ⟨.user u, fun a ha => user_other hu ha⟩
    | comm r hr => exact ⟨.comm r, fun a ha => comm_other hr ha⟩
  obtain ⟨x, hx⟩ := hx
  exact ⟨fun k => win_holder (Of := fun a p => LkOf P a p k) (hI.lk k) (hI'.lk k) hx, fun d => win_holder (Of := fun a p => CmOf P a p d) (hI.cm d) (hI'.cm d) hx⟩

/-- A thread in the lock is inside of a getter. -/
theorem WinLink.busy_user (hL : WinLink C ws) {t : Nat} (ht : ws.mtx.pc (C.thr t) ≠ .idle) :
    ws.st.pc (.user t) ≠ .idle := by
  have hk := hL.link t
  revert hk ht
  cases ws.mtx.pc (C.thr t) with
  | idle => intro h; exact absurd rfl h
  | held => intro _ hk; exact entry_idle hk
  | relProc | relWin | cas | recv | released => intro _ hk; exact entry_idle hk.1
  | wantProc | wantWin | swap | swapped | sending | reProc | reWin | update =>
    intro _ hk; exact wants_idle hk

/-- A step does not move a thread inside of a getter, or brings it closer to the end. -/
theorem win_forward (hC : LegalWin C) (h : WinReach C ws) (hs : WinStep C ws ws') {t : Nat}
    (hn : ws.st.pc (.user t) ≠ .idle) :
    (ws'.st.pc (.user t) = ws.st.pc (.user t) ∧ ws'.mtx.pc (C.thr t) = ws.mtx.pc (C.thr t)) ∨
    winLeft C ws' t < winLeft C ws t := by
  obtain ⟨h1, h2, hL⟩ := WinReach.all hC.dist hC.legal hC.window h
  have hI := DistInv.reach hC.legal.domains hC.legal.size hC.legal.hand h1
  have hm : C.P.mode ≠ .thread := by rw [hC.window]; nofun
  have hlive := hL.live t hn
  have one : ∀ u, UserStep C.P u ws.st ws'.st →
      (∀ U, U ≠ C.thr u → ws'.mtx.pc U = ws.mtx.pc U) →
      (ws'.st.pc (.user t) = ws.st.pc (.user t) ∧ ws'.mtx.pc (C.thr t) = ws.mtx.pc (C.thr t)) ∨
      winLeft C ws' t < winLeft C ws t := by
    intro u hu hsg
    by_cases e : t = u
    · subst e
      right
      have hlt := stepsLeft_lt hI hm hu hn
      have := lockLeft_le (ws'.mtx.pc (C.thr t)) (ws'.st.pc (.user t))
      unfold winLeft; omega
    · exact .inl ⟨user_other hu (user_ne e), hsg _ (fun y => e (hC.dist t u hlive y))⟩
  have lock : ∀ m' : MtxState, MtxStep C.M false ws.mtx m' → ws'.st = ws.st → ws'.mtx = m' →
      (ws.mtx.pc (C.thr t) ≠ .idle) → m'.pc (C.thr t) ≠ .idle →
      (ws'.st.pc (.user t) = ws.st.pc (.user t) ∧ ws'.mtx.pc (C.thr t) = ws.mtx.pc (C.thr t)) ∨
      winLeft C ws' t < winLeft C ws t := by
    intro m' hms e1 e2 hi hi'
    rcases mtx_forward hms (C.thr t) with h3 | h3 | h3
    · exact .inl ⟨by rw [e1], by rw [e2, h3]⟩
    · exact absurd h3 hi
    · right
      unfold winLeft
      rw [e1, e2, lockLeft_place hi, lockLeft_place hi']
      have := place_lt hi'
      omega
  cases hs with
  | plain u st' _ hw hl hu => exact one u hu (fun _ _ => rfl)
  | delete u b off s o m' hp hu hn' hms =>
    have hsg := mtx_single hms (T := C.thr u) (by rw [hu]; rfl) (by rw [hu, hn']; nofun)
    have hu' := UserStep.delWin (P := C.P) ws.st u b off s o hp hC.window (hL.free hI h2 hu)
    rw [← hL.entryFor hu] at hu'
    exact one u hu' hsg
  | add u b off s m' hp hu hn' hms =>
    have hsg := mtx_single hms (T := C.thr u) (by rw [hu]; rfl) (by rw [hu, hn']; nofun)
    have hu' := UserStep.addWin (P := C.P) ws.st u b off s hp hC.window (hL.free hI h2 hu)
    rw [← hL.entryFor hu] at hu'
    exact one u hu' hsg
  | start u b off s rnd m' hp hu hn' hms =>
    have hsg := mtx_single hms (T := C.thr u) (by rw [hu]; rfl) (by rw [hu, hn']; nofun)
    have hu' := UserStep.startWin (P := C.P) ws.st u b off s rnd hp hC.window (hL.free hI h2 hu)
    rw [← hL.entryFor hu] at hu'
    exact one u hu' hsg
  | leave u l m' st' hl hr hn' hms hu =>
    have hsg := mtx_single hms (T := C.thr u) (by rw [hr]; rfl) (by rw [hr, hn']; nofun)
    exact one u hu hsg
  | call u l m' hw hi hn' hms =>
    have hsg := mtx_single hms (T := C.thr u) (by rw [hi]; rfl) (by rw [hn', hi]; nofun)
    by_cases e : t = u
    · subst e
      right
      unfold winLeft
      show _ + lockLeft (m'.pc _) _ < _
      rw [hn', hi]; simp [lockLeft, hw, mtxPlace]
    · exact .inl ⟨rfl, hsg _ (fun y => e (hC.dist t u hlive y))⟩
  | inside m' hms hch hin =>
    by_cases e : m'.pc (C.thr t) = ws.mtx.pc (C.thr t)
    · exact .inl ⟨rfl, e⟩
    · have hi := hin _ e
      exact lock m' hms rfl rfl (fun y => by rw [y] at hi; cases hi) (inside_not_idle hms hi)
  | endCall u l m' hl hh hn' hms =>
    have hsg := mtx_single hms (T := C.thr u) (by rw [hh]; rfl) (by rw [hh]; exact hn')
    by_cases e : t = u
    · subst e
      refine lock m' hms rfl rfl (by rw [hh]; nofun) (fun e => ?_)
      have hk := (hL.step hC.dist hC.window hI h2 (.endCall ws t l m' hl hh hn' hms)).2.2.link t
      have hk : WinMatch (m'.pc (C.thr t)) (ws.st.pc (.user t)) := hk
      rw [e] at hk
      have hk2 := hL.link t
      rw [hh] at hk2
      change (ws.st.pc (.user t)).entryOf = none at hk
      change (ws.st.pc (.user t)).entryOf = some l at hk2
      rw [hk] at hk2; cases hk2
    · exact .inl ⟨rfl, hsg _ (fun y => e (hC.dist t u hlive y))⟩

/-- The steps in the cache contain a step of the lock or none. -/
theorem win_mtx (hs : WinStep C ws ws') : MtxStep C.M false ws.mtx ws'.mtx ∨ ws'.mtx = ws.mtx := by
  cases hs <;> first | exact .inr rfl | (left; assumption)

/-- What a thread inside of a getter waits for. -/
theorem win_can (hC : LegalWin C) (h : WinReach C ws) {t : Nat} (hn : ws.st.pc (.user t) ≠ .idle) :
    (∃ ws', WinMoves C t ws ws') ∨
    (∃ b off, ws.st.pc (.user t) = .wantCm b off ∧ ws.st.cm (C.P.dom t) ≠ none) ∨
    (∃ b off s old, ws.st.pc (.user t) = .wantSlot b off s old ∧ ws.st.lk (C.P.dom t, s) ≠ none) ∨
    (ws.mtx.pc (C.thr t) ≠ .idle ∧ ∀ m', ¬ MtxMoves C.M (C.thr t) ws.mtx m') := by
  obtain ⟨h1, h2, hL⟩ := WinReach.all hC.dist hC.legal hC.window h
  have hI := DistInv.reach hC.legal.domains hC.legal.size hC.legal.hand h1
  have hm : C.P.mode ≠ .thread := by rw [hC.window]; nofun
  have hlive := hL.live t hn
  have hk := hL.link t
  have inside : (ws.mtx.pc (C.thr t)).inside = true → (∃ ws', WinMoves C t ws ws') ∨
      (ws.mtx.pc (C.thr t) ≠ .idle ∧ ∀ m', ¬ MtxMoves C.M (C.thr t) ws.mtx m') := by
    intro hi
    by_cases hx : ∃ m', MtxMoves C.M (C.thr t) ws.mtx m'
    · obtain ⟨m', hs, hne⟩ := hx
      refine .inl ⟨_, .inside ws m' hs (fun e => hne (by rw [e])) (fun U hU => ?_), .inr hne⟩
      by_contra hUi
      have hUi : (ws.mtx.pc U).inside = false := by simpa using hUi
      by_cases e : C.thr t = U
      · rw [← e, hi] at hUi; cases hUi
      · exact hne (mtx_single hs hUi hU _ e)
    · push Not at hx
      exact .inr ⟨fun e => (by rw [e] at hi; cases hi), hx⟩
  have plain : (ws.st.pc (.user t)).wantsEntry = none → (ws.st.pc (.user t)).leavesLib = false →
      ∀ st', UserStep C.P t ws.st st' → ∃ ws', WinMoves C t ws ws' := by
    intro hw hl st' hu
    exact ⟨_, .plain ws t st' hlive hw hl hu, .inl (user_moves hI hm hu)⟩
  cases hp : ws.mtx.pc (C.thr t) with
  | idle =>
    cases hw : (ws.st.pc (.user t)).wantsEntry with
    | some l =>
      refine .inl ⟨_, .call ws t l _ hw hp (upd_self ..) (.call ws.mtx _ l hlive hp), .inr ?_⟩
      show upd _ _ _ _ ≠ _
      rw [upd_self, hp]; nofun
    | none =>
      have hl : (ws.st.pc (.user t)).leavesLib = false := by
        cases hx : (ws.st.pc (.user t)).leavesLib with
        | false => rfl
        | true =>
          obtain ⟨l, hl⟩ := leaves_entry hx
          rw [hp, WinMatch, hl] at hk; cases hk
      obtain ⟨k1, k2, k3, k4⟩ := hI.kind t
      cases hq : ws.st.pc (.user t) with
      | idle => exact absurd hq hn
      | wantCm b off =>
        by_cases hc : ws.st.cm (C.P.dom t) = none
        · obtain ⟨h0, inv, -⟩ := hI.lists (C.P.dom t)
          obtain ⟨c', s, old, hg, -⟩ := inv.get b
          exact .inl (plain hw hl _ (.lookup ws.st t b off s c' old hq hc hg))
        · exact .inr (.inl ⟨b, off, rfl, hc⟩)
      | wantSlot b off s old =>
        by_cases hc : ws.st.lk (C.P.dom t, s) = none
        · exact .inl (plain hw hl _ (.lockSlot ws.st t b off s old hq hc))
        · exact .inr (.inr (.inl ⟨b, off, s, old, rfl, hc⟩))
      | own b off s ph =>
        rcases own_can_or hI hm hq with ⟨st', hu⟩ | ⟨o, h3, -⟩
        · exact .inl (plain hw hl _ hu)
        · exfalso
          have e : dirNeed (ws.st.pc (.user t)) = (ws.st.pc (.user t)).wantsEntry := by
            rw [hq]
            cases ph with
            | del old => cases old <;> rfl
            | _ => rfl
          rw [e, hw] at h3; cases h3
      | tryDom u b i => exact absurd hq (k1 _ _ _)
      | tryCm u b i => exact absurd hq (k2 _ _ _)
      | send u b i s k buf => exact absurd hq (k3 _ _ _ _ _ _)
      | sent i s => exact absurd hq (k4 _ _)
  | update l =>
    left
    rw [hp] at hk
    change (ws.st.pc (.user t)).wantsEntry = some l at hk
    have hmv : ∀ (m' : MtxState) p, m'.pc = upd ws.mtx.pc (C.thr t) p → p ≠ .update l →
        m'.pc (C.thr t) ≠ ws.mtx.pc (C.thr t) := by
      intro m' p e hne
      rw [e, upd_self, hp]; exact hne
    unfold Pc.wantsEntry at hk
    split at hk
    · next b off s o he =>
      injection hk with hk; subst hk
      exact ⟨_, .delete ws t b off s o _ he hp (upd_self ..) (.delete ws.mtx _ _ hp),
        .inr (hmv _ _ rfl nofun)⟩
    · next b off s he =>
      injection hk with hk; subst hk
      exact ⟨_, .add ws t b off s _ he hp (upd_self ..) (.hold ws.mtx _ _ hp), .inr (hmv _ _ rfl nofun)⟩
    · next b off s he =>
      injection hk with hk; subst hk
      exact ⟨_, .start ws t b off s 0 _ he hp (upd_self ..) (.hold ws.mtx _ _ hp),
        .inr (hmv _ _ rfl nofun)⟩
    · cases hk
  | held l =>
    left
    rw [hp] at hk
    change (ws.st.pc (.user t)).entryOf = some l at hk
    cases hx : (ws.st.pc (.user t)).leavesLib with
    | true =>
      have hne : ∀ p, p = (if C.M.lib = true then MtxPc.relWin l else .relProc l) → p ≠ .held l := by
        rintro p rfl; split <;> nofun
      refine ⟨_, .endCall ws t l _ hx hp ?_ (.endCall ws.mtx _ _ hp), .inr ?_⟩
      · show upd _ _ _ _ ≠ _
        rw [upd_self]; exact hne _ rfl
      · show upd _ _ _ _ ≠ _
        rw [upd_self, hp]; exact hne _ rfl
    | false =>
      obtain ⟨st', hu⟩ := inLib_enabled hC.window (entry_inLib hk)
      have hw : (ws.st.pc (.user t)).wantsEntry = none := by
        cases hy : (ws.st.pc (.user t)).wantsEntry with
        | none => rfl
        | some l => rw [wants_entry hy] at hk; cases hk
      exact plain hw hx st' hu
  | released l =>
    left
    rw [hp] at hk
    obtain ⟨st', hu⟩ := inLib_enabled hC.window (entry_inLib hk.1)
    exact ⟨_, .leave ws t l _ st' hk.2 hp (upd_self ..) (.leave ws.mtx _ _ hp) hu,
      .inl (user_moves hI hm hu)⟩
  | _ =>
    rw [← hp]
    exact (inside (by rw [hp]; rfl)).imp id fun h => .inr (.inr h)

/-- The lock of the directory gets an execution with fair locks, and nobody starves. -/
theorem win_fair (hC : LegalWin C) {σ : Nat → WinState β} (h : WinReach C (σ 0))
    (hc : CourseOf (WinStep C) σ)
    (hf : FairLocksOf (WinMoves C) (fun t ws => ws.st.pc (.user t) = .idle) σ) :
    (CourseOf (MtxStep C.M false) (fun n => (σ n).mtx) ∧
      FairLocksOf (MtxMoves C.M) (fun T s => s.pc T = .idle) (fun n => (σ n).mtx)) ∧
    ∀ t n, ∃ m, n ≤ m ∧ (σ m).st.pc (.user t) = .idle := by
  have hr : ∀ n, WinReach C (σ n) := by
    intro n
    induction n with
    | zero => exact h
    | succ n ih =>
      rcases hc n with h | h
      · exact .step ih h
      · rw [h]; exact ih
  have hall := fun n => WinReach.all hC.dist hC.legal hC.window (hr n)
  have hI := fun n => DistInv.reach hC.legal.domains hC.legal.size hC.legal.hand (hall n).1
  have hmode : C.P.mode ≠ .thread := by rw [hC.window]; nofun
  -- a thread that never returns is blocked for ever, at one position
  have stuck : ∀ {t n : Nat}, (∀ m, n ≤ m → (σ m).st.pc (.user t) ≠ .idle) →
      ∃ N, n ≤ N ∧ ∀ m, N ≤ m → (∀ s', ¬ WinMoves C t (σ m) s') ∧
        (σ m).st.pc (.user t) = (σ N).st.pc (.user t) ∧
        (σ m).mtx.pc (C.thr t) = (σ N).mtx.pc (C.thr t) := by
    intro t n hb
    have fwd : ∀ n, (σ n).st.pc (.user t) ≠ .idle →
        ((σ (n + 1)).st.pc (.user t) = (σ n).st.pc (.user t) ∧
          (σ (n + 1)).mtx.pc (C.thr t) = (σ n).mtx.pc (C.thr t)) ∨
        winLeft C (σ (n + 1)) t < winLeft C (σ n) t := by
      intro n hn
      rcases hc n with hs | hs
      · exact win_forward hC (hr n) hs hn
      · rw [hs]; exact .inl ⟨rfl, rfl⟩
    obtain ⟨N, hN, hx⟩ := stuck_of_busy hf (fun s => winLeft C s t) (a := t)
      (fun n hn => by
        rcases fwd n hn with ⟨h1, h2⟩ | h1
        · unfold winLeft; rw [h1, h2]
        · exact Nat.le_of_lt h1)
      (fun n hn hm => by
        rcases fwd n hn with ⟨h1, h2⟩ | h1
        · rcases hm.2 with h3 | h3
          · exact absurd h1 h3
          · exact absurd h2 h3
        · exact h1) hb
    refine ⟨N, hN, fun m hm => ⟨hx m hm, ?_⟩⟩
    refine forever (Q := fun m => (σ m).st.pc (.user t) = (σ N).st.pc (.user t) ∧
      (σ m).mtx.pc (C.thr t) = (σ N).mtx.pc (C.thr t)) ⟨rfl, rfl⟩ (fun m hm e => ?_) m hm
    rw [← e.1, ← e.2]
    rcases hc m with hs | hs
    · by_contra hne
      refine hx m hm _ ⟨hs, ?_⟩
      by_contra h2
      push Not at h2
      exact hne h2
    · rw [hs]; exact ⟨rfl, rfl⟩
  -- the lock of the directory: an execution with fair locks
  have lockc : CourseOf (MtxStep C.M false) (fun n => (σ n).mtx) := by
    intro n
    rcases hc n with hs | hs
    · exact win_mtx hs
    · exact .inr (by show (σ (n + 1)).mtx = _; rw [hs])
  have lockf : FairLocksOf (MtxMoves C.M) (fun T s => s.pc T = .idle) (fun n => (σ n).mtx) := by
    intro T n
    by_cases hx : ∃ m, n ≤ m ∧ (σ m).mtx.pc T = .idle
    · obtain ⟨m, h1, h2⟩ := hx
      exact ⟨m, h1, .inl h2⟩
    push Not at hx
    obtain ⟨t, rfl⟩ := (hall n).2.2.busy T (hx n (Nat.le_refl _))
    have hb := fun m hm => (hall m).2.2.busy_user (hx m hm)
    obtain ⟨N, hN, hs⟩ := stuck hb
    refine ⟨N, hN, .inr (.inr fun k hk => ?_)⟩
    have hnk : n ≤ k := by omega
    rcases win_can hC (hr k) (hb k hnk) with ⟨s', h1⟩ | ⟨b, off, h1, -⟩ | ⟨b, off, s, old, h1, -⟩ | h1
    · exact absurd h1 ((hs k hk).1 s')
    · exfalso
      have hk := (hall k).2.2.link t
      have hi := hx k hnk
      revert hk hi
      rw [h1]
      cases (σ k).mtx.pc (C.thr t) with
      | idle => intro _ h; exact h rfl
      | held => intro h; cases h
      | relProc | relWin | cas | recv | released => intro h; cases h.1
      | _ => intro h; cases h
    · exfalso
      have hk := (hall k).2.2.link t
      have hi := hx k hnk
      revert hk hi
      rw [h1]
      cases (σ k).mtx.pc (C.thr t) with
      | idle => intro _ h; exact h rfl
      | held => intro h; cases h
      | relProc | relWin | cas | recv | released => intro h; cases h.1
      | _ => intro h; cases h
    · exact h1.2
  have lockr := mtx_returns (hall 0).2.1 lockc lockf
  -- so a blocked thread waits for a mutex of the caches
  have can : ∀ {t N : Nat}, (∀ m, N ≤ m → (∀ s', ¬ WinMoves C t (σ m) s') ∧
        (σ m).st.pc (.user t) = (σ N).st.pc (.user t) ∧
        (σ m).mtx.pc (C.thr t) = (σ N).mtx.pc (C.thr t)) →
      (∀ m, N ≤ m → (σ m).st.pc (.user t) ≠ .idle) →
      (∃ b off, (σ N).st.pc (.user t) = .wantCm b off ∧ ∀ m, N ≤ m → (σ m).st.cm (C.P.dom t) ≠ none) ∨
      (∃ b off s old, (σ N).st.pc (.user t) = .wantSlot b off s old ∧
        ∀ m, N ≤ m → (σ m).st.lk (C.P.dom t, s) ≠ none) := by
    intro t N hx hb
    have hi : (σ N).mtx.pc (C.thr t) = .idle := by
      obtain ⟨m, h1, h2⟩ := lockr (C.thr t) N
      rw [← (hx m h1).2.2]; exact h2
    have one : ∀ m, N ≤ m →
        (∃ b off, (σ N).st.pc (.user t) = .wantCm b off ∧ (σ m).st.cm (C.P.dom t) ≠ none) ∨
        (∃ b off s old, (σ N).st.pc (.user t) = .wantSlot b off s old ∧
          (σ m).st.lk (C.P.dom t, s) ≠ none) := by
      intro m hm
      obtain ⟨h1, h2, h3⟩ := hx m hm
      rcases win_can hC (hr m) (hb m hm) with ⟨s', h4⟩ | h4 | h4 | h4
      · exact absurd h4 (h1 s')
      · rw [h2] at h4; exact .inl h4
      · rw [h2] at h4; exact .inr h4
      · exact absurd (h3.trans hi) h4.1
    rcases one N (Nat.le_refl _) with ⟨b, off, h1, -⟩ | ⟨b, off, s, old, h1, -⟩
    · refine .inl ⟨b, off, h1, fun m hm => ?_⟩
      rcases one m hm with ⟨b, off, -, h2⟩ | ⟨b, off, s, old, h2, -⟩
      · exact h2
      · rw [h1] at h2; cases h2
    · refine .inr ⟨b, off, s, old, h1, fun m hm => ?_⟩
      rcases one m hm with ⟨b, off, h2, -⟩ | ⟨b, off, s, old, h2, h3⟩
      · rw [h1] at h2; cases h2
      · rw [h1] at h2; cases h2; exact h3
  have locks : ∀ n, (∀ k, (σ (n + 1)).st.lk k = (σ n).st.lk k ∨ (σ n).st.lk k = none ∨
        (σ (n + 1)).st.lk k = none) ∧
      (∀ d, (σ (n + 1)).st.cm d = (σ n).st.cm d ∨ (σ n).st.cm d = none ∨ (σ (n + 1)).st.cm d = none) := by
    intro n
    rcases hc n with hs | hs
    · rcases ((hall n).2.2.step hC.dist hC.window (hI n) (hall n).2.1 hs).1 with e | e
      · rw [e]; exact ⟨fun _ => .inl rfl, fun _ => .inl rfl⟩
      · exact dist_locks (hI n) (hI (n + 1)) e
    · rw [hs]; exact ⟨fun _ => .inl rfl, fun _ => .inl rfl⟩
  -- slots are free again and again
  have slots : ∀ k N, ¬ ∀ m, N ≤ m → (σ m).st.lk k ≠ none := by
    intro k N hne
    obtain ⟨a, ha⟩ := held_forever (own := fun n => (σ n).st.lk k) (fun n => (locks n).1 k) hne
    have ho := fun m hm => ((hI m).lk k a).1 (ha m hm)
    cases a with
    | comm r =>
      have := ho N (Nat.le_refl _)
      rw [comm_idle hC.legal hmode (hall N).1 r] at this
      exact this
    | user u =>
      have hb : ∀ m, N ≤ m → (σ m).st.pc (.user u) ≠ .idle := by
        intro m hm e
        have := ho m hm
        rw [e] at this; exact this
      obtain ⟨M, hM, hx⟩ := stuck hb
      have h1 := ho M hM
      rcases can hx (fun m hm => hb m (by omega)) with ⟨b, off, h2, -⟩ | ⟨b, off, s, old, h2, -⟩ <;>
        (rw [h2] at h1; exact h1)
  -- mutexes of caches are free again and again
  have mutexes : ∀ d N, ¬ ∀ m, N ≤ m → (σ m).st.cm d ≠ none := by
    intro d N hne
    obtain ⟨a, ha⟩ := held_forever (own := fun n => (σ n).st.cm d) (fun n => (locks n).2 d) hne
    have ho := fun m hm => ((hI m).cm d a).1 (ha m hm)
    cases a with
    | comm r =>
      have := ho N (Nat.le_refl _)
      rw [comm_idle hC.legal hmode (hall N).1 r] at this
      exact this
    | user u =>
      have hb : ∀ m, N ≤ m → (σ m).st.pc (.user u) ≠ .idle := by
        intro m hm e
        have := ho m hm
        rw [e] at this; exact this
      obtain ⟨M, hM, hx⟩ := stuck hb
      have h1 := ho M hM
      rcases can hx (fun m hm => hb m (by omega)) with ⟨b, off, h2, -⟩ | ⟨b, off, s, old, -, h2⟩
      · rw [h2] at h1; exact h1
      · exact slots _ _ h2
  refine ⟨⟨lockc, lockf⟩, fun t n => ?_⟩
  by_contra hx
  push Not at hx
  obtain ⟨M, hM, hs⟩ := stuck hx
  rcases can hs (fun m hm => hx m (by omega)) with ⟨b, off, -, h2⟩ | ⟨b, off, s, old, -, h2⟩
  · exact mutexes _ _ h2
  · exact slots _ _ h2

/-- From every reachable state there is an execution with fair locks in which thread `t` calls
getters again and again. -/
theorem winFair_exists (hC : LegalWin C) (h : WinReach C ws) {t b off : Nat} (hv : C.P.valid b off)
    (ht : C.tid t < C.total) : ∃ σ, σ 0 = ws ∧ CourseOf (WinStep C) σ ∧
      FairLocksOf (WinMoves C) (fun t ws => ws.st.pc (.user t) = .idle) σ ∧
      ∀ n, ∃ m, n ≤ m ∧ (σ m).st.pc (.user t) = .idle ∧ (σ (m + 1)).st.pc (.user t) = .wantCm b off := by
  have hidle : ∀ {s}, WinReach C s → (∀ s', ¬ WinQuiet C s s') → ∀ u, s.st.pc (.user u) = .idle := by
    intro s hr hq u
    by_contra hn
    obtain ⟨st', h'⟩ := hr.progress hC hn
    exact hq st' h'
  refine fairCourse_exists (reach := WinReach C) (quiet := WinQuiet C)
    (Q := fun s s' => s.st.pc (.user t) = .idle ∧ s'.st.pc (.user t) = .wantCm b off) _ _
    (fun h hs => .step h hs) (fun h => h.1) (fun τ h0 hq => ?_) hidle (fun {s} hr hq => ?_) h
  · obtain ⟨L, hL⟩ := busy_finite (WinReach.all hC.dist hC.legal hC.window h0).1
    have hrun : ∀ j, WinQuietRun C j (τ 0) (τ j) := by
      intro j
      induction j with
      | zero => exact .zero _
      | succ j ih => exact .succ ih (hq j)
    have := (winQuietRun_le hC h0 hL (hrun ((L.map (winLeft C (τ 0))).sum + 1))).2.2
    omega
  · have hi := hidle hr hq t
    refine ⟨_, .plain s t _ ht ?_ ?_ (.call s.st t b off hi hv), hi, upd_self _ _ _⟩ <;> rw [hi] <;> rfl

end Asagi
