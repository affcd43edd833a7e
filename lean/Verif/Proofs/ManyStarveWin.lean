import Verif.Proofs.ManyStarveKinds
import Verif.Props.WinStarve
/-
Several levels at the same time: no thread starves in caches with MPI windows.
-/
namespace Asagi
open Spec Props
variable {α : Type} {c : LevelCfg α} {rank : Nat → Nat} {C : WinParams α} {ws ws' : WinState α}

/-- A thread that gets the mutex of its process is the only one that moves. -/
theorem mtx_takes {M : MtxParams} {m m' : MtxState} (hs : MtxStep M false m m') {r : Nat} {T : Thr}
    (h1 : m'.proc r = some T) (h2 : m.proc r ≠ some T) : (∀ U, U ≠ T → m'.pc U = m.pc U) ∧
    m'.pc T ≠ m.pc T ∧ ∃ l, m.pc T = .wantProc l ∨ m.pc T = .reProc l ∨ m.pc T = .relProc l := by
  have key : ∀ X p, m'.proc = upd m.proc X.rank (some X) → m'.pc = upd m.pc X p → p ≠ m.pc X →
      (∃ l, m.pc X = .wantProc l ∨ m.pc X = .reProc l ∨ m.pc X = .relProc l) →
      (∀ U, U ≠ T → m'.pc U = m.pc U) ∧ m'.pc T ≠ m.pc T ∧
        ∃ l, m.pc T = .wantProc l ∨ m.pc T = .reProc l ∨ m.pc T = .relProc l := by
    intro X p e e' hp hl
    have : X = T := by
      rw [e, upd_apply] at h1
      split at h1
      · exact Option.some.inj h1
      · exact absurd h1 h2
    subst this
    exact ⟨fun U hU => by rw [e', upd_ne _ _ hU], by rw [e', upd_self]; exact hp, hl⟩
  have none : ∀ X, m'.proc = upd m.proc X none → (∀ U, U ≠ T → m'.pc U = m.pc U) ∧ m'.pc T ≠ m.pc T ∧
      ∃ l, m.pc T = .wantProc l ∨ m.pc T = .reProc l ∨ m.pc T = .relProc l := by
    intro X e
    rw [e, upd_apply] at h1
    split at h1
    · cases h1
    · exact absurd h1 h2
  cases hs with
  | proc t l hp => exact key t _ rfl rfl (by rw [hp]; nofun) ⟨l, .inl hp⟩
  | reProc t l hp => exact key t _ rfl rfl (by rw [hp]; nofun) ⟨l, .inr (.inl hp)⟩
  | relProc t l hp => exact key t _ rfl rfl (by rw [hp]; nofun) ⟨l, .inr (.inr hp)⟩
  | leave t l => exact none _ rfl
  | wait t l old =>
    by_cases hl : M.lib = true
    · simp only [hl, if_true] at h1; exact absurd h1 h2
    · exact none t.rank (by simp only [hl]; rfl)
  | hold t l =>
    by_cases hl : M.lib = true
    · simp only [hl, if_true] at h1; exact absurd h1 h2
    · exact none t.rank (by simp only [hl]; rfl)
  | _ => exact absurd h1 h2

/-- If a thread moves in the caches, no other thread moves in the lock. -/
theorem win_one (hs : WinStep C ws ws') {v : Nat} (hv : ws'.st.pc (.user v) ≠ ws.st.pc (.user v)) :
    ∀ U, U ≠ C.thr v → ws'.mtx.pc U = ws.mtx.pc U := by
  have eq : ∀ {u}, (∀ w, w ≠ u → ws'.st.pc (.user w) = ws.st.pc (.user w)) → u = v := by
    intro u h
    by_contra e
    exact hv (h v (fun e' => e e'.symm))
  cases hs with
  | plain => exact fun _ _ => rfl
  | call => exact absurd rfl hv
  | inside => exact absurd rfl hv
  | endCall => exact absurd rfl hv
  | delete u b off s o m' hp hu hn' hms =>
    obtain rfl := eq (u := u) fun w e => upd_ne _ _ (user_ne e)
    exact mtx_single hms (T := C.thr u) (by rw [hu]; rfl) (by rw [hu, hn']; nofun)
  | add u b off s m' hp hu hn' hms =>
    obtain rfl := eq (u := u) fun w e => upd_ne _ _ (user_ne e)
    exact mtx_single hms (T := C.thr u) (by rw [hu]; rfl) (by rw [hu, hn']; nofun)
  | start u b off s rnd m' hp hu hn' hms =>
    obtain rfl := eq (u := u) fun w e => upd_ne _ _ (user_ne e)
    exact mtx_single hms (T := C.thr u) (by rw [hu]; rfl) (by rw [hu, hn']; nofun)
  | leave u l m' st' hl hr hn' hms hu =>
    obtain rfl := eq (u := u) fun w e => user_other hu (user_ne e)
    exact mtx_single hms (T := C.thr u) (by rw [hr]; rfl) (by rw [hr, hn']; nofun)

/-- If thread `t` moves, no other thread moves in the caches. -/
theorem win_calm (hC : LegalWin C) (hs : WinStep C ws ws') {t u : Nat} (hl : C.tid t < C.total) (e : u ≠ t)
    (ht : (ws'.st.pc (.user t), ws'.mtx.pc (C.thr t)) ≠ (ws.st.pc (.user t), ws.mtx.pc (C.thr t))) :
    ws'.st.pc (.user u) = ws.st.pc (.user u) := by
  by_contra hu
  obtain ⟨v, hv⟩ := win_pc_single hs
  have : u = v := by
    by_contra h; exact hu (hv u h)
  subst this
  refine ht (Prod.ext (hv t (fun h => e h.symm)) ?_)
  exact win_one hs hu _ fun h => e (hC.dist t u hl h).symm

/-- If thread `t` moves, no other thread gets the lock of the library. -/
theorem win_takes (hC : LegalWin C) (hs : WinStep C ws ws') {t u : Nat} (hl : C.tid t < C.total)
    (ht : (ws'.st.pc (.user t), ws'.mtx.pc (C.thr t)) ≠ (ws.st.pc (.user t), ws.mtx.pc (C.thr t)))
    (h1 : ws'.mtx.proc (C.P.rankT u) = some (C.thr u)) (h2 : ws.mtx.proc (C.P.rankT u) ≠ some (C.thr u)) :
    u = t ∧ ∃ l, ws.mtx.pc (C.thr t) = .wantProc l ∨ ws.mtx.pc (C.thr t) = .reProc l ∨
      ws.mtx.pc (C.thr t) = .relProc l := by
  rcases win_mtx hs with hm | e
  · obtain ⟨g1, g2, g3⟩ := mtx_takes hm h1 h2
    have : u = t := by
      by_contra e
      have hne : C.thr t ≠ C.thr u := fun h => e (hC.dist t u hl h).symm
      have hp : ws'.st.pc (.user t) ≠ ws.st.pc (.user t) := fun h => ht (Prod.ext h (g1 _ hne))
      exact g2 (win_one hs hp _ (Ne.symm hne))
    subst this
    exact ⟨rfl, g3⟩
  · rw [e] at h1; exact absurd h1 h2

/-- A thread in the lock that can not continue waits in the lock. -/
theorem win_blocked (hC : LegalWin C) (h : WinReach C ws) {t : Nat} (hi : ws.mtx.pc (C.thr t) ≠ .idle)
    (hn : ∀ x, ¬ WinMoves C t ws x) (m' : MtxState) : ¬ MtxMoves C.M (C.thr t) ws.mtx m' := by
  obtain ⟨h1, h2, hL⟩ := WinReach.all hC.dist hC.legal hC.window h
  have hk := hL.link t
  rcases win_can hC h (hL.busy_user hi) with ⟨s', h3⟩ | ⟨b, off, h3, -⟩ | ⟨b, off, s, old, h3, -⟩ | h3
  · exact absurd h3 (hn s')
  · exfalso
    revert hk hi
    rw [h3]
    cases ws.mtx.pc (C.thr t) with
    | idle => intro h; exact absurd rfl h
    | held => intro _ h; cases h
    | relProc | relWin | cas | recv | released => intro _ h; cases h.1
    | _ => intro _ h; cases h
  · exfalso
    revert hk hi
    rw [h3]
    cases ws.mtx.pc (C.thr t) with
    | idle => intro h; exact absurd rfl h
    | held => intro _ h; cases h
    | relProc | relWin | cas | recv | released => intro _ h; cases h.1
    | _ => intro _ h; cases h
  · exact h3.2 m'

/-- The lock of the library is released, if the threads that have it continue. -/
theorem win_lib (hC : LegalWin C) (hlib : C.lib = true) {σ : Nat → WinState α}
    (hr : ∀ n, WinReach C (σ n)) (hc : CourseOf (WinStep C) σ)
    (hf : FairLocksOf (WinMoves C) (fun t ws => ws.mtx.proc (C.P.rankT t) ≠ some (C.thr t)) σ) (t n : Nat) :
    ∃ m, n ≤ m ∧ (σ m).mtx.proc (C.P.rankT t) ≠ some (C.thr t) := by
  have hall := fun n => WinReach.all hC.dist hC.legal hC.window (hr n)
  have hproc : ∀ m u, (σ m).mtx.proc (C.P.rankT u) = some (C.thr u) ↔
      ((σ m).mtx.pc (C.thr u)).hasProc true = true := by
    intro m u
    obtain ⟨Q, hQ⟩ := MtxInv.reachable (hall m).2.1
    have := hQ.proc (C.P.rankT u) (C.thr u)
    rw [show C.M.lib = true from hlib] at this
    exact this.trans ⟨fun h => h.1, fun h => ⟨h, rfl⟩⟩
  have fwd : ∀ u n, (σ n).mtx.proc (C.P.rankT u) = some (C.thr u) →
      ((σ (n + 1)).st.pc (.user u) = (σ n).st.pc (.user u) ∧
        (σ (n + 1)).mtx.pc (C.thr u) = (σ n).mtx.pc (C.thr u)) ∨
      winLeft C (σ (n + 1)) u < winLeft C (σ n) u := by
    intro u n hn
    rcases hc n with hs | hs
    · exact win_forward hC (hr n) hs (win_proc_busy hC (hr n) hn).1
    · rw [hs]; exact .inl ⟨rfl, rfl⟩
  have lockc : CourseOf (MtxStep C.M false) (fun n => (σ n).mtx) := by
    intro n
    rcases hc n with hs | hs
    · exact win_mtx hs
    · exact .inr (by show (σ (n + 1)).mtx = _; rw [hs])
  have lockf : FairLocksOf (MtxMoves C.M) (fun T s => (s.pc T).hasProc true = false)
      (fun n => (σ n).mtx) := by
    intro T n
    by_cases hx : ∃ m, n ≤ m ∧ ((σ m).mtx.pc T).hasProc true = false
    · obtain ⟨m, h1, h2⟩ := hx
      exact ⟨m, h1, .inl h2⟩
    push Not at hx
    have hni : ∀ m, n ≤ m → (σ m).mtx.pc T ≠ .idle := fun m hm e => hx m hm (by rw [e]; rfl)
    obtain ⟨u, rfl⟩ := (hall n).2.2.busy T (hni n (Nat.le_refl _))
    have hu : ∀ m, n ≤ m → (σ m).mtx.proc (C.P.rankT u) = some (C.thr u) :=
      fun m hm => (hproc m u).2 (by simpa using hx m hm)
    obtain ⟨N, hN, hst⟩ := stuck_of_busy hf (fun s => winLeft C s u) (a := u)
      (fun n hn => by
        rcases fwd u n (not_not.1 hn) with ⟨h1, h2⟩ | h1
        · unfold winLeft; rw [h1, h2]
        · exact Nat.le_of_lt h1)
      (fun n hn hm => by
        rcases fwd u n (not_not.1 hn) with ⟨h1, h2⟩ | h1
        · rcases hm.2 with h3 | h3
          · exact absurd h1 h3
          · exact absurd h2 h3
        · exact h1) (n := n) (fun m hm => not_not.2 (hu m hm))
    exact ⟨N, hN, .inr (.inr fun k hk m' => win_blocked hC (hr k) (hni k (by omega)) (hst k hk) m')⟩
  obtain ⟨m, h1, h2⟩ := mtx_leaves (P := C.M) (O := fun p => p.hasProc true = false) rfl
    (fun p hp => .inr ⟨hlib, hp⟩) (hall 0).2.1 lockc lockf (C.thr t) n
  exact ⟨m, h1, fun e => by rw [(hproc m t).1 e] at h2; cases h2⟩

theorem win_starts (hs : WinStep C ws ws') {t : Nat} (h1 : (ws'.st.pc (.user t)).reading)
    (h2 : ¬ (ws.st.pc (.user t)).reading) :
    ∃ b off s, ws.st.pc (.user t) = .own b off s (.load 0) ∧ 0 < C.P.cells := by
  have user : ∀ u st', UserStep C.P u ws.st st' → ws'.st = st' →
      ∃ b off s, ws.st.pc (.user t) = .own b off s (.load 0) ∧ 0 < C.P.cells := by
    intro u st' hu e
    rw [e] at h1
    by_cases e1 : t = u
    · subst e1; exact starts_reading hu h1 h2
    · rw [user_other hu (user_ne e1)] at h1; exact absurd h1 h2
  have go : ∀ u b off s ph, ws'.st.pc = upd ws.st.pc (.user u) (.own b off s ph) →
      ¬ (Pc.own b off s ph : Pc α).reading → False := by
    intro u b off s ph e hn
    rw [e] at h1
    by_cases e2 : t = u
    · subst e2; rw [upd_self] at h1; exact hn h1
    · rw [upd_ne _ _ (user_ne e2)] at h1; exact h2 h1
  cases hs with
  | plain u st' _ _ _ hu => exact user u st' hu rfl
  | leave u l m' st' _ _ _ _ hu => exact user u st' hu rfl
  | call => exact absurd h1 h2
  | inside => exact absurd h1 h2
  | endCall => exact absurd h1 h2
  | delete u => exact (go u _ _ _ _ rfl id).elim
  | add u => exact (go u _ _ _ _ rfl id).elim
  | start u => exact (go u _ _ _ _ rfl id).elim

def live_win (hC : LegalWin C) (hrank : ∀ t, C.P.rankT t = rank t) :
    (C.sys c).Live rank ⟨Pc α × MtxPc, fun ws t => (ws.st.pc (.user t), ws.mtx.pc (C.thr t))⟩ where
  left := fun p => 16 * stepsLeft C.P p.1 + lockLeft p.2 p.1
  forward := by
    intro s x t hr hs hb
    rcases win_forward hC hr hs hb with ⟨e1, e2⟩ | h1
    · exact .inl (Prod.ext e1 e2)
    · exact .inr h1
  enter := by
    intro s x t hr hs hne hn e
    have idle : ∀ {y : WinState α}, WinReach C y → y.st.pc (.user t) = .idle → y.mtx.pc (C.thr t) = .idle := by
      intro y hy e
      by_contra hc
      exact (WinReach.all hC.dist hC.legal hC.window hy).2.2.busy_user hc e
    exact hne (Prod.ext (e.trans (not_not.1 hn).symm)
      ((idle (.step hr hs) e).trans (idle hr (not_not.1 hn)).symm))
  calm := by
    intro s x t hr hs hne hb
    have hl := (WinReach.all hC.dist hC.legal hC.window hr).2.2.live t hb
    refine ⟨fun u hx e => ?_, fun k u h1 h2 => ?_⟩
    · by_cases e1 : u = t
      · subst e1; exact hb e
      · exact hx ((win_calm hC hs hl e1 hne).trans e)
    · cases k with
      | mpi => exact (win_takes hC hs hl hne h1.2 fun e => h2 ⟨h1.1, e⟩).1
      | netcdf =>
        by_contra e1
        refine h2 ?_
        change (s.st.pc (.user u)).reading
        rw [← win_calm hC hs hl e1 hne]; exact h1
  acquire := by
    intro s x s2 t k hr hs hne hb h1 h2 hr2 e hb2 hfree
    obtain ⟨-, hM, hL⟩ := WinReach.all hC.dist hC.legal hC.window hr
    obtain ⟨hD2, hM2, hL2⟩ := WinReach.all hC.dist hC.legal hC.window hr2
    have hl := hL.live t hb
    have e1 : s2.st.pc (.user t) = s.st.pc (.user t) := congrArg Prod.fst e
    have e2 : s2.mtx.pc (C.thr t) = s.mtx.pc (C.thr t) := congrArg Prod.snd e
    cases k with
    | mpi =>
      obtain ⟨-, l, hp⟩ := win_takes hC hs hl hne h1.2 fun e => h2 ⟨h1.1, e⟩
      obtain ⟨Q, hQ⟩ := MtxInv.reachable hM
      have hn := hQ.lib (C.thr t) h1.1
      have hp : s2.mtx.pc (C.thr t) = .wantProc l := by
        rw [e2]
        rcases hp with hp | hp | hp
        · exact hp
        · rw [hp] at hn; cases hn
        · rw [hp] at hn; cases hn
      have hpr : s2.mtx.proc (C.thr t).rank = none := by
        by_contra hx
        obtain ⟨T, hT⟩ := Option.ne_none_iff_exists'.1 hx
        obtain ⟨Q2, hQ2⟩ := MtxInv.reachable hM2
        obtain ⟨h3, h4⟩ := (hQ2.proc _ _).1 hT
        obtain ⟨u, rfl⟩ := hL2.busy T (fun e => by rw [e] at h3; cases h3)
        have h4 : C.P.rankT u = C.P.rankT t := h4
        refine hfree u (by rw [← hrank, ← hrank, h4]) ⟨h1.1, ?_⟩
        rw [h4]; exact hT
      have hms := MtxStep.proc (P := C.M) (lateInit := false) s2.mtx (C.thr t) l hp hpr
      have hch : upd s2.mtx.pc (C.thr t) (.wantWin l) (C.thr t) ≠ s2.mtx.pc (C.thr t) := by
        rw [upd_self, hp]; nofun
      have hst : WinStep C s2 _ := .inside s2 _ hms (fun e => hch (congrFun e _)) (fun u hu => by
        change upd s2.mtx.pc (C.thr t) (.wantWin l) u ≠ s2.mtx.pc u at hu
        by_cases e3 : u = C.thr t
        · rw [e3, hp]; rfl
        · rw [upd_ne _ _ e3] at hu; exact absurd rfl hu)
      have hmv : (s2.st.pc (.user t), upd s2.mtx.pc (C.thr t) (.wantWin l) (C.thr t)) ≠
          (s2.st.pc (.user t), s2.mtx.pc (C.thr t)) := fun e => hch (congrArg Prod.snd e)
      refine ⟨_, hst, hmv, fun u hu => hu, fun k u h5 h6 => ?_⟩
      cases k with
      | netcdf => exact absurd h5 h6
      | mpi => exact ⟨rfl, (win_takes hC hst hl hmv h5.2 fun e => h6 ⟨h5.1, e⟩).1⟩
    | netcdf =>
      obtain ⟨b, off, sl, hp, hk⟩ := win_starts hs h1 h2
      have hp2 := e1.trans hp
      have hu := UserStep.loadCell (P := C.P) s2.st t b off sl 0 (C.P.file b 0) hp2 hk fun _ => rfl
      have hst : WinStep C s2 _ := .plain s2 t _ hl (by rw [hp2]; rfl) (by rw [hp2]; rfl) hu
      have hI := DistInv.reach hC.legal.domains hC.legal.size hC.legal.hand hD2
      refine ⟨_, hst, fun e => user_moves hI (by rw [hC.window]; nofun) hu (congrArg Prod.fst e),
        fun u hx e => hx ((quiet_user hu hb2).2 u e), fun k u h3 h4 => ?_⟩
      cases k with
      | mpi => exact absurd h3 h4
      | netcdf =>
        refine ⟨rfl, ?_⟩
        by_contra e
        refine h4 ?_
        change (s2.st.pc (.user u)).reading
        rw [← user_other hu (user_ne e)]; exact h3
  netcdf := by
    intro s t hr hu
    obtain ⟨hD, -, hL⟩ := WinReach.all hC.dist hC.legal hC.window hr
    obtain ⟨st', hs, e1, e2, e3⟩ := reading_step (P := C.P) hu
    have hI := DistInv.reach hC.legal.domains hC.legal.size hC.legal.hand hD
    refine ⟨{ s with st := st' }, .plain s t st' (hL.live t e3) e1 e2 hs,
      fun e => user_moves hI (by rw [hC.window]; nofun) hs (congrArg Prod.fst e),
      fun u hx e => hx ((quiet_user hs e3).2 u e), fun k u hk => ?_⟩
    cases k with
    | mpi => exact hk
    | netcdf =>
      by_cases e : u = t
      · subst e; exact hu
      · change (st'.pc (.user u)).reading at hk
        rw [user_other hs (user_ne e)] at hk; exact hk
  mpi := by
    intro σ h0 hc hf t n
    have hr := level_course h0 hc
    cases hlib : C.lib with
    | false => exact ⟨n, Nat.le_refl _, fun h => by have := h.1; rw [hlib] at this; cases this⟩
    | true =>
      obtain ⟨m, h1, h2⟩ := win_lib hC hlib hr hc (fair_mono hf
        (fun n t h e => h ⟨hlib, e⟩)
        (fun n t _ hm => ⟨hm.1, by rw [← not_and_or]; exact fun h => hm.2 (Prod.ext h.1 h.2)⟩)
        (fun n t s' _ hm => ⟨s', hm.1, fun e => by
          rcases hm.2 with h | h
          · exact h (congrArg Prod.fst e)
          · exact h (congrArg Prod.snd e)⟩)) t n
      exact ⟨m, h1, fun h => h2 h.2⟩
  returns := by
    intro σ h0 hc hf t n
    obtain ⟨m, h1, h2⟩ := C102_window hC h0 hc (fair_mono hf (fun n t h => not_not.1 h)
        (fun n t _ hm => ⟨hm.1, by rw [← not_and_or]; exact fun h => hm.2 (Prod.ext h.1 h.2)⟩)
        (fun n t s' _ hm => ⟨s', hm.1, fun e => by
          rcases hm.2 with h | h
          · exact h (congrArg Prod.fst e)
          · exact h (congrArg Prod.snd e)⟩)) t n
    exact ⟨m, h1, not_not.2 h2⟩

/-- All kinds of levels have what is needed. -/
theorem live_proper {f : OpenedFile α} {L : LevelSys α} {p : LevelPos L} (h : LiveLevel rank f L p) :
    ProperLevel rank f L ∧ Nonempty (L.Live rank p) := by
  induction h with
  | cacheWindow c S C ho hP hC hr => exact ⟨.cacheWindow c S C ho hP hC hr, ⟨live_win hC hr⟩⟩
  | cache c S ho hl hm hr => exact ⟨.cache c S ho hl hm hr, ⟨live_dist hl hm⟩⟩
  | full c X s0 lib ho hf hw hr => exact ⟨.full c X s0 lib ho hf hw hr, ⟨live_full ho hf (.inl hw) hr⟩⟩
  | passThrough c slot r team buf0 ho h1 h2 h3 =>
    exact ⟨.passThrough c slot r team buf0 ho h1 h2 h3, live_pass ho h2 h3 h1⟩
  | some L p R rank' team _ hR hg ih =>
    obtain ⟨h1, ⟨h2⟩⟩ := ih
    exact ⟨.some L R rank' team h1 hR hg, ⟨live_only (good_proper h1).toSafe h2 fun t u ht hu e => by
      rw [← hg t ht, ← hg u hu, e]⟩⟩

end Asagi
