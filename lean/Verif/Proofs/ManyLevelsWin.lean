import Verif.Proofs.ManyLevels
import Verif.Proofs.WinCacheLive
import Verif.Props.WinCache
/-
Several levels at the same time: the caches with MPI windows.
-/
namespace Asagi
open Spec Props
variable {β : Type} {C : WinParams β} {ws ws' : WinState β}

/-- Nobody gets the mutex of a process. -/
def ProcLe (s s' : MtxState) : Prop := ∀ r T, s'.proc r = some T → s.proc r = some T

/-- With THREADSAFE_MPI, a thread with the lock of the library never waits for the lock of another process: if
there is one, then some thread can continue without getting the lock of the library. -/
theorem mtx_lib_progress {P : MtxParams} {s : MtxState} (hlib : P.lib = true) (h : MtxReach P false s)
    {t : Thr} (ht : (s.pc t).hasProc true = true) :
    ∃ t s', s.pc t ≠ .idle ∧ MtxStep P false s s' ∧ s'.pc t ≠ s.pc t ∧ ProcLe s s' := by
  obtain ⟨Q, hI⟩ := MtxInv.reachable h
  have mk : ∀ (t : Thr) (s' : MtxState) (p : MtxPc), MtxStep P false s s' → s'.pc = upd s.pc t p →
      s.pc t ≠ .idle → p ≠ s.pc t → ProcLe s s' →
      ∃ t s', s.pc t ≠ .idle ∧ MtxStep P false s s' ∧ s'.pc t ≠ s.pc t ∧ ProcLe s s' := by
    intro t s' p hs e hne hp hle
    exact ⟨t, s', hne, hs, by rw [e, upd_self]; exact hp, hle⟩
  have same : ∀ m : Nat → Option Thr, ∀ r T, (if P.lib then s.proc else m) r = some T →
      s.proc r = some T := by
    intro m r T e; rw [if_pos hlib] at e; exact e
  have hasWin : ∀ v l, (s.pc v).hasWin = some l →
      ∃ t s', s.pc t ≠ .idle ∧ MtxStep P false s s' ∧ s'.pc t ≠ s.pc t ∧ ProcLe s s' := by
    intro v l hv
    cases hp : s.pc v with
    | swap l =>
      by_cases hm : s.mem l < 0
      · exact mk v _ _ (.acquire s v l hp hm) rfl (by rw [hp]; simp) (by rw [hp]; simp) fun _ _ h => h
      · exact mk v _ _ (.enqueue s v l hp (by omega)) rfl (by rw [hp]; simp) (by rw [hp]; simp) fun _ _ h => h
    | swapped l old =>
      exact mk v _ _ (.wait s v l old hp) rfl (by rw [hp]; simp) (by rw [hp]; simp) (same _)
    | update l => exact mk v _ _ (.hold s v l hp) rfl (by rw [hp]; simp) (by rw [hp]; simp) (same _)
    | cas l =>
      by_cases hm : s.mem l = P.lockId v
      · exact mk v _ _ (.free s v l hp hm) rfl (by rw [hp]; simp) (by rw [hp]; simp) fun _ _ h => h
      · exact mk v _ _ (.contended s v l hp hm) rfl (by rw [hp]; simp) (by rw [hp]; simp) fun _ _ h => h
    | recv l =>
      obtain ⟨u, hw, -, -⟩ := C36_release P s h v l hp
      have hwin := (hI.win (P.home l) v).2 ⟨l, by rw [hp]; rfl, rfl⟩
      obtain ⟨rest, hq⟩ := hI.cons_of_owns (t := v) (l := l) (by rw [hp]; rfl)
      have hlen := hI.recv l v hp
      cases rest with
      | nil => rw [hq] at hlen; simp at hlen
      | cons u r =>
        have hnd := hI.nodup l
        rw [hq] at hnd
        have htu : v ≠ u := fun e => (List.nodup_cons.1 hnd).1 (by rw [e]; simp)
        have hw : (s.pc u).waits = some l := by
          rcases (hI.mem_iff l u).1 (by rw [hq]; simp) with e | e
          · have := (hI.head l u).2 e
            rw [hq] at this; exact absurd (Option.some.inj this) htu
          · exact e
        have hb := hI.chain l 0 v u (by rw [hq]; rfl) (by rw [hq]; rfl)
        have hwt := hI.wf v (by rw [hp]; simp)
        cases hpu : s.pc u with
        | swapped l' old =>
          rw [hpu] at hw
          have : l' = l := Option.some.inj hw
          subst this
          have := (hI.win (P.home l') u).2 ⟨l', by rw [hpu]; rfl, rfl⟩
          rw [hwin] at this; exact absurd (Option.some.inj this) htu
        | sending l' dest tag =>
          rw [hpu] at hw hb
          have : l' = l := Option.some.inj hw
          subst this
          obtain ⟨hb1, hb2⟩ := hb
          rw [lockId_div hwt] at hb1
          rw [lockId_mod hwt] at hb2
          refine ⟨v, _, by rw [hp]; simp, .handOver s v u l' l' dest tag hp hpu hb1 hb2, ?_, fun _ _ h => h⟩
          change upd (upd s.pc v _) u _ v ≠ _
          rw [upd_ne _ _ htu, upd_self, hp]; nofun
        | _ => rw [hpu] at hw; cases hw
    | released l =>
      refine mk v _ _ (.leave s v l hp) rfl (by rw [hp]; simp) (by rw [hp]; simp) fun r T e => ?_
      change upd s.proc v.rank none r = _ at e
      rw [upd_apply] at e
      split at e
      · cases e
      · exact e
    | _ => rw [hp] at hv; cases hv
  have window : ∀ v l, s.pc v = .wantWin l ∨ s.pc v = .reWin l ∨ s.pc v = .relWin l →
      ∃ t s', s.pc t ≠ .idle ∧ MtxStep P false s s' ∧ s'.pc t ≠ s.pc t ∧ ProcLe s s' := by
    intro v l hv
    cases hw : s.win (P.home l) with
    | some x => obtain ⟨l', h1, _⟩ := (hI.win _ x).1 hw; exact hasWin x l' h1
    | none =>
      rcases hv with hp | hp | hp
      · exact mk v _ _ (.win s v l hp hw) rfl (by rw [hp]; simp) (by rw [hp]; simp) fun _ _ h => h
      · exact mk v _ _ (.reWin s v l hp hw) rfl (by rw [hp]; simp) (by rw [hp]; simp) fun _ _ h => h
      · exact mk v _ _ (.relWin s v l hp hw) rfl (by rw [hp]; simp) (by rw [hp]; simp) fun _ _ h => h
  have owner : ∀ v l, (s.pc v).owns = some l →
      ∃ t s', s.pc t ≠ .idle ∧ MtxStep P false s s' ∧ s'.pc t ≠ s.pc t ∧ ProcLe s s' := by
    intro v l hv
    have hn := hI.lib v hlib
    cases hp : s.pc v with
    | reWin l => exact window v l (.inr (.inl hp))
    | relWin l => exact window v l (.inr (.inr hp))
    | update l => exact hasWin v l (by rw [hp]; rfl)
    | cas l => exact hasWin v l (by rw [hp]; rfl)
    | recv l => exact hasWin v l (by rw [hp]; rfl)
    | held l =>
      refine mk v _ _ (.endCall s v l hp) rfl (by rw [hp]; simp) ?_ fun _ _ h => h
      rw [hp]; split <;> simp
    | reProc l | relProc l => rw [hp] at hn; cases hn
    | _ => rw [hp] at hv; cases hv
  cases hp : s.pc t with
  | wantWin l => exact window t l (.inl hp)
  | reWin l => exact window t l (.inr (.inl hp))
  | relWin l => exact window t l (.inr (.inr hp))
  | swap l => exact hasWin t l (by rw [hp]; rfl)
  | swapped l old => exact hasWin t l (by rw [hp]; rfl)
  | update l => exact hasWin t l (by rw [hp]; rfl)
  | cas l => exact hasWin t l (by rw [hp]; rfl)
  | recv l => exact hasWin t l (by rw [hp]; rfl)
  | released l => exact hasWin t l (by rw [hp]; rfl)
  | held l => exact owner t l (by rw [hp]; rfl)
  | sending l d g =>
    have hin := (hI.mem_iff l t).2 (.inr (by rw [hp]; rfl))
    cases hq : Q l with
    | nil => rw [hq] at hin; cases hin
    | cons a r => exact owner a l ((hI.head l a).1 (by rw [hq]; rfl))
  | _ => rw [hp] at ht; cases ht

/-- The same for the caches. -/
theorem WinLink.lib_progress (hm : C.P.mode = .window) (hlib : C.lib = true)
    (hM : MtxReach C.M false ws.mtx) (hL : WinLink C ws) {T : Thr}
    (hT : (ws.mtx.pc T).hasProc true = true) : ∃ ws', WinQuiet C ws ws' ∧ ProcLe ws.mtx ws'.mtx := by
  obtain ⟨T', m', hne, hs, hch, hle⟩ := mtx_lib_progress (P := C.M) hlib hM hT
  by_cases hin : ∀ u, m'.pc u ≠ ws.mtx.pc u → (ws.mtx.pc u).inside = true
  · exact ⟨_, ⟨.inside ws m' hs (fun e => hch (by rw [e])) hin, fun _ h => h⟩, hle⟩
  simp only [not_forall] at hin
  obtain ⟨U, hU, hUi⟩ := hin
  have hUi : (ws.mtx.pc U).inside = false := by simpa using hUi
  have hUT : T' = U := by
    by_contra h1
    exact hch (mtx_single hs hUi hU T' h1)
  subst hUT
  obtain ⟨t, rfl⟩ := hL.busy T' hne
  have hk := hL.link t
  have same : ∀ m : Nat → Option Thr, ∀ r T, (if C.M.lib then ws.mtx.proc else m) r = some T →
      ws.mtx.proc r = some T := by
    intro m r T e; rw [if_pos (show C.M.lib = true from hlib)] at e; exact e
  cases hp : ws.mtx.pc (C.thr t) with
  | idle => exact absurd hp hne
  | update l =>
    rw [hp] at hk
    have hq : ∀ b off s ph ph' (st1 : DistState β), ws.st.pc (.user t) = .own b off s ph →
        st1.pc = ws.st.pc → ∀ u, ws.st.pc (.user u) = .idle → (st1.goto t b off s ph').pc (.user u) = .idle := by
      intro b off s ph ph' st1 h1 h2 u h3
      have e : u ≠ t := by rintro rfl; rw [h1] at h3; cases h3
      show upd st1.pc _ _ _ = _
      rw [upd_ne _ _ (user_ne e), h2]; exact h3
    change (ws.st.pc (.user t)).wantsEntry = some l at hk
    unfold Pc.wantsEntry at hk
    split at hk
    · next b off s o he =>
      injection hk with hk; subst hk
      exact ⟨_, ⟨.delete ws t b off s o _ he hp (upd_self ..) (.delete ws.mtx _ _ hp), hq _ _ _ _ _ _ he rfl⟩,
        fun _ _ h => h⟩
    · next b off s he =>
      injection hk with hk; subst hk
      exact ⟨_, ⟨.add ws t b off s _ he hp (upd_self ..) (.hold ws.mtx _ _ hp), hq _ _ _ _ _ _ he rfl⟩, same _⟩
    · next b off s he =>
      injection hk with hk; subst hk
      exact ⟨_, ⟨.start ws t b off s 0 _ he hp (upd_self ..) (.hold ws.mtx _ _ hp), hq _ _ _ _ _ _ he rfl⟩, same _⟩
    · cases hk
  | held l =>
    rw [hp] at hk
    change (ws.st.pc (.user t)).entryOf = some l at hk
    cases hx : (ws.st.pc (.user t)).leavesLib with
    | true =>
      refine ⟨_, ⟨.endCall ws t l _ hx hp ?_ (.endCall ws.mtx _ _ hp), fun _ h => h⟩, fun _ _ h => h⟩
      show upd _ _ _ _ ≠ _
      rw [upd_self]; split <;> nofun
    | false =>
      obtain ⟨st', hu⟩ := inLib_enabled hm (entry_inLib hk)
      have hw : (ws.st.pc (.user t)).wantsEntry = none := by
        cases hy : (ws.st.pc (.user t)).wantsEntry with
        | none => rfl
        | some l => rw [wants_entry hy] at hk; cases hk
      exact ⟨_, ⟨.plain ws t st' (hL.live t (entry_idle hk)) hw hx hu, (quiet_user hu (entry_idle hk)).2⟩,
        fun _ _ h => h⟩
  | released l =>
    rw [hp] at hk
    obtain ⟨st', hu⟩ := inLib_enabled hm (entry_inLib hk.1)
    refine ⟨_, ⟨.leave ws t l _ st' hk.2 hp (upd_self ..) (.leave ws.mtx _ _ hp) hu,
      (quiet_user hu (entry_idle hk.1)).2⟩, fun r T e => ?_⟩
    change upd ws.mtx.proc _ none r = _ at e
    rw [upd_apply] at e
    split at e
    · cases e
    · exact e
  | _ => rw [hp] at hUi; cases hUi

/-- A step of the lock gives the mutex of a process to one thread at most. -/
theorem mtx_proc_single {M : MtxParams} {m m' : MtxState} (hs : MtxStep M false m m') {r r' : Nat}
    {T T' : Thr} (h1 : m'.proc r = some T) (h2 : m.proc r ≠ some T) (h3 : m'.proc r' = some T')
    (h4 : m.proc r' ≠ some T') : T = T' := by
  have key : ∀ X, m'.proc = upd m.proc X.rank (some X) → T = T' := by
    intro X e
    rw [e, upd_apply] at h1 h3
    split at h1
    · split at h3
      · rw [h1] at h3; exact Option.some.inj h3
      · exact absurd h3 h4
    · exact absurd h1 h2
  have none : ∀ X, m'.proc = upd m.proc X none → T = T' := by
    intro X e
    rw [e, upd_apply] at h1
    split at h1
    · cases h1
    · exact absurd h1 h2
  cases hs with
  | proc t l => exact key t rfl
  | reProc t l => exact key t rfl
  | relProc t l => exact key t rfl
  | leave t l => exact none _ rfl
  | wait t l old =>
    by_cases hl : M.lib = true
    · simp only [hl, if_true] at h1; exact absurd h1 h2
    · exact none t.rank (by simp only [hl]; rfl)
  | hold t l =>
    by_cases hl : M.lib = true
    · simp only [hl, if_true] at h1; exact absurd h1 h2
    · exact none t.rank (by simp only [hl]; rfl)
  | _ => exact absurd h1 h2

/-- A step changes the position of one thread at most, in the caches. -/
theorem win_pc_single (h : WinStep C ws ws') : ∃ t, ∀ u, u ≠ t → ws'.st.pc (.user u) = ws.st.pc (.user u) := by
  cases h with
  | plain t st' _ _ _ hu => exact ⟨t, fun u e => user_other hu (user_ne e)⟩
  | leave t l m' st' _ _ _ _ hu => exact ⟨t, fun u e => user_other hu (user_ne e)⟩
  | call => exact ⟨0, fun _ _ => rfl⟩
  | inside => exact ⟨0, fun _ _ => rfl⟩
  | endCall => exact ⟨0, fun _ _ => rfl⟩
  | delete t => exact ⟨t, fun u e => upd_ne _ _ (user_ne e)⟩
  | add t => exact ⟨t, fun u e => upd_ne _ _ (user_ne e)⟩
  | start t => exact ⟨t, fun u e => upd_ne _ _ (user_ne e)⟩

theorem reading_load {p : Pc β} (h : p.reading) : ∃ b off s k, p = .own b off s (.load k) ∧ 0 < k := by
  unfold Pc.reading at h
  split at h
  · next b off s k => exact ⟨b, off, s, k, rfl, h⟩
  · exact h.elim

/-- A thread that reads the file can continue. -/
theorem reading_step {P : DistParams β} {st : DistState β} {t : Nat} (h : (st.pc (.user t)).reading) :
    ∃ st', UserStep P t st st' ∧ (st.pc (.user t)).wantsEntry = none ∧
      (st.pc (.user t)).leavesLib = false ∧ st.pc (.user t) ≠ .idle := by
  obtain ⟨b, off, s, k, hp, -⟩ := reading_load h
  by_cases hk : k < P.cells
  · exact ⟨_, .loadCell st t b off s k (P.file b k) hp hk fun _ => rfl, by rw [hp]; rfl, by rw [hp]; rfl,
      by rw [hp]; nofun⟩
  · exact ⟨_, .loadDone st t b off s k hp (by omega), by rw [hp]; rfl, by rw [hp]; rfl, by rw [hp]; nofun⟩

theorem sys_quiet_win {c : LevelCfg β} : (C.sys c).Quiet ws ws' ↔ WinQuiet C ws ws' :=
  ⟨fun h => ⟨h.1, fun t e => by by_contra hn; exact h.2 t hn e⟩,
   fun h => ⟨h.1, fun t hb e => hb (h.2 t e)⟩⟩

theorem sys_run_win {c : LevelCfg β} {n : Nat} {ws ws' : (C.sys c).S} (h : (C.sys c).QuietRun n ws ws') :
    WinQuietRun C n ws ws' := by
  induction h with
  | zero => exact .zero _
  | succ _ hq ih => exact .succ ih (sys_quiet_win.1 hq)

theorem sys_during_win {c : LevelCfg β} {t : Nat} {ws ws' : (C.sys c).S} (h : (C.sys c).During t ws ws') :
    WinDuring C t ws ws' := by
  induction h with
  | refl => exact .refl _
  | tail _ hs hb ih => exact .tail ih hs hb

theorem win_proc_busy (hC : LegalWin C) (h : WinReach C ws) {t : Nat}
    (hp : ws.mtx.proc (C.P.rankT t) = some (C.thr t)) :
    ws.st.pc (.user t) ≠ .idle ∧ C.tid t < C.total ∧ (ws.mtx.pc (C.thr t)).hasProc C.lib = true := by
  obtain ⟨h1, h2, hL⟩ := WinReach.all hC.dist hC.legal hC.window h
  obtain ⟨Q, hQ⟩ := MtxInv.reachable h2
  have hpr := ((hQ.proc _ _).1 hp).1
  change (ws.mtx.pc (C.thr t)).hasProc C.lib = true at hpr
  have hne : ws.mtx.pc (C.thr t) ≠ .idle := by intro e; rw [e] at hpr; cases hpr
  have hb : ws.st.pc (.user t) ≠ .idle := by
    have hk := hL.link t
    revert hk hne
    cases ws.mtx.pc (C.thr t) with
    | idle => intro h; exact absurd rfl h
    | held => intro _ hk; exact entry_idle hk
    | relProc | relWin | cas | recv | released => intro _ hk; exact entry_idle hk.1
    | wantProc | wantWin | swap | swapped | sending | reProc | reWin | update =>
      intro _ hk; exact wants_idle hk
  exact ⟨hb, hL.live t hb, hpr⟩

theorem good_win {c : LevelCfg β} {S : SharedCfg β} {f : OpenedFile β} (ho : Opened f.fp f.cc f.nc f.val c)
    (hP : C.P = c.shared S) (hC : LegalWin C) : (C.sys c).Good f where
  fresh := by rintro s t ⟨l, -, rfl⟩ h; exact h rfl
  usesBusy := by
    intro s k t h hu
    cases k with
    | mpi => exact (win_proc_busy hC h hu.2).1
    | netcdf =>
      obtain ⟨b, off, sl, k, hp, -⟩ := reading_load hu
      intro e; rw [hp] at e; cases e
  single := by
    intro s x k t u h hs h1 h2 h3 h4
    cases k with
    | mpi =>
      have hb := win_proc_busy hC (.step h hs) h1.2
      have ne : ∀ v, (C.sys c).uses .mpi x v → ¬ (C.sys c).uses .mpi s v → s.mtx.proc (C.P.rankT v) ≠ some (C.thr v) :=
        fun v a b e => b ⟨a.1, e⟩
      refine hC.dist t u hb.2.1 ?_
      have key : ∀ m', MtxStep C.M false s.mtx m' → x.mtx = m' → C.thr t = C.thr u := by
        rintro m' hms rfl
        exact mtx_proc_single hms h1.2 (ne t h1 h2) h3.2 (ne u h3 h4)
      cases hs with
      | plain => exact absurd h1.2 (ne t h1 h2)
      | call _ _ m' _ _ _ hms => exact key m' hms rfl
      | inside m' hms => exact key m' hms rfl
      | delete _ _ _ _ _ m' _ _ _ hms => exact key m' hms rfl
      | add _ _ _ _ m' _ _ _ hms => exact key m' hms rfl
      | start _ _ _ _ _ m' _ _ _ hms => exact key m' hms rfl
      | endCall _ _ m' _ _ _ hms => exact key m' hms rfl
      | leave _ _ m' _ _ _ _ hms => exact key m' hms rfl
    | netcdf =>
      obtain ⟨v, hv⟩ := win_pc_single hs
      have e1 : t = v := by
        by_contra e; refine h2 ?_; change (s.st.pc (.user t)).reading; rw [← hv t e]; exact h1
      have e2 : u = v := by
        by_contra e; refine h4 ?_; change (s.st.pc (.user u)).reading; rw [← hv u e]; exact h3
      rw [e1, e2]
  free := by
    intro s t h hb
    obtain ⟨x, hx⟩ := C81_no_deadlock hC h t hb
    exact ⟨x, sys_quiet_win.2 hx⟩
  mpi := by
    intro s t h hu
    have hp := (win_proc_busy hC h hu.2).2.2
    obtain ⟨h1, h2, hL⟩ := WinReach.all hC.dist hC.legal hC.window h
    rw [hu.1] at hp
    obtain ⟨x, hq, hle⟩ := hL.lib_progress hC.window hu.1 h2 hp
    exact ⟨x, sys_quiet_win.2 hq, fun u hu => ⟨hu.1, hle _ _ hu.2⟩⟩
  netcdf := by
    intro s t h hu
    obtain ⟨h1, h2, hL⟩ := WinReach.all hC.dist hC.legal hC.window h
    obtain ⟨st', hs, e1, e2, e3⟩ := reading_step (P := C.P) hu
    refine ⟨{ s with st := st' }, sys_quiet_win.2 ⟨.plain s t st' (hL.live t e3) e1 e2 hs, (quiet_user hs e3).2⟩,
      fun k u hk => ?_⟩
    cases k with
    | mpi => exact hk
    | netcdf =>
      by_cases e : u = t
      · subst e; exact hu
      · change (st'.pc (.user u)).reading at hk
        rw [user_other hs (user_ne e)] at hk; exact hk
  bound := by
    intro s h
    obtain ⟨N, hN⟩ := C81_every_access_returns hC h
    exact ⟨N, fun n x hr => (hN n x (sys_run_win hr)).1⟩
  value := by
    intro s s1 s2 t pos idx v h hs hc hd hv hp
    exact C81_value ho S hP hC h t pos idx hp hs hc (sys_during_win hd) v hv

end Asagi
