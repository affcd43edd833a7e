import Verif.Proofs.WinCache
import Verif.Spec.WinCache
import Verif.Props.MpiMutex
/-
The caches with MPI windows and the implemented lock: no deadlock, and all calls return.
-/
namespace Asagi
open Spec Props
variable {β : Type} {C : WinParams β} {ws ws' : WinState β} {st st' : DistState β}
  {P : DistParams β}

theorem _root_.Asagi.Spec.LegalWin.dist (h : LegalWin C) : C.Distinct := by
  intro t u ht e
  unfold WinParams.thr at e
  injection e with e1 e2
  exact h.distinct t u ht e1 e2

/-- Whenever a thread is in the lock, somebody can continue. -/
theorem WinLink.lock_progress (hm : C.P.mode = .window) (hM : MtxReach C.M false ws.mtx)
    (hL : WinLink C ws) {T : Thr} (hT : ws.mtx.pc T ≠ .idle) : ∃ ws', WinQuiet C ws ws' := by
  obtain ⟨T', m', hne, hs, hch⟩ := C36_progress C.M ws.mtx hM T hT
  by_cases hin : ∀ u, m'.pc u ≠ ws.mtx.pc u → (ws.mtx.pc u).inside = true
  · exact ⟨_, .inside ws m' hs (fun e => hch (by rw [e])) hin, fun _ h => h⟩
  simp only [not_forall] at hin
  obtain ⟨U, hU, hUi⟩ := hin
  have hUi : (ws.mtx.pc U).inside = false := by simpa using hUi
  have hUT : T' = U := by
    by_contra h1
    exact hch (mtx_single hs hUi hU T' h1)
  subst hUT
  obtain ⟨t, rfl⟩ := hL.busy T' hne
  have hk := hL.link t
  cases hp : ws.mtx.pc (C.thr t) with
  | idle => exact absurd hp hne
  | update l =>
    rw [hp] at hk
    have hq : ∀ b off s ph ph' (st1 : DistState β), ws.st.pc (.user t) = .own b off s ph →
        st1.pc = ws.st.pc → ∀ u, ws.st.pc (.user u) = .idle → (st1.goto t b off s ph').pc (.user u) = .idle := by
      intro b off s ph ph' st1 h1 h2 u h3
      have e : u ≠ t := by rintro rfl; rw [h1] at h3; cases h3
      show upd st1.pc _ _ _ = _
      rw [upd_ne _ _ (user_ne e), h2]; exact h3
    change (ws.st.pc (.user t)).wantsEntry = some l at hk
    unfold Pc.wantsEntry at hk
    split at hk
    · next b off s o he =>
      injection hk with hk; subst hk
      exact ⟨_, .delete ws t b off s o _ he hp (upd_self ..) (.delete ws.mtx _ _ hp), hq _ _ _ _ _ _ he rfl⟩
    · next b off s he =>
      injection hk with hk; subst hk
      exact ⟨_, .add ws t b off s _ he hp (upd_self ..) (.hold ws.mtx _ _ hp), hq _ _ _ _ _ _ he rfl⟩
    · next b off s he =>
      injection hk with hk; subst hk
      exact ⟨_, .start ws t b off s 0 _ he hp (upd_self ..) (.hold ws.mtx _ _ hp), hq _ _ _ _ _ _ he rfl⟩
    · cases hk
  | held l =>
    rw [hp] at hk
    change (ws.st.pc (.user t)).entryOf = some l at hk
    cases hx : (ws.st.pc (.user t)).leavesLib with
    | true =>
      refine ⟨_, .endCall ws t l _ hx hp ?_ (.endCall ws.mtx _ _ hp), fun _ h => h⟩
      show upd _ _ _ _ ≠ _
      rw [upd_self]; split <;> nofun
    | false =>
      obtain ⟨st', hu⟩ := inLib_enabled hm (entry_inLib hk)
      have hw : (ws.st.pc (.user t)).wantsEntry = none := by
        cases hy : (ws.st.pc (.user t)).wantsEntry with
        | none => rfl
        | some l => rw [wants_entry hy] at hk; cases hk
      exact ⟨_, .plain ws t st' (hL.live t (entry_idle hk)) hw hx hu, (quiet_user hu (entry_idle hk)).2⟩
  | released l =>
    rw [hp] at hk
    obtain ⟨st', hu⟩ := inLib_enabled hm (entry_inLib hk.1)
    exact ⟨_, .leave ws t l _ st' hk.2 hp (upd_self ..) (.leave ws.mtx _ _ hp) hu, (quiet_user hu (entry_idle hk.1)).2⟩
  | _ => rw [hp] at hUi; cases hUi

theorem WinReach.progress (hC : LegalWin C) (h : WinReach C ws) {t : Nat}
    (hn : ws.st.pc (.user t) ≠ .idle) : ∃ ws', WinQuiet C ws ws' := by
  obtain ⟨h1, h2, hL⟩ := WinReach.all hC.dist hC.legal hC.window h
  have hI := DistInv.reach hC.legal.domains hC.legal.size hC.legal.hand h1
  obtain ⟨st', hq⟩ := hI.progress hn
  have hm : C.P.mode ≠ .thread := by rw [hC.window]; nofun
  rcases quiet_cases hq with ⟨u, hu, hne⟩ | ⟨r, hc⟩
  · cases hw : (ws.st.pc (.user u)).wantsEntry with
    | some l =>
      by_cases hi : ws.mtx.pc (C.thr u) = .idle
      · exact ⟨_, .call ws u l _ hw hi (upd_self ..) (.call ws.mtx _ l (hL.live u hne) hi), fun _ h => h⟩
      · exact hL.lock_progress hC.window h2 hi
    | none =>
      cases hl : (ws.st.pc (.user u)).leavesLib with
      | false => exact ⟨_, .plain ws u st' (hL.live u hne) hw hl hu, hq.2⟩
      | true =>
        refine hL.lock_progress hC.window h2 (T := C.thr u) fun hi => ?_
        have := hL.link u
        rw [hi] at this
        obtain ⟨l, hl⟩ := leaves_entry hl
        rw [WinMatch, hl] at this; cases this
  · exact absurd hc (no_comm_idle hI hm (comm_idle hC.legal hm h1 r))

/-! ### Termination -/

/-- Remaining steps in the lock. -/
def lockLeft (m : MtxPc) (p : Pc β) : Nat :=
  match m with
  | .idle => if p.wantsEntry = none then 0 else 15
  | m => 14 - mtxPlace m

/-- Bound for the remaining steps of a thread. -/
def winLeft (C : WinParams β) (ws : WinState β) (t : Nat) : Nat :=
  16 * stepsLeft C.P (ws.st.pc (.user t)) + lockLeft (ws.mtx.pc (C.thr t)) (ws.st.pc (.user t))

theorem lockLeft_le (m : MtxPc) (p : Pc β) : lockLeft m p ≤ 15 := by
  unfold lockLeft
  split
  · split <;> omega
  · omega

theorem lockLeft_place {m : MtxPc} (h : m ≠ .idle) (p : Pc β) : lockLeft m p = 14 - mtxPlace m := by
  unfold lockLeft
  split
  · exact absurd rfl h
  · rfl

theorem place_lt {m : MtxPc} (h : m ≠ .idle) : mtxPlace m < 14 := by
  cases m <;> first | exact absurd rfl h | simp [mtxPlace]

theorem winQuiet_lt (hC : LegalWin C) (h : WinReach C ws) {L : List Nat}
    (hLs : ∀ t, ws.st.pc (.user t) ≠ .idle → t ∈ L) (hq : WinQuiet C ws ws') :
    (L.map (winLeft C ws')).sum < (L.map (winLeft C ws)).sum := by
  obtain ⟨h1, h2, hL⟩ := WinReach.all hC.dist hC.legal hC.window h
  have hI := DistInv.reach hC.legal.domains hC.legal.size hC.legal.hand h1
  have hm : C.P.mode ≠ .thread := by rw [hC.window]; nofun
  obtain ⟨hs, hidle⟩ := hq
  have hstep := (hL.step hC.dist hC.window hI h2 hs).1
  -- a step of one thread in the cache
  have one : ∀ t, ws.st.pc (.user t) ≠ .idle → UserStep C.P t ws.st ws'.st →
      (∀ U, U ≠ C.thr t → ws'.mtx.pc U = ws.mtx.pc U) →
      lockLeft (ws'.mtx.pc (C.thr t)) (ws'.st.pc (.user t)) ≤ 15 + lockLeft (ws.mtx.pc (C.thr t)) (ws.st.pc (.user t)) →
      (L.map (winLeft C ws')).sum < (L.map (winLeft C ws)).sum := by
    intro t hn hu hsg hle
    have hlt := stepsLeft_lt hI hm hu hn
    refine sum_lt (u := t) (fun x => ?_) (hLs t hn) ?_
    · by_cases e : x = t
      · subst e; unfold winLeft; omega
      · unfold winLeft
        rw [user_other hu (user_ne e), hsg _ (fun y => e (hC.dist t x (hL.live t hn) y.symm).symm)]
        exact Nat.le_refl _
    · unfold winLeft; omega
  -- steps of the lock only
  have lock : ws'.st = ws.st →
      (∀ x, lockLeft (ws'.mtx.pc (C.thr x)) (ws.st.pc (.user x)) ≤
        lockLeft (ws.mtx.pc (C.thr x)) (ws.st.pc (.user x))) →
      (∃ t, ws.st.pc (.user t) ≠ .idle ∧ lockLeft (ws'.mtx.pc (C.thr t)) (ws.st.pc (.user t)) <
        lockLeft (ws.mtx.pc (C.thr t)) (ws.st.pc (.user t))) →
      (L.map (winLeft C ws')).sum < (L.map (winLeft C ws)).sum := by
    rintro e hle ⟨t, hn, hlt⟩
    refine sum_lt (u := t) (fun x => ?_) (hLs t hn) ?_
    · unfold winLeft; rw [e]; have := hle x; omega
    · unfold winLeft; rw [e]; omega
  -- a thread in the lock is inside of a getter
  have busy : ∀ t, ws.mtx.pc (C.thr t) ≠ .idle → ws.st.pc (.user t) ≠ .idle := by
    intro t ht
    have hk := hL.link t
    revert hk ht
    cases ws.mtx.pc (C.thr t) with
    | idle => intro h; exact absurd rfl h
    | held => intro _ hk; exact entry_idle hk
    | relProc | relWin | cas | recv | released => intro _ hk; exact entry_idle hk.1
    | wantProc | wantWin | swap | swapped | sending | reProc | reWin | update =>
      intro _ hk; exact wants_idle hk
  -- a step of the lock moves threads forward
  have adv : ∀ m', MtxStep C.M false ws.mtx m' → (∀ T, ws.mtx.pc T = .idle → m'.pc T = .idle) →
      (∀ T, m'.pc T = .idle → ws.mtx.pc T = .idle) → m'.pc ≠ ws.mtx.pc →
      (∀ x (p : Pc β), lockLeft (m'.pc (C.thr x)) p ≤ lockLeft (ws.mtx.pc (C.thr x)) p) ∧
      ∃ t, ws.st.pc (.user t) ≠ .idle ∧ ∀ p : Pc β,
        lockLeft (m'.pc (C.thr t)) p < lockLeft (ws.mtx.pc (C.thr t)) p := by
    intro m' hms hi1 hi2 hne
    rcases C36_advance C.M ws.mtx m' hms with e | ⟨T, l, e1, e2⟩ | ⟨a1, T, a2⟩
    · exact absurd e hne
    · have := hi1 T e1
      rw [e2, upd_self] at this; cases this
    · refine ⟨fun x p => ?_, ?_⟩
      · by_cases hx : ws.mtx.pc (C.thr x) = .idle
        · rw [hi1 _ hx, hx]; exact Nat.le_refl _
        · rw [lockLeft_place hx, lockLeft_place (fun y => hx (hi2 _ y))]
          have := a1 (C.thr x)
          omega
      · have hT : ws.mtx.pc T ≠ .idle := by
          intro y
          rw [hi1 _ y, y] at a2; exact Nat.lt_irrefl _ a2
        obtain ⟨t, rfl⟩ := hL.busy T hT
        refine ⟨t, busy t hT, fun p => ?_⟩
        rw [lockLeft_place hT, lockLeft_place (fun y => hT (hi2 _ y))]
        have := place_lt (fun y => hT (hi2 _ y))
        have := place_lt hT
        omega
  cases hs with
  | plain t st' hlive hw hl hu =>
    have hn : ws.st.pc (.user t) ≠ .idle := by
      intro e
      have := hidle t e
      revert this
      cases hu with
      | call => simp
      | _ => simp_all
    refine one t hn hu (fun _ _ => rfl) ?_
    have := lockLeft_le (ws.mtx.pc (C.thr t)) (st'.pc (.user t))
    exact Nat.le_trans this (Nat.le_add_right _ _)
  | delete t b off s o m' hp hu hn hms =>
    have hsg := mtx_single hms (T := C.thr t) (by rw [hu]; rfl) (by rw [hu, hn]; nofun)
    have hu' := UserStep.delWin (P := C.P) ws.st t b off s o hp hC.window (hL.free hI h2 hu)
    rw [← hL.entryFor hu] at hu'
    exact one t (by rw [hp]; nofun) hu' hsg (Nat.le_trans (lockLeft_le _ _) (Nat.le_add_right _ _))
  | add t b off s m' hp hu hn hms =>
    have hsg := mtx_single hms (T := C.thr t) (by rw [hu]; rfl) (by rw [hu, hn]; nofun)
    have hu' := UserStep.addWin (P := C.P) ws.st t b off s hp hC.window (hL.free hI h2 hu)
    rw [← hL.entryFor hu] at hu'
    exact one t (by rw [hp]; nofun) hu' hsg (Nat.le_trans (lockLeft_le _ _) (Nat.le_add_right _ _))
  | start t b off s rnd m' hp hu hn hms =>
    have hsg := mtx_single hms (T := C.thr t) (by rw [hu]; rfl) (by rw [hu, hn]; nofun)
    have hu' := UserStep.startWin (P := C.P) ws.st t b off s rnd hp hC.window (hL.free hI h2 hu)
    rw [← hL.entryFor hu] at hu'
    exact one t (by rw [hp]; nofun) hu' hsg (Nat.le_trans (lockLeft_le _ _) (Nat.le_add_right _ _))
  | leave t l m' st' hl hr hn hms hu =>
    have hsg := mtx_single hms (T := C.thr t) (by rw [hr]; rfl) (by rw [hr, hn]; nofun)
    exact one t (busy t (by rw [hr]; nofun)) hu hsg (Nat.le_trans (lockLeft_le _ _) (Nat.le_add_right _ _))
  | call t l m' hw hi hn hms =>
    have hsg := mtx_single hms (T := C.thr t) (by rw [hi]; rfl) (by rw [hn, hi]; nofun)
    refine lock rfl (fun x => ?_) ⟨t, wants_idle hw, ?_⟩
    · by_cases e : C.thr x = C.thr t
      · have : t = x := hC.dist t x (hL.live t (wants_idle hw)) e.symm
        subst this
        show lockLeft (m'.pc _) _ ≤ _
        rw [hn, hi]; simp [lockLeft, hw, mtxPlace]
      · show lockLeft (m'.pc _) _ ≤ _
        rw [hsg _ e]; exact Nat.le_refl _
    · show lockLeft (m'.pc _) _ < _
      rw [hn, hi]; simp [lockLeft, hw, mtxPlace]
  | inside m' hms hch hin =>
    have ho : ∀ T, m'.pc T = .idle → ws.mtx.pc T = .idle := by
      intro T hT
      by_contra hx
      by_cases e : m'.pc T = ws.mtx.pc T
      · exact hx (e ▸ hT)
      · exact inside_not_idle hms (hin T e) hT
    have hi : ∀ T, ws.mtx.pc T = .idle → m'.pc T = .idle := by
      intro T hT
      by_contra hx
      have := hin T (by rw [hT]; exact hx)
      rw [hT] at this; cases this
    obtain ⟨a1, t, a2, a3⟩ := adv m' hms hi ho hch
    exact lock rfl (fun x => a1 x _) ⟨t, a2, a3 _⟩
  | endCall t l m' hl hh hn hms =>
    have hsg := mtx_single hms (T := C.thr t) (by rw [hh]; rfl) (by rw [hh]; exact hn)
    have hne : m'.pc (C.thr t) ≠ .idle := by
      have hk := (hL.step hC.dist hC.window hI h2 (.endCall ws t l m' hl hh hn hms)).2.2.link t
      intro e
      have hk : WinMatch (m'.pc (C.thr t)) (ws.st.pc (.user t)) := hk
      rw [e] at hk
      have hk2 := hL.link t
      rw [hh] at hk2
      change (ws.st.pc (.user t)).entryOf = none at hk
      change (ws.st.pc (.user t)).entryOf = some l at hk2
      rw [hk] at hk2; cases hk2
    obtain ⟨a1, t', a2, a3⟩ := adv m' hms (fun T hT => by
        by_cases e : T = C.thr t
        · subst e; rw [hh] at hT; cases hT
        · rw [hsg T e]; exact hT)
      (fun T hT => by
        by_cases e : T = C.thr t
        · subst e; exact absurd hT hne
        · rw [← hsg T e]; exact hT) (fun e => hn (by rw [e]; exact hh))
    exact lock rfl (fun x => a1 x _) ⟨t', a2, a3 _⟩

theorem winQuietRun_le (hC : LegalWin C) (h : WinReach C ws) {L : List Nat}
    (hLs : ∀ t, ws.st.pc (.user t) ≠ .idle → t ∈ L) {n : Nat} (hq : WinQuietRun C n ws ws') :
    WinReach C ws' ∧ (∀ t, ws'.st.pc (.user t) ≠ .idle → t ∈ L) ∧
      n + (L.map (winLeft C ws')).sum ≤ (L.map (winLeft C ws)).sum := by
  induction hq with
  | zero => exact ⟨h, hLs, by omega⟩
  | @succ n s1 s2 s3 hr hq ih =>
    obtain ⟨h1, h2, h3⟩ := ih h hLs
    refine ⟨.step h1 hq.1, fun t ht => h2 t (fun e => ht (hq.2 t e)), ?_⟩
    have := winQuiet_lt hC h1 h2 hq
    omega

end Asagi
