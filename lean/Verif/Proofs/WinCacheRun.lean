import Verif.Model.WinCacheRun
import Verif.Proofs.CacheDistRun
/-
The interpreter only performs steps of the model.
-/
namespace Asagi
variable {β : Type} {C : WinParams β} {ws ws' : WinState β}

theorem mtxNext_sound {M : MtxParams} {s s' : MtxState} {t u : Thr} (h : mtxNext M s t u = some s') :
    MtxStep M false s s' ∧ s'.pc ≠ s.pc ∧ ∀ v, s'.pc v ≠ s.pc v → (s.pc v).inside = true := by
  have one : ∀ (s' : MtxState) (p : MtxPc), s'.pc = upd s.pc t p → p ≠ s.pc t → (s.pc t).inside = true →
      s'.pc ≠ s.pc ∧ ∀ v, s'.pc v ≠ s.pc v → (s.pc v).inside = true := by
    intro s' p h1 h2 h3
    refine ⟨fun e => h2 ?_, fun v hv => ?_⟩
    · rw [← e, h1, upd_self]
    · by_cases e : v = t
      · subst e; exact h3
      · rw [h1, upd_ne _ _ e] at hv; exact absurd rfl hv
  unfold mtxNext at h
  split at h
  case h_1 l hp =>
    split at h <;> cases h
    next hc => exact ⟨.proc s t l hp hc, one _ _ rfl (by rw [hp]; nofun) (by rw [hp]; rfl)⟩
  case h_2 l hp =>
    split at h <;> cases h
    next hc => exact ⟨.win s t l hp hc, one _ _ rfl (by rw [hp]; nofun) (by rw [hp]; rfl)⟩
  case h_3 l hp =>
    split at h <;> cases h
    next hc => exact ⟨.acquire s t l hp hc, one _ _ rfl (by rw [hp]; nofun) (by rw [hp]; rfl)⟩
    next hc => exact ⟨.enqueue s t l hp (by omega), one _ _ rfl (by rw [hp]; nofun) (by rw [hp]; rfl)⟩
  case h_4 l old hp =>
    cases h
    exact ⟨.wait s t l old hp, one _ _ rfl (by rw [hp]; nofun) (by rw [hp]; rfl)⟩
  case h_5 l hp =>
    split at h <;> cases h
    next hc => exact ⟨.reProc s t l hp hc, one _ _ rfl (by rw [hp]; nofun) (by rw [hp]; rfl)⟩
  case h_6 l hp =>
    split at h <;> cases h
    next hc => exact ⟨.reWin s t l hp hc, one _ _ rfl (by rw [hp]; nofun) (by rw [hp]; rfl)⟩
  case h_7 l hp =>
    split at h <;> cases h
    next hc => exact ⟨.relProc s t l hp hc, one _ _ rfl (by rw [hp]; nofun) (by rw [hp]; rfl)⟩
  case h_8 l hp =>
    split at h <;> cases h
    next hc => exact ⟨.relWin s t l hp hc, one _ _ rfl (by rw [hp]; nofun) (by rw [hp]; rfl)⟩
  case h_9 l hp =>
    split at h <;> cases h
    next hc => exact ⟨.free s t l hp hc, one _ _ rfl (by rw [hp]; nofun) (by rw [hp]; rfl)⟩
    next hc => exact ⟨.contended s t l hp hc, one _ _ rfl (by rw [hp]; nofun) (by rw [hp]; rfl)⟩
  case h_10 l hp =>
    split at h
    next l' dest tag hq =>
      split at h <;> cases h
      next hc =>
        have htu : t ≠ u := by rintro rfl; rw [hp] at hq; cases hq
        refine ⟨.handOver s t u l l' dest tag hp hq hc.1 hc.2, fun e => ?_, fun v hv => ?_⟩
        · have : upd (upd s.pc t (.released l)) u (if M.lib then .reWin l' else .reProc l') t = s.pc t :=
            congrFun e t
          rw [upd_ne _ _ htu, upd_self, hp] at this; cases this
        · by_cases e1 : v = u
          · subst e1; rw [hq]; rfl
          · by_cases e2 : v = t
            · subst e2; rw [hp]; rfl
            · refine absurd ?_ hv
              show upd (upd s.pc t _) u _ v = _
              rw [upd_ne _ _ e1, upd_ne _ _ e2]
    next => cases h
  case h_11 => cases h

theorem winWrite_sound {t rnd l : Nat} (hp : ws.mtx.pc (C.thr t) = .update l)
    (h : winWrite C ws t rnd l = some ws') : WinStep C ws ws' := by
  unfold winWrite at h
  split at h
  case h_1 b off s o he =>
    split at h <;> cases h
    next e => subst e; exact .delete ws t b off s o _ he hp (upd_self ..) (.delete ws.mtx _ _ hp)
  case h_2 b off s he =>
    split at h <;> cases h
    next e => subst e; exact .add ws t b off s _ he hp (upd_self ..) (.hold ws.mtx _ _ hp)
  case h_3 b off s he =>
    split at h <;> cases h
    next e => subst e; exact .start ws t b off s rnd _ he hp (upd_self ..) (.hold ws.mtx _ _ hp)
  case h_4 => cases h

theorem winPlain_sound {t rnd : Nat} (h : winPlain C ws t rnd = some ws') : WinStep C ws ws' := by
  unfold winPlain at h
  split at h
  next hc =>
    cases hx : execUser C.P ws.st t rnd with
    | none => rw [hx] at h; cases h
    | some st' =>
      rw [hx] at h; cases h
      exact .plain ws t st' hc.1 hc.2.1 hc.2.2 (execUser_sound hx)
  next => cases h

theorem WinCmd.step_sound {t rnd u : Nat} (h : (WinCmd.step t rnd u).exec C ws = some ws') :
    WinStep C ws ws' := by
  simp only [WinCmd.exec] at h
  split at h
  case h_1 hp =>
    split at h
    next l hw =>
      split at h
      next ht =>
        cases h
        exact .call ws t l _ hw hp (upd_self ..) (.call ws.mtx _ l ht hp)
      next => cases h
    next => exact winPlain_sound h
  case h_2 l hp => exact winWrite_sound hp h
  case h_3 l hp =>
    split at h
    next hl =>
      cases h
      refine .endCall ws t l _ hl hp ?_ (.endCall ws.mtx _ _ hp)
      show upd _ _ _ _ ≠ _
      rw [upd_self]; split <;> nofun
    next => exact winPlain_sound h
  case h_4 l hp =>
    split at h
    next hl =>
      cases hx : execUser C.P ws.st t rnd with
      | none => rw [hx] at h; cases h
      | some st' =>
        rw [hx] at h; cases h
        exact .leave ws t l _ st' hl hp (upd_self ..) (.leave ws.mtx _ _ hp) (execUser_sound hx)
    next => cases h
  case h_5 =>
    cases hx : mtxNext C.M ws.mtx (C.thr t) (C.thr u) with
    | none => rw [hx] at h; cases h
    | some m' =>
      rw [hx] at h; cases h
      obtain ⟨h1, h2, h3⟩ := mtxNext_sound hx
      exact .inside ws m' h1 h2 h3

theorem WinCmd.exec_sound (hin : ∀ b k, C.P.inside b k) {c : WinCmd} (h : c.exec C ws = some ws') :
    WinStep C ws ws' := by
  cases c with
  | call t b off =>
    simp only [WinCmd.exec] at h
    split at h
    next ht =>
      split at h
      next hp =>
        split at h
        next ho =>
          cases h
          exact .plain ws t _ ht (by rw [hp]; rfl) (by rw [hp]; rfl) (.call ws.st t b off hp ⟨ho, hin b off⟩)
        next => cases h
      next => cases h
    next => cases h
  | step t rnd u => exact step_sound h

theorem winExec_reach (hin : ∀ b k, C.P.inside b k) {cmds : List WinCmd} (hr : WinReach C ws)
    (h : winExec C ws cmds = some ws') : WinReach C ws' := by
  induction cmds generalizing ws with
  | nil => cases h; exact hr
  | cons c cs ih =>
    unfold winExec at h
    cases hx : c.exec C ws with
    | none => rw [hx] at h; cases h
    | some w1 =>
      rw [hx] at h
      exact ih (.step hr (WinCmd.exec_sound hin hx)) h

theorem winRun_reach (hin : ∀ b k, C.P.inside b k) {cmds : List WinCmd}
    (h : winRun C cmds = some ws) : WinReach C ws := by
  unfold winRun at h
  cases hc : CacheList.init C.P.size C.P.handDiff with
  | none => rw [hc] at h; cases h
  | some c =>
    rw [hc] at h
    exact winExec_reach hin (.init ⟨c, hc, rfl⟩) h

end Asagi
