import Verif.Model.MsgCacheRun
import Verif.Proofs.CacheDistRun
/-
The interpreter of `Verif.Model.MsgCacheRun` only performs steps of `MsgCacheStep`.
-/
namespace Asagi
variable {β : Type} {C : MsgParams β} {ms ms' : MsgSt β}

theorem takeFirst_sound {tag : Nat} : ∀ {l rest : List (Rep β)} {m : Rep β},
    takeFirst tag l = some (m, rest) → TakeRep l tag m rest
  | [], _, _, h => by cases h
  | x :: l, rest, m, h => by
    unfold takeFirst at h
    split at h
    next hx => cases h; exact ⟨[], l, rfl, rfl, hx, by nofun⟩
    next hx =>
      split at h
      next => cases h
      next y l' hy =>
        cases h
        obtain ⟨l1, l2, h1, h2, h3, h4⟩ := takeFirst_sound hy
        refine ⟨x :: l1, l2, by rw [h1]; rfl, by rw [h2]; rfl, h3, ?_⟩
        intro z hz
        rcases List.mem_cons.1 hz with rfl | hz
        · exact hx
        · exact h4 z hz

theorem talksB_iff (C : MsgParams β) (t : Nat) (p : Pc β) : C.talksB t p = true ↔ C.talks t p := by
  unfold MsgParams.talksB MsgParams.talks
  split <;> simp

theorem msgOut_sound {t rnd : Nat} (hc : ms.call t = .out) (h : msgOut C ms t rnd = some ms') :
    MsgCacheStep C true ms ms' := by
  unfold msgOut at h
  split at h
  next ht =>
    cases hx : execUser C.P ms.st t rnd with
    | none => rw [hx] at h; cases h
    | some st' =>
      rw [hx] at h; cases h
      exact .plain ms t st' hc (fun hn => by rw [(talksB_iff C t _).2 hn] at ht; cases ht)
        (execUser_sound hx)
  next ht =>
    have ht : C.talks t (ms.st.pc (.user t)) := (talksB_iff C t _).1 (by simpa using ht)
    split at h
    next b off s o hp =>
      rw [hp] at ht; cases h; exact .opSend ms t b off s _ C.delTag o _ hc hp rfl ht
    next b off s hp =>
      rw [hp] at ht; cases h; exact .opSend ms t b off s _ C.addTag b _ hc hp rfl ht
    next b off s hp =>
      rw [hp] at ht; cases h; exact .opSend ms t b off s _ C.addTag b _ hc hp rfl ht
    next b off s hp =>
      rw [hp] at ht
      split at h
      next hi => cases h; exact .infoLock ms t b off s hc hp ht hi
      next => cases h
    next b off s e hp =>
      split at h
      next hb => cases h; exact .xferLock ms t b off s e hc hp hb
      next => cases h
    next => cases h

theorem msgUser_sound {t rnd : Nat} (h : msgUser C ms t rnd = some ms') :
    MsgCacheStep C true ms ms' := by
  unfold msgUser at h
  split at h
  next hc => exact msgOut_sound hc h
  next k hc =>
    split at h
    next tag x p' hu => cases h; exact .opSent ms t k tag x p' hc hu (.inl rfl)
    next => cases h
  next b off s hc hp => cases h; exact .infoSend ms t b off s hc hp
  next k b off s hc hp => cases h; exact .infoSent ms t k b off s hc hp (.inl rfl)
  next b off s hc hp =>
    split at h
    next e rest hx =>
      cases h; exact .infoRecv ms t b off s _ rest e hc hp (takeFirst_sound hx) rfl
    next => cases h
  next b off s r hc hp => cases h; exact .xferSend ms t b off s r hc hp
  next k b off s r hc hp => cases h; exact .xferSent ms t k b off s r hc hp (.inl rfl)
  next b off s r hc hp =>
    split at h
    next buf rest hx =>
      cases h; exact .xferOk ms t b off s r _ rest buf hc hp (takeFirst_sound hx) rfl
    next rest _ hx =>
      cases h; exact .xferFail ms t b off s r _ rest hc hp (takeFirst_sound hx) rfl
    next => cases h
  next => cases h

theorem msgWork_sound {r : Nat} (hw : ms.wait r = none) (hn : ms.st.pc (.comm r) ≠ .idle)
    (hb : ∀ st', CommStep C.P r ms.st st' → st'.box = ms.st.box ∧ st'.net = ms.st.net)
    (h : (execComm C.P ms.st r).map (fun st' => { ms with st := st' }) = some ms') :
    MsgCacheStep C true ms ms' := by
  cases hx : execComm C.P ms.st r with
  | none => rw [hx] at h; cases h
  | some st' =>
    rw [hx] at h; cases h
    have hs := execComm_sound hx
    exact .work ms r st' hw ⟨hs, hn, (hb _ hs).1, (hb _ hs).2⟩

theorem msgComm_sound {r : Nat} (h : msgComm C ms r = some ms') : MsgCacheStep C true ms ms' := by
  unfold msgComm at h
  split at h
  next p hw => cases h; obtain ⟨d, k⟩ := p; exact .answered ms r d k hw (.inl rfl)
  next hw =>
    split at h
    next q b i hp =>
      split at h
      next hi => cases h; exact .refuse ms r q b i hw hp hi
      next hi =>
        refine msgWork_sound hw (by rw [hp]; nofun) (fun st' hs => ?_) h
        cases hs <;> first | exact ⟨rfl, rfl⟩ | (exfalso; simp_all <;> omega)
    next q b i s k buf hp =>
      split at h
      next hi => cases h; exact .reply ms r q b i s k buf hw hp hi
      next hi =>
        refine msgWork_sound hw (by rw [hp]; nofun) (fun st' hs => ?_) h
        cases hs <;> first | exact ⟨rfl, rfl⟩ | (exfalso; simp_all <;> omega)
    next q b i hp =>
      refine msgWork_sound hw (by rw [hp]; nofun) (fun st' hs => ?_) h
      cases hs <;> first | exact ⟨rfl, rfl⟩ | (exfalso; simp_all)
    next i s hp =>
      refine msgWork_sound hw (by rw [hp]; nofun) (fun st' hs => ?_) h
      cases hs <;> first | exact ⟨rfl, rfl⟩ | (exfalso; simp_all)
    next => cases h

/-- The interpreter is sound for calls of values inside of the grid. -/
theorem MsgCmd.exec_step {a : MsgCmd} (hin : ∀ t b off, a = .call t b off → C.P.inside b off) (h : a.exec C ms = some ms') :
    MsgCacheStep C true ms ms' := by
  cases a with
  | call t b off =>
    simp only [MsgCmd.exec] at h
    split at h
    next hc hp =>
      split at h
      next ho =>
        cases h
        exact .plain ms t _ hc (by rw [hp]; exact id) (.call ms.st t b off hp ⟨ho, hin t b off rfl⟩)
      next => cases h
    next => cases h
  | user t rnd => exact msgUser_sound h
  | comm r => exact msgComm_sound h
  | take r src rnd =>
    simp only [MsgCmd.exec] at h
    split at h
    next m rest hp hw hm =>
      split at h
      next ht => cases h; exact .takeInfo ms src r rnd m rest hp hw hm ht
      next =>
        split at h
        next ht => cases h; exact .takeXfer ms src r m rest hp hw hm ht
        next =>
          split at h
          next ht => cases h; exact .takeAdd ms src r m rest hp hw hm ht
          next =>
            split at h
            next ht => cases h; exact .takeDel ms src r m rest hp hw hm ht
            next => cases h
    next => cases h

theorem MsgCmd.exec_sound (hin : ∀ b k, C.P.inside b k) {c : MsgCmd} (h : c.exec C ms = some ms') :
    MsgCacheStep C true ms ms' := MsgCmd.exec_step (fun _ b off _ => hin b off) h

theorem msgExec_reach (hin : ∀ b k, C.P.inside b k) {cmds : List MsgCmd} (hr : MsgReach C ms)
    (h : msgExec C ms cmds = some ms') : MsgReach C ms' := by
  induction cmds generalizing ms with
  | nil => cases h; exact hr
  | cons c cs ih =>
    unfold msgExec at h
    cases hx : c.exec C ms with
    | none => rw [hx] at h; cases h
    | some m1 =>
      rw [hx] at h
      exact ih (.step hr (MsgCmd.exec_sound hin hx)) h

theorem msgRun_reach (hin : ∀ b k, C.P.inside b k) {cmds : List MsgCmd}
    (h : msgRun C cmds = some ms) : MsgReach C ms := by
  unfold msgRun at h
  cases hc : CacheList.init C.P.size C.P.handDiff with
  | none => rw [hc] at h; cases h
  | some c =>
    rw [hc] at h
    exact msgExec_reach hin (.init ⟨c, hc, rfl⟩) h

end Asagi
