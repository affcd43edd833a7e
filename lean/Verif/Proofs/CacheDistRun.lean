import Verif.Model.CacheDistRun
import Verif.Spec.SharedCache
import Verif.Proofs.CacheDist
import Mathlib.Tactic.SplitIfs
/- The interpreter of the shared caches performs steps of the model. -/
namespace Asagi
variable {β : Type} {P : DistParams β} {st st' : DistState β}

theorem execOwn_sound {t rnd b off s : Nat} {ph : Phase β}
    (hp : st.pc (.user t) = .own b off s ph) (h : execOwn P st t rnd b off s ph = some st') :
    UserStep P t st st' := by
  cases ph with
  | del old =>
    cases old with
    | none =>
      simp only [execOwn, Option.some.injEq] at h
      subst h; exact .delSkip _ _ _ _ _ none hp (.inl rfl)
    | some o =>
      cases hm : P.mode <;> simp only [execOwn, hm] at h
      · cases h; exact .delSkip _ _ _ _ _ _ hp (.inr hm)
      · split_ifs at h with h1
        cases h; exact .delWin _ _ _ _ _ o hp hm h1
      · cases h; exact .delThread _ _ _ _ _ o hp hm
  | delLocked o => simp only [execOwn] at h; cases h; exact .delWinEnd _ _ _ _ _ o hp
  | numa i =>
    simp only [execOwn] at h
    split_ifs at h with h1 h2 h3 <;> cases h
    · exact .numaEnd _ _ _ _ _ i hp h1
    · simp only [not_or, Bool.not_eq_false, Nat.not_le] at h1
      exact .numaOwn _ _ _ _ _ i hp h1.1 h1.2 h2
    · simp only [not_or, Bool.not_eq_false, Nat.not_le] at h1
      exact .numaBusy _ _ _ _ _ i hp h1.1 h1.2 h2 h3
    · simp only [not_or, Bool.not_eq_false, Nat.not_le] at h1
      simp only [ne_eq, not_or, Bool.not_eq_true, Decidable.not_not] at h3
      exact .numaTry _ _ _ _ _ i hp h1.1 h1.2 h2 h3.1 h3.2
  | numaCm i =>
    simp only [execOwn] at h
    split at h
    · next h1 => cases h; exact .numaMiss _ _ _ _ _ i hp (by rw [h1]; nofun)
    · next s' h1 =>
      split_ifs at h with h2 <;> cases h
      · exact .numaHit _ _ _ _ _ i s' hp h1 h2
      · exact .numaMiss _ _ _ _ _ i hp (by rw [h1]; intro x hx; cases hx; exact h2)
  | numaCopy i s' k =>
    simp only [execOwn] at h
    split_ifs at h with h1 <;> cases h
    · exact .numaCell _ _ _ _ _ i s' k hp h1
    · exact .numaDone _ _ _ _ _ i s' k hp (by omega)
  | add =>
    cases hm : P.mode <;> simp only [execOwn, hm] at h
    · cases h; exact .addNone _ _ _ _ _ hp hm
    · split_ifs at h with h1
      cases h; exact .addWin _ _ _ _ _ hp hm h1
    · cases h; exact .addThread _ _ _ _ _ hp hm
  | addLocked => simp only [execOwn] at h; cases h; exact .addWinEnd _ _ _ _ _ hp
  | start =>
    cases hm : P.mode <;> simp only [execOwn, hm] at h
    · cases h; exact .startNone _ _ _ _ _ hp hm
    · split_ifs at h with h1
      cases h; exact .startWin _ _ _ _ _ rnd hp hm h1
    · split_ifs at h with h1
      · cases h; exact .startThread _ _ _ _ _ rnd hp hm (.inl h1)
      · split at h
        · next h2 => cases h; exact .startThread _ _ _ _ _ rnd hp hm (.inr h2)
        · cases h
  | xfer e =>
    cases e with
    | negSucc n =>
      simp only [execOwn] at h; cases h
      exact .xferNone _ _ _ _ _ _ hp (Int.negSucc_lt_zero n)
    | ofNat e =>
      cases hm : P.mode <;> simp only [execOwn, hm] at h
      · cases h
      · cases h; exact .xferWin _ _ _ _ _ e hp hm
      · split_ifs at h with h1
        cases h; exact .xferThread _ _ _ _ _ e hp hm h1
  | copy e k =>
    simp only [execOwn] at h
    split_ifs at h with h1 <;> cases h
    · exact .copyCell _ _ _ _ _ e k hp h1
    · exact .copyDone _ _ _ _ _ e k hp (by omega)
  | ask r =>
    simp only [execOwn] at h
    split at h
    · cases h
    · next h1 => cases h; exact .askFail _ _ _ _ _ r hp h1
    · next buf h1 => cases h; exact .askDone _ _ _ _ _ r buf hp h1
  | recv buf k =>
    simp only [execOwn] at h
    split_ifs at h with h1 <;> cases h
    · exact .recvCell _ _ _ _ _ k buf hp h1
    · exact .recvDone _ _ _ _ _ k buf hp (by omega)
  | load k =>
    simp only [execOwn] at h
    split_ifs at h with h1 <;> cases h
    · exact .loadCell _ _ _ _ _ k _ hp h1 (fun _ => rfl)
    · exact .loadDone _ _ _ _ _ k hp (by omega)
  | fin =>
    cases hm : P.mode <;> simp only [execOwn, hm] at h <;> cases h
    · exact .finNone _ _ _ _ _ hp hm
    · exact .finWin _ _ _ _ _ hp hm
    · exact .finThread _ _ _ _ _ hp hm
  | use => simp only [execOwn] at h; cases h; exact .convert _ _ _ _ _ hp
  | out v => simp only [execOwn] at h; cases h; exact .unlock _ _ _ _ _ v hp

theorem execUser_sound {t rnd : Nat} (h : execUser P st t rnd = some st') : UserStep P t st st' := by
  unfold execUser at h
  split at h
  · next b off hp =>
    split_ifs at h with h1
    split at h
    · next c' s old h2 => cases h; exact .lookup _ _ b off s c' old hp h1 h2
    · cases h
  · next b off s old hp =>
    by_cases h1 : st.lk (P.dom t, s) = none
    · rw [if_pos h1] at h
      injection h with h
      rw [← h]; exact .lockSlot _ _ b off s old hp h1
    · rw [if_neg h1] at h; cases h
  · next b off s ph hp => exact execOwn_sound hp h
  · cases h

theorem execComm_sound {r : Nat} (h : execComm P st r = some st') : CommStep P r st st' := by
  unfold execComm at h
  split at h
  · next t b i hp =>
    split_ifs at h with h1 h2 <;> cases h
    · exact .fail _ _ t b i hp h1
    · exact .busy _ _ t b i hp (by omega) h2
    · simp only [ne_eq, not_or, Bool.not_eq_true, Decidable.not_not] at h2
      exact .try _ _ t b i hp (by omega) h2.1 h2.2
  · next t b i hp =>
    split at h
    · next h1 => cases h; exact .miss _ _ t b i hp (by rw [h1]; nofun)
    · next s h1 =>
      split_ifs at h with h2 <;> cases h
      · exact .hit _ _ t b i s hp h1 h2
      · exact .miss _ _ t b i hp (by rw [h1]; intro x hx; cases hx; exact h2)
  · next t b i s k buf hp =>
    split_ifs at h with h1 <;> cases h
    · exact .cell _ _ t b i s k buf hp h1
    · exact .reply _ _ t b i s k buf hp (by omega)
  · next i s hp => cases h; exact .release _ _ i s hp
  · cases h

theorem DistCmd.exec_sound {c : DistCmd} (hin : ∀ t b off, c = .call t b off → P.inside b off)
    (h : c.exec P st = some st') :
    DistStep P st st' := by
  cases c with
  | call t b off =>
    simp only [DistCmd.exec] at h
    split at h
    · next hp =>
      split_ifs at h with h1
      cases h; exact .user t (.call _ _ b off hp ⟨h1, hin _ _ _ rfl⟩)
    · cases h
  | user t rnd => exact .user t (execUser_sound h)
  | deliver r src =>
    simp only [DistCmd.exec] at h
    split at h
    · next b op rest hp hn => cases h; exact .comm r (.deliver _ _ src b op rest hp hn)
    · cases h
  | accept r t =>
    simp only [DistCmd.exec] at h
    split at h
    · next b off s r' hp hu hb =>
      split_ifs at h with h1
      subst h1; cases h; exact .comm r' (.accept _ _ t b off s hp hu hb)
    · cases h
  | comm r => exact .comm r (execComm_sound h)

theorem distExec_sound (hin : ∀ b k, P.inside b k) {cmds : List DistCmd}
    (h : distExec P st cmds = some st') (hr : DistReach P st) : DistReach P st' := by
  induction cmds generalizing st with
  | nil => cases h; exact hr
  | cons c cs ih =>
    simp only [distExec, Option.bind_eq_some_iff] at h
    obtain ⟨s1, h1, h2⟩ := h
    exact ih h2 (.step hr (DistCmd.exec_sound (fun t b off _ => hin b off) h1))

/-- The result of a schedule is a reachable state. -/
theorem distRun_reach (hin : ∀ b k, P.inside b k) {cmds : List DistCmd}
    (h : distRun P cmds = some st) : DistReach P st := by
  simp only [distRun, Option.bind_eq_some_iff] at h
  obtain ⟨c, hc, h⟩ := h
  exact distExec_sound hin h (.init ⟨c, hc, rfl⟩)

/-- A call of a getter. -/
def DistCmd.isCall : DistCmd → Bool
  | .call _ _ _ => true
  | _ => false

theorem idle_stays {cmd : DistCmd} {t : Nat}
    (h : cmd.exec P st = some st') (hc : cmd.isCall = false) (hi : st.pc (.user t) = .idle) :
    DistStep P st st' ∧ st'.pc (.user t) = .idle := by
  have huser : ∀ u, UserStep P u st st' → (∀ v, st.pc (.user u) ≠ v ∨ v ≠ .idle) →
      st'.pc (.user t) = .idle := by
    intro u hs hu
    have hne : Agent.user t ≠ Agent.user u := by
      intro e; rw [e] at hi
      rcases hu .idle with h1 | h1
      · exact h1 hi
      · exact h1 rfl
    cases hs with
    | delThread => simp only [DistState.goto, sendOp_pc]; exact (upd_ne _ _ hne).trans hi
    | addThread => simp only [DistState.goto, sendOp_pc]; exact (upd_ne _ _ hne).trans hi
    | finThread => simp only [DistState.goto, sendOp_pc]; exact (upd_ne _ _ hne).trans hi
    | _ => exact (upd_ne _ _ hne).trans hi
  have hcomm : ∀ r, CommStep P r st st' → st'.pc (.user t) = .idle := by
    intro r hs
    cases hs <;> exact hi
  cases cmd with
  | call => cases hc
  | user u rnd =>
    have hs := execUser_sound h
    refine ⟨.user u hs, huser u hs ?_⟩
    intro v
    by_cases hv : v = .idle
    · left; intro e
      subst hv
      simp only [DistCmd.exec, execUser, e] at h
      cases h
    · right; exact hv
  | deliver r src =>
    simp only [DistCmd.exec] at h
    split at h
    · next b op rest hp hn =>
      injection h with h
      have hs : CommStep P r st st' := h ▸ .deliver _ _ src b op rest hp hn
      exact ⟨.comm r hs, hcomm r hs⟩
    · cases h
  | accept r u =>
    simp only [DistCmd.exec] at h
    split at h
    · next b off s r' hp hu hb =>
      by_cases h1 : r' = r
      · rw [if_pos h1] at h
        injection h with h
        subst h1
        have hs : CommStep P r' st st' := h ▸ .accept _ _ u b off s hp hu hb
        exact ⟨.comm r' hs, hcomm r' hs⟩
      · rw [if_neg h1] at h; cases h
    · cases h
  | comm r => exact ⟨.comm r (execComm_sound h), hcomm r (execComm_sound h)⟩

/-- A schedule without calls. -/
theorem distExec_quiet {cmds : List DistCmd} (h : distExec P st cmds = some st')
    (hc : cmds.all (fun c => !c.isCall) = true) (hr : DistReach P st) : DistReach P st' := by
  induction cmds generalizing st with
  | nil => cases h; exact hr
  | cons c cs ih =>
    simp only [distExec, Option.bind_eq_some_iff] at h
    obtain ⟨s1, h1, h2⟩ := h
    simp only [List.all_cons, Bool.and_eq_true, Bool.not_eq_true'] at hc
    exact ih h2 (by simpa using hc.2)
      (.step hr (DistCmd.exec_sound (fun t b off e => by subst e; cases hc.1) h1))

/-- A schedule without calls whose end is inside of a getter of thread `t`. -/
theorem distExec_during {cmds : List DistCmd} {t : Nat} (h : distExec P st cmds = some st')
    (hc : cmds.all (fun c => !c.isCall) = true) (hn : st'.pc (.user t) ≠ .idle) :
    Spec.During P t st st' := by
  have hidle : ∀ (cmds : List DistCmd) (s1 s2 : DistState β), distExec P s1 cmds = some s2 →
      cmds.all (fun c => !c.isCall) = true → s1.pc (.user t) = .idle → s2.pc (.user t) = .idle := by
    intro cmds
    induction cmds with
    | nil => intro s1 s2 h _ hi; cases h; exact hi
    | cons c cs ih =>
      intro s1 s2 h hc hi
      simp only [distExec, Option.bind_eq_some_iff] at h
      obtain ⟨s3, h1, h2⟩ := h
      simp only [List.all_cons, Bool.and_eq_true, Bool.not_eq_true'] at hc
      exact ih s3 s2 h2 (by simpa using hc.2) (idle_stays h1 hc.1 hi).2
  have hcons : ∀ (s1 s2 s3 : DistState β), DistStep P s1 s2 → s2.pc (.user t) ≠ .idle →
      Spec.During P t s2 s3 → Spec.During P t s1 s3 := by
    intro s1 s2 s3 hs h2 hd
    induction hd with
    | refl => exact .tail (.refl _) hs h2
    | tail _ hs' hn' ih => exact .tail ih hs' hn'
  induction cmds generalizing st with
  | nil => cases h; exact .refl _
  | cons c cs ih =>
    simp only [distExec, Option.bind_eq_some_iff] at h
    obtain ⟨s3, h1, h2⟩ := h
    simp only [List.all_cons, Bool.and_eq_true, Bool.not_eq_true'] at hc
    have hcs : cs.all (fun c => !c.isCall) = true := by simpa using hc.2
    have hn3 : s3.pc (.user t) ≠ .idle := fun e => hn (hidle cs s3 st' h2 hcs e)
    exact hcons st s3 st' (DistCmd.exec_sound (fun t b off e => by subst e; cases hc.1) h1) hn3 (ih h2 hcs)

end Asagi
