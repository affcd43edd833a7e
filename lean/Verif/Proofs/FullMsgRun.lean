import Verif.Model.FullMsgRun
import Verif.Proofs.FullMsg
import Verif.Proofs.CacheDistRun
/-
The interpreter for distributed FULL grids with the implemented transfers only performs steps of
`XferStep`.
-/
namespace Asagi
open Spec Props
variable {α : Type} {c : LevelCfg α} {X : XferCfg α} {data : Nat → Mem α} {x x' : XferSt α}

theorem xferOut_sound {t : Nat} (hc : x.call t = .out) (h : xferOut c X data x t = some x') :
    XferStep c X data true x x' := by
  unfold xferOut at h
  split at h
  · next b off s k hp =>
    split at h
    · next hk =>
      split at h
      · next hm =>
        simp only [Option.bind_eq_some_iff] at h
        obtain ⟨src, h1, v, h2, h3⟩ := h
        injection h3 with h3; subst h3
        exact .near x t b off s k src v hc hp hk hm.1 hm.2 h1 h2
      · next hm =>
        split at h
        · next hl =>
          obtain ⟨rfl, h1, h2⟩ := hl
          injection h with h; subst h
          exact .lock x t b off s hc hp hm h1 h2
        · cases h
    · next hk =>
      rw [Option.map_eq_some_iff] at h
      obtain ⟨st', h1, rfl⟩ := h
      refine .other x t st' hc (by rw [hp]; nofun) (fun b' off' s' k' hp' => ?_) (execUser_sound h1)
      rw [hp] at hp'
      injection hp' with _ _ _ e
      injection e with e
      omega
  · cases h
  · next hne hni =>
    rw [Option.map_eq_some_iff] at h
    obtain ⟨st', h1, rfl⟩ := h
    exact .other x t st' hc hni (fun b' off' s' k' hp' => absurd hp' (hne b' off' s' k'))
      (execUser_sound h1)

theorem xferUser_sound {t : Nat} (h : xferUser c X data x t = some x') :
    XferStep c X data true x x' := by
  unfold xferUser at h
  split at h
  · next hc => exact xferOut_sound hc h
  · next b off s hc hp =>
    split at h
    · next hw => injection h with h; subst h; exact .winLock x t hw hc
    · next hw => injection h with h; subst h; exact .send x t b off s (by simpa using hw) hc hp
  · next tk b off s hc hp =>
    injection h with h; subst h
    exact .sent x t b off s tk hc hp (.inl rfl)
  · next b off s hc hp =>
    split at h
    · next m rest hm => injection h with h; subst h; exact .recv x t b off s m rest hc hp hm
    · cases h
  · next buf b off s k hc hp =>
    split at h
    · next hk =>
      rw [Option.bind_eq_some_iff] at h
      obtain ⟨v, h1, h2⟩ := h
      injection h2 with h2; subst h2
      exact .store x t b off s k buf v hc hp hk h1
    · next hk => injection h with h; subst h; exact .done x t b off s k buf hc hp (by omega)
  · next b off s k hc hp =>
    split at h
    · next hk =>
      simp only [Option.bind_eq_some_iff] at h
      obtain ⟨src, h0, v, h1, h2⟩ := h
      injection h2 with h2; subst h2
      exact .get x t b off s k src v hc hp hk h0 h1
    · next hk => injection h with h; subst h; exact .winUnlock x t b off s k hc hp (by omega)
  · next hc => injection h with h; subst h; exact .leave x t hc
  · cases h

theorem XferCmd.exec_sound {a : XferCmd} (h : a.exec c X data x = some x') :
    XferStep c X data true x x' := by
  cases a with
  | call t pos =>
    simp only [XferCmd.exec, Option.map_eq_some_iff] at h
    obtain ⟨st', h1, rfl⟩ := h
    exact .call x t pos st' (fullCall_sound h1)
  | user t => exact xferUser_sound h
  | take r src =>
    simp only [XferCmd.exec] at h
    split at h
    · next m rest h1 h2 =>
      split at h
      · next h3 =>
        rw [Option.bind_eq_some_iff] at h
        obtain ⟨buf, h4, h5⟩ := h
        injection h5 with h5; subst h5
        exact .take x src r m rest buf h1 h2 h3 h4
      · cases h
    · cases h
  | answered r =>
    simp only [XferCmd.exec] at h
    split at h
    · next p h1 => injection h with h; subst h; exact .answered x r p.1 p.2 h1 (.inl rfl)
    · cases h

theorem xferExec_reach {l : List XferCmd} (hr : XferReach c X data x)
    (h : xferExec c X data l x = some x') : XferReach c X data x' := by
  induction l generalizing x with
  | nil => simp only [xferExec] at h; injection h with h; subst h; exact hr
  | cons a l ih =>
    simp only [xferExec, Option.bind_eq_some_iff] at h
    obtain ⟨x1, h1, h2⟩ := h
    exact ih (.step hr (XferCmd.exec_sound h1)) h2

end Asagi
