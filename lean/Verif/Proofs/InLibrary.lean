import Verif.Proofs.ManyLevelsWin
import Verif.Proofs.ManySessions
import Verif.Proofs.ManyComm
/-
Who is inside of a library has its lock.
-/
namespace Asagi
open Spec Props
variable {α : Type}

theorem win_mtx_reach {C : WinParams α} {ws : WinState α} (h : WinReach C ws) : MtxReach C.M false ws.mtx := by
  induction h with
  | init h => obtain ⟨c, -, rfl⟩ := h; exact .init rfl
  | step _ hs ih =>
    cases hs with
    | plain => exact ih
    | call t l m' _ _ _ h => exact .step ih h
    | inside m' h => exact .step ih h
    | delete t b off s o m' _ _ _ h => exact .step ih h
    | add t b off s m' _ _ _ h => exact .step ih h
    | start t b off s rnd m' _ _ _ h => exact .step ih h
    | endCall t l m' _ _ _ h => exact .step ih h
    | leave t l m' st' _ _ _ h => exact .step ih h

theorem xfer_holds {c : LevelCfg α} {X : XferCfg α} {data : Nat → Mem α} {x : XferSt α} (h : XferReach c X data x) :
    ∀ t, x.call t ≠ .out → x.mx (X.rankT t) = some t := by
  induction h with
  | init h => obtain ⟨l, -, rfl⟩ := h; exact fun t h => absurd rfl h
  | @step x x' _ hs ih =>
    have keep : ∀ (t : Nat) (p : XferPc α), x.call t ≠ .out → ∀ u, upd x.call t p u ≠ .out → x.mx (X.rankT u) = some u := by
      intro t p ht u hu
      by_cases e : u = t
      · subst e; exact ih u ht
      · rw [upd_ne _ _ e] at hu; exact ih u hu
    have drop : ∀ t, x.call t ≠ .out → ∀ u, upd x.call t .out u ≠ .out → upd x.mx (X.rankT t) none (X.rankT u) = some u := by
      intro t ht u hu
      by_cases e : u = t
      · subst e; rw [upd_self] at hu; exact absurd rfl hu
      · rw [upd_ne _ _ e] at hu
        by_cases e2 : X.rankT u = X.rankT t
        · have h1 := ih u hu
          rw [e2, ih t ht] at h1
          injection h1 with h1
          exact absurd h1.symm e
        · rw [upd_ne _ _ e2]; exact ih u hu
    cases hs with
    | call => exact ih
    | other => exact ih
    | near => exact ih
    | lock t b off s hc hp hr hm hmx =>
      intro u hu
      show upd x.mx (X.rankT t) (some t) (X.rankT u) = _
      by_cases e : u = t
      · subst e; rw [upd_self]
      · have hu : upd x.call t .locked u ≠ .out := hu
        rw [upd_ne _ _ e] at hu
        have h1 := ih u hu
        by_cases e2 : X.rankT u = X.rankT t
        · rw [e2, hmx] at h1; cases h1
        · rw [upd_ne _ _ e2]; exact h1
    | send t b off s _ hc => exact keep t _ (by rw [hc]; nofun)
    | sent t b off s k hc => exact keep t _ (by rw [hc]; nofun)
    | recv t b off s m rest hc => exact keep t _ (by rw [hc]; nofun)
    | store => exact ih
    | done t b off s k buf hc => exact drop t (by rw [hc]; nofun)
    | take => exact ih
    | answered => exact ih
    | winLock t _ hc => exact keep t _ (by rw [hc]; nofun)
    | get => exact ih
    | winUnlock t b off s k hc => exact keep t _ (by rw [hc]; nofun)
    | leave t hc => exact drop t (by rw [hc]; nofun)

theorem pass_holds {c : LevelCfg α} {slot : Nat → Nat} {may : Nat → Prop} {buf0 : Mem α} {s : PassState α}
    (h : PassReach c slot may buf0 s) : ∀ t pos, s.pc t = .loading pos → s.lock = some t := by
  induction h with
  | init h => subst h; nofun
  | @step s s' _ hs ih =>
    have keep : ∀ (t : Nat) (p : PassPc α), (∀ q, p ≠ .loading q) → ∀ u q, upd s.pc t p u = .loading q → s.lock = some u := by
      intro t p hp u q hu
      by_cases e : u = t
      · subst e; rw [upd_self] at hu; exact absurd hu (hp q)
      · rw [upd_ne _ _ e] at hu; exact ih u q hu
    cases hs with
    | call t => exact keep t _ nofun
    | acquire t pos hp hl =>
      intro u q hu
      by_cases e : u = t
      · subst e; rfl
      · have hu : upd s.pc t (.loading pos) u = .loading q := hu
        rw [upd_ne _ _ e] at hu
        have := ih u q hu
        rw [hl] at this; cases this
    | scribble => exact ih
    | load t pos idx buf' hp =>
      intro u q hu
      have hu : upd s.pc t (.loaded pos) u = .loading q := hu
      by_cases e : u = t
      · subst e; rw [upd_self] at hu; cases hu
      · rw [upd_ne _ _ e] at hu
        have h1 := ih u q hu
        rw [ih t pos hp] at h1
        injection h1 with h1
        exact absurd h1.symm e
    | loadFault t => exact keep t _ nofun
    | convert t => exact keep t _ nofun
    | leave t => exact keep t _ nofun

theorem inLibrary_uses {k : LibLock} {L : LevelSys α} {s : L.S} {t : Nat} (h : InLibrary k L s t) (hr : L.Reach s) :
    L.uses k s t := by
  induction h with
  | readWindow c C ws t b off s k hp hk =>
    show Pc.reading _
    rw [hp]; exact hk
  | read c P st t b off s k hp hk =>
    show Pc.reading _
    rw [hp]; exact hk
  | readValue c slot may buf0 s t pos hp => exact pass_holds (pass_reach hr) t pos hp
  | window c C ws t hl h1 h2 =>
    obtain ⟨Q, hQ⟩ := MtxInv.reachable (win_mtx_reach hr)
    refine ⟨hl, (hQ.proc _ _).2 ⟨?_, rfl⟩⟩
    have hn := hQ.lib (C.thr t) hl
    show MtxPc.hasProc C.lib _ = true
    rw [hl]
    cases hp : ws.mtx.pc (C.thr t) <;> simp_all [MtxPc.hasProc, MtxPc.nonLib]
  | transfer c X data x t h => exact ⟨rfl, xfer_holds hr t h⟩
  | withLocal k L read s t _ ih => exact ih (local_reach hr)
  | only k L team s t _ ih => exact ih (only_reach hr)
where
  local_reach {L : LevelSys α} {read : Nat → List Dbl → Option α} {s : (L.withLocal read).S}
      (h : (L.withLocal read).Reach s) : L.Reach s.1 := by
    induction h with
    | init h => exact .init h.1
    | @step a b _ hs ih =>
      rcases hs with hs | hs
      · exact .step ih hs.1
      · rw [hs.1]; exact ih

theorem commInLibrary_uses {k : LibLock} {L : CommSys α} {s : L.S} {t : Nat} (h : CommInLibrary k L s t) (hr : L.Reach s) :
    L.uses k s t := by
  induction h with
  | other _ L _ _ h => exact inLibrary_uses h hr
  | read c C ms _ b off s k hp hk =>
    show Pc.reading _
    rw [hp]; exact hk
  | withLocal k L read s t _ ih => exact ih (inLibrary_uses.local_reach hr)
  | only k L team s t _ ih => exact ih (only_reach hr)
  | translate k L R s t _ ih => exact ih hr

theorem inRecv_serving {L : CommSys α} {s : L.S} {r : Nat} (h : InRecv L s r) : L.serving s r := by
  induction h with
  | full c X data _ _ h => exact h
  | cache c C _ _ h => exact h
  | withLocal L read s r _ ih => exact ih
  | only L team s r _ ih => exact ih
  | translate L R s r P hP _ ih =>
    show (match R.rank P with | some r => L.serving s r | none => False)
    rw [hP]; exact ih

theorem onTheWay_inbox {L : CommSys α} {s : L.S} {q r : Nat} {l : List Nat} (h : OnTheWay L s q r l) : L.inbox s q r = l := by
  induction h with
  | withLocal L read s q r l _ ih => exact ih
  | only L team s q r l _ ih => exact ih
  | translate L R s q r Q P l hQ hP _ ih =>
    show (match R.rank Q, R.rank P with | some q, some r => L.inbox s q r | _, _ => []) = l
    rw [hQ, hP]; exact ih
  | outside L R s Q P h =>
    show (match R.rank Q, R.rank P with | some q, some r => L.inbox s q r | _, _ => []) = []
    rcases h with h | h
    · rw [h]
    · rw [h]; cases R.rank Q <;> rfl
  | _ => rfl

end Asagi
