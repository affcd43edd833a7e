import Verif.Proofs.ManyCloseAll
import Verif.Proofs.ManySessions
/-
Calls of getters while other grids are closed.
-/
namespace Asagi
open Spec Props
variable {α : Type}

/-- A call changes nothing for the other threads. -/
structure CallFrame (L : LevelSys α) (t : Nat) (s x : L.S) : Prop where
  busy : ∀ u, L.busy x u → L.busy s u ∨ u = t
  uses : ∀ k u, L.uses k x u → L.uses k s u

theorem getterCalled_ne {c : LevelCfg α} {t : Nat} {pos : List Dbl} {st : DistState α} (h : GetterCalled c t pos st st) : False := by
  have := called_busy h
  exact this.1 this.2

theorem getterCalled_other {c : LevelCfg α} {t u : Nat} {pos : List Dbl} {st st' : DistState α} (h : GetterCalled c t pos st st')
    (hu : st.pc (.user u) ≠ .idle) : st'.pc (.user u) = st.pc (.user u) := by
  obtain ⟨idx, -, h1, rfl⟩ := h
  exact upd_ne _ _ (user_ne fun e => hu (e ▸ h1))

theorem leavesLib_moves {P : DistParams α} {t : Nat} {st st' : DistState α} (hl : (st.pc (.user t)).leavesLib = true)
    (h : UserStep P t st st') : st'.pc (.user t) ≠ st.pc (.user t) := by
  cases h <;> simp_all [Pc.leavesLib, DistState.goto]

theorem win_call_frame {c : LevelCfg α} {C : WinParams α} {t : Nat} {pos : List Dbl} {s x : WinState α} (hs : WinStep C s x)
    (hc : GetterCalled c t pos s.st x.st) : CallFrame (C.sys c) t s x := by
  have hm : x.mtx = s.mtx := by
    cases hs with
    | plain t st' => rfl
    | call t l m' => exact (getterCalled_ne hc).elim
    | inside m' => exact (getterCalled_ne hc).elim
    | delete t' b off sl o m' h1 =>
      have := getterCalled_other hc (u := t') (by rw [h1]; nofun)
      rw [h1] at this
      simp [DistState.goto] at this
    | add t' b off sl m' h1 =>
      have := getterCalled_other hc (u := t') (by rw [h1]; nofun)
      rw [h1] at this
      simp [DistState.goto] at this
    | start t' b off sl rnd m' h1 =>
      have := getterCalled_other hc (u := t') (by rw [h1]; nofun)
      rw [h1] at this
      simp [DistState.goto] at this
    | endCall t l m' => exact (getterCalled_ne hc).elim
    | leave t' l m' st' h1 h2 h3 h4 h5 =>
      exact (leavesLib_moves h1 h5 (getterCalled_other hc (by intro h; rw [h] at h1; cases h1))).elim
  obtain ⟨idx, -, h1, h2⟩ := hc
  refine ⟨fun u hu => ?_, fun k u hu => ?_⟩
  · change x.st.pc (.user u) ≠ .idle at hu
    rw [h2] at hu
    exact call_others u hu
  · cases k with
    | mpi =>
      change _ ∧ x.mtx.proc _ = _ at hu
      rw [hm] at hu
      exact hu
    | netcdf =>
      change (x.st.pc (.user u)).reading at hu
      rw [h2] at hu
      exact call_reading u hu

theorem proper_call_frame {rank : Nat → Nat} {f : OpenedFile α} {L : LevelSys α} (h : ProperLevel rank f L) {t : Nat}
    {pos : List Dbl} {s x : L.S} (hs : L.step s x) (hc : L.called t pos s x) : CallFrame L t s x := by
  induction h with
  | cacheWindow c S C => exact win_call_frame hs hc
  | cache c S =>
    obtain ⟨idx, -, -, rfl⟩ := hc
    exact ⟨fun u hu => call_others u hu, fun k u hu => by cases k with
      | mpi => exact hu
      | netcdf => exact call_reading u hu⟩
  | full c X s0 lib =>
    obtain ⟨st', ⟨idx, -, -, -, rfl⟩, rfl⟩ := hc
    exact ⟨fun u hu => call_others u hu, fun k u hu => by cases k <;> exact hu⟩
  | passThrough c slot r team buf0 =>
    obtain ⟨-, rfl⟩ := hc
    refine ⟨fun u hu => ?_, fun k u hu => hu⟩
    change upd _ _ _ _ ≠ _ at hu
    by_cases e : u = t
    · exact .inr e
    · rw [upd_ne _ _ e] at hu; exact .inl hu
  | some L R rank' team _ _ _ ih =>
    have := ih hs.1 hc
    exact ⟨this.busy, this.uses⟩

theorem close_call_frame {rank : Nat → Nat} {procs : Nat} {f : OpenedFile α} {W : CloseSys α} (hp : ProperClose rank procs f W)
    {t : Nat} {pos : List Dbl} {s x : W.S} (hs : W.step s x) (hc : W.called t pos s x) :
    CallFrame W.toLevelSys t s x ∧ W.inbox x = W.inbox s ∧ W.stage x = W.stage s := by
  cases hp with
  | other L hL =>
    have hs : LevelCloseStep L rank procs s x := hs
    have hc : L.called t pos s.1 x.1 := hc
    have hno : ∀ y : L.S, L.called t pos y y → False := fun y h => C85_value.not_called hL h
    cases hs with
    | use s x k h1 h2 h3 =>
      have := proper_call_frame hL h1 hc
      exact ⟨⟨this.busy, this.uses⟩, rfl, rfl⟩
    | call => exact (hno _ hc).elim
    | pass => exact (hno _ hc).elim
    | free => exact (hno _ hc).elim
  | full c X s0 =>
    have hs : CloseFullStep c X s0.data procs true s x := hs
    have hc : ∃ st', FullCalled c X.F t pos (CloseFullSt.x s).st st' ∧ CloseFullSt.x x = { (CloseFullSt.x s) with st := st' } := hc
    have hno : CloseFullSt.x x = CloseFullSt.x s → False := fun e => by
      obtain ⟨st', ⟨idx, -, -, h1, h2⟩, h3⟩ := hc
      have h4 : (CloseFullSt.x x).st = st' := congrArg XferSt.st h3
      rw [e] at h4
      have h5 := congrArg (fun y => DistState.pc y (.user t)) (h4.trans h2)
      dsimp only at h5
      rw [upd_self, h1] at h5; cases h5
    have hst : CloseFullSt.stage x = CloseFullSt.stage s := by
      cases hs with
      | use => rfl
      | drop => rfl
      | _ => exact (hno rfl).elim
    obtain ⟨st', ⟨idx, -, -, -, rfl⟩, h3⟩ := hc
    refine ⟨⟨fun u hu => ?_, fun k u hu => ?_⟩, ?_, hst⟩
    · change (CloseFullSt.x x).st.pc (.user u) ≠ .idle at hu
      rw [h3] at hu
      exact call_others u hu
    · cases k with
      | mpi => cases hu.1
      | netcdf => exact hu
    · show (fun q r => ((CloseFullSt.x x).wire q r).map Msg.tag) = _
      rw [h3]; rfl
  | cache c S C =>
    have hs : CloseMsgStep C procs true s x := hs
    have hc : ∃ st', GetterCalled c t pos (CloseSt.ms s).st st' ∧ CloseSt.ms x = { (CloseSt.ms s) with st := st' } := hc
    have hno : CloseSt.ms x = CloseSt.ms s → False := fun e => by
      obtain ⟨st', h2, h3⟩ := hc
      have h4 : (CloseSt.ms x).st = st' := congrArg MsgSt.st h3
      rw [e] at h4
      rw [← h4] at h2
      exact getterCalled_ne h2
    have hst : CloseSt.stage x = CloseSt.stage s := by
      cases hs with
      | use => rfl
      | drop => rfl
      | _ => exact (hno rfl).elim
    obtain ⟨st', ⟨idx, -, -, rfl⟩, h3⟩ := hc
    refine ⟨⟨fun u hu => ?_, fun k u hu => ?_⟩, ?_, hst⟩
    · change (CloseSt.ms x).st.pc (.user u) ≠ .idle at hu
      rw [h3] at hu
      exact call_others u hu
    · cases k with
      | mpi => exact hu
      | netcdf =>
        change ((CloseSt.ms x).st.pc (.user u)).reading at hu
        rw [h3] at hu
        exact call_reading u hu
    · show (fun q r => ((CloseSt.ms x).wire q r).map Msg.tag) = _
      rw [h3]; rfl

end Asagi
