import Verif.Proofs.WinStarve
import Verif.Props.WinCache
/-
No thread starves in the implemented distributed lock and in the caches that use it.
Executions and fairness: `Spec/Starvation.lean`.
-/
namespace Asagi.Props
open Spec
variable {β : Type} {C : WinParams β}

/-- **C36**: every thread that calls the lock gets it, uses it and releases it, although others call
it again and again. Only the mutexes of the processes and the locks of the windows have to be granted
fairly; the lock itself then is granted fairly by its queue. The owner of the lock may wait before
the release, but not for ever (`Spec.FairLocksOf`). -/
theorem C36_no_starvation {P : MtxParams} {σ : Nat → MtxState} (h : MtxReach P false (σ 0))
    (hc : CourseOf (MtxStep P false) σ)
    (hf : FairLocksOf (MtxMoves P) (fun t s => s.pc t = .idle) σ) (t : Thr) (n : Nat) :
    ∃ m, n ≤ m ∧ (σ m).pc t = .idle :=
  mtx_returns h hc hf t n

/-- **C102** and C81: getters of the caches with MPI windows and the implemented lock return. -/
theorem C102_window (hC : LegalWin C) {σ : Nat → WinState β} (h : WinReach C (σ 0))
    (hc : CourseOf (WinStep C) σ)
    (hf : FairLocksOf (WinMoves C) (fun t ws => ws.st.pc (.user t) = .idle) σ) (t n : Nat) :
    ∃ m, n ≤ m ∧ (σ m).st.pc (.user t) = .idle :=
  (win_fair hC h hc hf).2 t n

/-- Thread 2 is inside of a getter and waits in the queue of the lock behind thread 1, which waits for
thread 0; in the rest of the execution thread 3 calls a getter again and again. -/
theorem exWin_course : ∃ σ, WinReach (exWin false) (σ 0) ∧
    (∃ d n, (σ 0).mtx.pc ((exWin false).thr 1) = .sending 6 d n) ∧
    (∃ d n, (σ 0).mtx.pc ((exWin false).thr 2) = .sending 6 d n) ∧ (σ 0).st.pc (.user 2) ≠ .idle ∧
    CourseOf (WinStep (exWin false)) σ ∧
    FairLocksOf (WinMoves (exWin false)) (fun t ws => ws.st.pc (.user t) = .idle) σ ∧
    ∀ n, ∃ m, n ≤ m ∧ (σ m).st.pc (.user 3) = .idle ∧ (σ (m + 1)).st.pc (.user 3) = .wantCm 6 1 := by
  obtain ⟨ws, hr, hk⟩ := exWin_state (lib := false) exWinQueue
    (fun ws => (match ws.mtx.pc ((exWin false).thr 1), ws.mtx.pc ((exWin false).thr 2),
        ws.st.pc (.user 2) with
      | .sending 6 _ _, .sending 6 _ _, .own .. => true
      | _, _, _ => false)) (by decide +kernel)
  obtain ⟨σ, h0, h1, h2, h3⟩ := winFair_exists (exWin_legal false) hr (t := 3) (b := 6) (off := 1)
    ⟨by decide, trivial⟩ (by decide)
  split at hk
  · next e1 e2 e3 =>
    rw [← h0] at hr e1 e2 e3
    exact ⟨σ, hr, ⟨_, _, e1⟩, ⟨_, _, e2⟩, by rw [e3]; nofun, h1, h2, h3⟩
  · cases hk

/-- The hypotheses of `C36_no_starvation` hold in the lock of this execution, with two threads in the
queue. -/
example : ∃ σ, MtxReach (exWin false).M false (σ 0) ∧
    (∃ t u, t ≠ u ∧ WaitsLock (σ 0) t 6 ∧ WaitsLock (σ 0) u 6) ∧
    CourseOf (MtxStep (exWin false).M false) σ ∧
    FairLocksOf (MtxMoves (exWin false).M) (fun t s => s.pc t = .idle) σ := by
  obtain ⟨σ, h0, ⟨_, _, h1⟩, ⟨_, _, h2⟩, -, h3, h4, -⟩ := exWin_course
  have hC := exWin_legal false
  have w1 : WaitsLock (σ 0).mtx ((exWin false).thr 1) 6 := by rw [waits_iff, h1]; rfl
  have w2 : WaitsLock (σ 0).mtx ((exWin false).thr 2) 6 := by rw [waits_iff, h2]; rfl
  obtain ⟨h5, h6⟩ := (win_fair hC h0 h3 h4).1
  exact ⟨fun n => (σ n).mtx, (WinReach.all hC.dist hC.legal hC.window h0).2.1,
    ⟨_, _, by decide, w1, w2⟩, h5, h6⟩

end Asagi.Props
