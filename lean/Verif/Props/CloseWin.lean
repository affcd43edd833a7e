import Verif.Proofs.CloseWin
import Verif.Props.WinCache
/-
C92: closing a cached grid with MPI windows.
-/
namespace Asagi.Props
open Asagi Asagi.Spec
variable {β : Type} {C : WinParams β} {procs : Nat} {s : CloseWinSt β}

theorem CloseWinReach.legal_inv (hC : LegalWin C) (hp : ∀ t, C.P.rankT t < procs)
    (h : CloseWinReach C procs s) : CloseWinInv C procs s :=
  h.inv hC.dist hC.legal hC.window hp

/-- **C92** for windows: as long as one process has not called `close`, the grid works as before (all
theorems of C81 apply to this state). -/
theorem C92_win_in_use (hC : LegalWin C) (hp : ∀ t, C.P.rankT t < procs)
    (h : CloseWinReach C procs s) (q : Nat) (hq : q < procs) (h0 : s.stage q = 0) : WinReach C s.ws :=
  (CloseWinReach.legal_inv hC hp h).used ⟨q, hq, h0⟩

/-- **C92** for windows: when the barrier is passed anywhere, i.e. before a mutex is deleted, all
processes have called `close` and no thread of any process uses a window or a lock of the grid. -/
theorem C92_win_after_barrier (hC : LegalWin C) (hp : ∀ t, C.P.rankT t < procs)
    (h : CloseWinReach C procs s) (r : Nat) (hr : 2 ≤ s.stage r) :
    (∀ q, q < procs → 1 ≤ s.stage q) ∧ WindowsUnused C s.ws := by
  have hi := CloseWinReach.legal_inv hC hp h
  have hb := hi.bar r hr
  exact ⟨fun q hq => Nat.pos_of_ne_zero (hb q hq), hi.all hb⟩

/-- **C92** for windows: the memory of a window is freed only after all processes have come to the
`MPI_Win_free` of this window. -/
theorem C92_win_freed (hC : LegalWin C) (hp : ∀ t, C.P.rankT t < procs)
    (h : CloseWinReach C procs s) (r : Nat) (hr : 6 ≤ s.stage r) (q : Nat) (hq : q < procs) :
    4 ≤ s.stage q :=
  (CloseWinReach.legal_inv hC hp h).cache r (by omega) q hq

/-- **C92** for windows: when all processes have called `close`, it returns in all of them. -/
theorem C92_win_returns (hC : LegalWin C) (hp : ∀ t, C.P.rankT t < procs)
    (h : CloseWinReach C procs s) (ha : ∀ q, q < procs → 1 ≤ s.stage q) :
    ∃ N, ∀ n s', CloseWinRun C procs n s s' → n ≤ N ∧
      ((∀ s'', ¬ CloseWinStep C procs s' s'') → ∀ r, r < procs → s'.stage r = 6) := by
  refine ⟨s.remain procs, fun n s' hr => ?_⟩
  have key : CloseWinInv C procs s' ∧ (∀ q, q < procs → s'.stage q ≠ 0) ∧
      n + s'.remain procs ≤ s.remain procs := by
    induction hr with
    | zero => exact ⟨CloseWinReach.legal_inv hC hp h, fun q hq => Nat.ne_of_gt (ha q hq), by omega⟩
    | more hr hs ih =>
      obtain ⟨h1, h2, h4⟩ := ih h ha
      obtain ⟨h5, h7⟩ := h1.less hp h2 hs
      exact ⟨h1.step hC.dist hC.legal hC.window hp hs, h5, by omega⟩
  obtain ⟨h1, h2, h4⟩ := key
  refine ⟨by omega, fun hend r hr' => ?_⟩
  apply Classical.byContradiction
  intro h8
  obtain ⟨s'', hs⟩ := h1.go h2 hr' h8
  exact hend s'' hs

/-! ### Examples: two processes, see `exWin` -/

theorem exWin_ranks (lib : Bool) (t : Nat) : (exWin lib).P.rankT t < 2 := by
  show t % 4 / 2 < 2
  omega

/-- Thread 0 has got a value of block 6 and has returned. -/
def exCloseWinRun : List WinCmd := [.call 0 6 0] ++ winSteps 0 1 20

def exCloseWinIdle (n : Nat) (ws : WinState Nat) : Bool :=
  match ws.st.pc (.user n) with
  | .idle => true
  | _ => false

theorem exCloseWinIdle_all (n : Nat) : (winRun (exWin false) exCloseWinRun).all (exCloseWinIdle n) = true :=
  match n with
  | 0 => by decide +kernel
  | n + 1 => by rfl

theorem exCloseWin_state : ∃ ws, WinReach (exWin false) ws ∧ (∀ t, ws.st.pc (.user t) = .idle) ∧
    ws.st.dir 6 = [0, -1, -1, -1] := by
  obtain ⟨ws, hr, hc⟩ : ∃ ws, winRun (exWin false) exCloseWinRun = some ws ∧
      ws.st.dir 6 = [0, -1, -1, -1] := by
    have h : (winRun (exWin false) exCloseWinRun).any
        (fun ws => decide (ws.st.dir 6 = [0, -1, -1, -1])) = true := by decide +kernel
    cases hr : winRun (exWin false) exCloseWinRun with
    | none => rw [hr] at h; cases h
    | some ws => rw [hr] at h; exact ⟨ws, rfl, of_decide_eq_true h⟩
  refine ⟨ws, winRun_reach (fun _ _ => trivial) hr, fun n => ?_, hc⟩
  have h := exCloseWinIdle_all n
  rw [hr] at h
  simp only [Option.all_some, exCloseWinIdle] at h
  split at h
  · next e => exact e
  · cases h

/-- Process 0 is in `close`, process 1 uses the grid. -/
example : ∃ s, CloseWinReach (exWin false) 2 s ∧ s.stage 0 = 1 ∧ s.stage 1 = 0 := by
  obtain ⟨ws, h, h1, -⟩ := exCloseWin_state
  exact ⟨_, .step h.open_ (.call _ 0 (by decide) rfl fun t _ => h1 t), rfl, rfl⟩

/-- Process 0 has freed its memory, process 1 is still in `MPI_Win_free` of the second window: the
hypotheses of the other theorems are met. -/
example : ∃ s, CloseWinReach (exWin false) 2 s ∧ s.stage 0 = 6 ∧ s.stage 1 = 4 ∧
    s.ws.st.dir 6 = [0, -1, -1, -1] := by
  obtain ⟨ws, h, h1, h2⟩ := exCloseWin_state
  have hb : ∀ {k : Nat} {f : Nat → Nat}, k ≤ f 0 → k ≤ f 1 → ∀ q, q < 2 → k ≤ f q := by
    intro k f h0 h1 q hq
    have : q = 0 ∨ q = 1 := by omega
    rcases this with rfl | rfl <;> assumption
  have c1 := Reachable.step (h.open_ (procs := 2)) (.call _ 0 (by decide) rfl fun t _ => h1 t)
  have c2 := Reachable.step c1 (.call _ 1 (by decide) rfl fun t _ => h1 t)
  have c3 := Reachable.step c2 (.pass _ 0 rfl (hb (Nat.le_refl 1) (Nat.le_refl 1)))
  have c4 := Reachable.step c3 (.pass _ 1 rfl (hb (Nat.le_succ 1) (Nat.le_refl 1)))
  have c5 := Reachable.step c4 (.mutexes _ 0 rfl)
  have c6 := Reachable.step c5 (.mutexes _ 1 rfl)
  have c7 := Reachable.step c6 (.dictWin _ 0 rfl (hb (Nat.le_refl 3) (Nat.le_refl 3)))
  have c8 := Reachable.step c7 (.dictWin _ 1 rfl (hb (Nat.le_succ 3) (Nat.le_refl 3)))
  have c9 := Reachable.step c8 (.cacheWin _ 0 rfl (hb (Nat.le_refl 4) (Nat.le_refl 4)))
  exact ⟨_, .step c9 (.free _ 0 rfl), rfl, rfl, h2⟩

end Asagi.Props
