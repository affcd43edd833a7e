import Verif.Proofs.FullMsgStarve
import Verif.Props.Starvation
import Verif.Props.FullMsg
/-
No thread starves in distributed FULL grids with the implemented transfers.
Executions and fairness: `Spec/Starvation.lean`.
-/
namespace Asagi.Props
open Spec
variable {α : Type} {c : LevelCfg α} {X : XferCfg α} {s0 : FullDist α}

/-- **C102** and C83 for distributed FULL grids with the communication thread or with MPI windows: every
access returns, although other threads make new calls all the time, and every request is received and
answered. Locks are granted fairly, and no communication thread is stopped or leaves the requests of
one process unreceived for ever (`Spec.XferAgent`). `MPI_Send` may buffer messages or not. -/
theorem C102_full_transfer {fp : Fp} {cc : Bool} {nc : List NcAxis} {val : List Nat → α}
    (ho : Opened fp cc nc val c) (h : FullOpened c X.F s0) {early : Bool} {σ : Nat → XferSt α}
    (hr : XferReach c X s0.data (σ 0)) (hc : CourseOf (XferStep c X s0.data early) σ)
    (hf : FairLocksOf (XferMoves c X s0.data early) XferOut σ) (n : Nat) :
    (∀ t, ∃ m, n ≤ m ∧ (σ m).st.pc (.user t) = .idle) ∧
    (∀ src r, ∃ m, n ≤ m ∧ (σ m).wire src r = []) ∧
    ∀ r, ∃ m, n ≤ m ∧ (σ m).comm r = none := by
  obtain ⟨wf, hx, -⟩ := ho.spec
  have hr' := xcourse_reach hr hc
  refine ⟨fun t => ?_, fun src r => ?_, fun r => ?_⟩
  · refine C102_full ho h (σ := fun n => (σ n).st) (XferReach.inv hr).2 (fun n => ?_)
      (xfer_fair wf hx h hr' hc hf) t n
    rcases hc n with hs | e
    · exact ((XferReach.inv (hr' n)).1.step hs).2.symm
    · exact .inr (by simp only [e])
  · by_contra hne
    push Not at hne
    exact xfer_wire wf hx h hr' hc hf hne
  · by_contra hne
    push Not at hne
    exact xfer_busy wf hx h hr' hc hf hne

/-- An execution of this kind without buffered messages: thread 2 waits for the reply of process 0,
thread 3 for the mutex of process 1, and thread 0 calls a getter again and again. -/
example : ∃ s0 σ, FullOpened exLevel (exXfer false).F s0 ∧
    XferReach exLevel (exXfer false) s0.data (σ 0) ∧
    AwaitsReply exLevel (exXfer false) (σ 0) 0 2 2 ∧ (σ 0).wire 1 0 ≠ [] ∧
    (σ 0).st.pc (.user 3) = .own 2 2 0 (.load 0) ∧
    CourseOf (XferStep exLevel (exXfer false) s0.data false) σ ∧
    FairLocksOf (XferMoves exLevel (exXfer false) s0.data false) XferOut σ ∧
    (∀ n, ∃ m, n ≤ m ∧ XferCalled exLevel (exXfer false) 0 [.fin 4, .fin 7.5] (σ m) (σ (m + 1))) ∧
    ∃ m, (σ m).st.pc (.user 3) = .idle := by
  obtain ⟨s0, hop, x, hr, hk⟩ := exXfer_state (win := false) exXferAsk
    (fun x => match x.st.pc (.user 2), x.st.pc (.user 3), x.call 2 with
      | .own 2 2 0 (.load 0), .own 2 2 0 (.load 0), .waiting => decide (x.wire 1 0 = [⟨7, 1, 0⟩])
      | _, _, _ => false) (by decide +kernel)
  obtain ⟨wf, hex, -⟩ := exLevel_opened.spec
  have hidle : ∀ {s}, XferReach exLevel (exXfer false) s0.data s →
      (∀ s', ¬ XferQuiet exLevel (exXfer false) s0.data false s s') → ∀ a, XferOut a s := by
    intro s hr hq a
    have hi := (XferReach.inv hr).1
    have hcomm : ∀ r, s.comm r = none := by
      intro r
      by_contra hn
      obtain ⟨s', h', -⟩ := hi.go_comm (early := false) hn
      exact hq s' h'
    cases a with
    | user t =>
      by_contra hn
      obtain ⟨s', h'⟩ := Xfer.progress (early := false) wf hex hop hr hn
      exact hq s' h'
    | request q r =>
      cases hl : s.wire q r with
      | nil => exact hl
      | cons m rest =>
        obtain ⟨s', h', -⟩ := Xfer.go_wire (early := false) wf hex hop hr (hcomm r) hl
        exact absurd h' (hq s')
    | reply r => exact hcomm r
  obtain ⟨σ, e0, h1, h2, h3⟩ := fairCourse_exists (reach := XferReach exLevel (exXfer false) s0.data)
    (quiet := XferQuiet exLevel (exXfer false) s0.data false)
    (step := XferStep exLevel (exXfer false) s0.data false)
    (Q := fun s s' => XferCalled exLevel (exXfer false) 0 [.fin 4, .fin 7.5] s s')
    (XferMoves exLevel (exXfer false) s0.data false) XferOut
    (fun h hs => .step h hs.buffered) (fun h => h.1) (fun τ hτ hq => by
      obtain ⟨N, hN⟩ := C83_returns exLevel_opened hop hτ false
      have hrun : ∀ j, XferQuietRun exLevel (exXfer false) s0.data false j (τ 0) (τ j) := by
        intro j
        induction j with
        | zero => exact .zero _
        | succ j ih => exact .succ ih (hq j)
      have := (hN _ _ (hrun (N + 1))).1
      omega) hidle (fun {s} hr hq => by
      have hcall : ∃ s', XferCalled exLevel (exXfer false) 0 [.fin 4, .fin 7.5] s s' :=
        ⟨_, _, ⟨[1, 4], by decide +kernel, by unfold FullCfg.isLocal; decide +kernel,
          hidle hr hq (.user 0), rfl⟩, rfl⟩
      obtain ⟨s', st', g1, rfl⟩ := hcall
      exact ⟨_, .call s 0 _ st' g1, st', g1, rfl⟩) hr
  obtain ⟨m, -, hm⟩ := (C102_full_transfer exLevel_opened hop (σ := σ) (e0 ▸ hr) h1 h2 0).1 3
  refine ⟨s0, σ, hop, e0 ▸ hr, ?_⟩
  revert hk
  split
  · next f1 f2 f3 =>
    intro hk
    rw [e0]
    exact ⟨⟨by decide, ⟨2, 0, f1⟩, .inl f3⟩, by rw [of_decide_eq_true hk]; nofun, f2, h1, h2, h3, m, hm⟩
  · intro hk; cases hk

end Asagi.Props
