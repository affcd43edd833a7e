import Verif.Proofs.CacheDistFair
import Verif.Props.SharedLive
/-
C49, positive part: with at most one getter per NUMA domain at a time, every block request finally
succeeds, in every fair execution.
-/
namespace Asagi.Props
open Asagi Asagi.Spec
variable {β : Type} {P : DistParams β} {st : DistState β}

/-- **C49**, the part that holds (communication thread, real locks): from every reachable state in
which no two threads inside of getters use the same NUMA domain of the same process, in particular if
each process has one thread, every fair execution without new calls comes to a state in which all
getters have returned, whatever the caches, the directory and the messages on the way contain, and
however many requests were refused before. Missing: two threads in one domain
(`C49_livelock_violated`), builds without thread support (`C49_noop_violated`) and an unlimited
number of new calls of other threads. -/
theorem C49_fair_partial (hl : Legal P) (hm : P.mode = .thread) (hno : P.noop = false)
    (σ : Nat → DistState β) (h : DistReach P (σ 0))
    (hone : ∀ t u, (σ 0).pc (.user t) ≠ .idle → (σ 0).pc (.user u) ≠ .idle → P.dom t = P.dom u → t = u)
    (hx : Execution P σ) (hf : Fair P σ) : ∃ N, ∀ n, N ≤ n → ∀ t, (σ n).pc (.user t) = .idle := by
  have hend : ∃ N, ∀ t, (σ N).pc (.user t) = .idle := by
    by_contra hno2
    push Not at hno2
    have hq : ∀ n, DistReach P (σ n) ∧ Quiet P (σ n) (σ (n + 1)) := by
      have hstep : ∀ n, DistReach P (σ n) → Quiet P (σ n) (σ (n + 1)) := by
        intro n hr
        rcases hx n with hq | ⟨-, he⟩
        · exact hq
        · obtain ⟨t, ht⟩ := hno2 n
          obtain ⟨st', hq⟩ := C18_no_deadlock hl hr t ht
          exact absurd hq (he st')
      intro n
      induction n with
      | zero => exact ⟨h, hstep 0 h⟩
      | succ n ih =>
        have hr := Reachable.step ih.1 ih.2.1
        exact ⟨hr, hstep (n + 1) hr⟩
    exact no_infinite hl hm hno h hone (fun n => (hq n).2) hf
  obtain ⟨N, hN⟩ := hend
  refine ⟨N, forever hN (fun n _ hi t => ?_)⟩
  rcases hx n with hq | ⟨e, -⟩
  · exact hq.2 t (hi t)
  · rw [e]; exact hi t

/-- **C49**, the part that holds: in the situation of `C49_fair_partial`, there is no trap. From every
reachable state there is an execution without new calls in which all getters return, and a fair
execution. (In `C49_livelock_violated` no execution lets the getter return.) -/
theorem C49_no_trap_partial (hl : Legal P) (hm : P.mode = .thread) (hno : P.noop = false)
    (h : DistReach P st)
    (hone : ∀ t u, st.pc (.user t) ≠ .idle → st.pc (.user u) ≠ .idle → P.dom t = P.dom u → t = u) :
    (∃ n st', QuietRun P n st st' ∧ ∀ t, st'.pc (.user t) = .idle) ∧
      ∃ σ, σ 0 = st ∧ Execution P σ ∧ Fair P σ := by
  obtain ⟨L, hL⟩ := busy_finite h
  exact ⟨all_run hl hm hno L h hone hL, fair_exists hl hm hno h hone⟩

/-- The hypotheses of `C49_fair_partial` and `C49_no_trap_partial`: thread 0 of process 0 needs block
5, which process 1 has, and thread 1 of process 1 needs block 4, which process 0 has. This is the state
of `C49_livelock_violated` without the threads 2 and 3. -/
example : ∃ σ : Nat → DistState Nat, Legal (exPair false) ∧ DistReach (exPair false) (σ 0) ∧
    (σ 0).pc (.user 0) = .own 5 0 1 .start ∧ (σ 0).pc (.user 1) = .own 4 0 1 .start ∧
    (σ 0).dir 4 = [0, -1, -1, -1] ∧ (σ 0).dir 5 = [2, -1, -1, -1] ∧
    (∀ t u, (σ 0).pc (.user t) ≠ .idle → (σ 0).pc (.user u) ≠ .idle →
      (exPair false).dom t = (exPair false).dom u → t = u) ∧
    Execution (exPair false) σ ∧ Fair (exPair false) σ := by
  obtain ⟨st, hr, -, -, hidle, hc⟩ := exPair_state (noop := false)
    ([.call 0 4 0] ++ steps 0 12 ++ [.call 1 5 0] ++ steps 1 12 ++
      [.call 0 5 0] ++ steps 0 4 ++ [.call 1 4 0] ++ steps 1 4)
    (fun st => match st.pc (.user 0), st.pc (.user 1), st.pc (.user 2), st.pc (.user 3) with
      | .own 5 0 1 .start, .own 4 0 1 .start, .idle, .idle =>
        decide (st.dir 4 = [0, -1, -1, -1] ∧ st.dir 5 = [2, -1, -1, -1])
      | _, _, _, _ => false) (by decide +kernel) (by decide +kernel) (by decide +kernel)
  revert hc
  split
  · next p0 p1 p2 p3 =>
    intro hc
    obtain ⟨d4, d5⟩ := of_decide_eq_true hc
    have hone : ∀ t u, st.pc (.user t) ≠ .idle → st.pc (.user u) ≠ .idle →
        (exPair false).dom t = (exPair false).dom u → t = u := by
      have hb : ∀ t, st.pc (.user t) ≠ .idle → t < 2 := by
        intro t ht
        by_contra hge
        by_cases h4 : 4 ≤ t
        · exact ht (hidle t h4)
        · have : t = 2 ∨ t = 3 := by omega
          rcases this with rfl | rfl
          · exact ht p2
          · exact ht p3
      intro t u ht hu hd
      have h1 := hb t ht
      have h2 := hb u hu
      have hd : t % 2 = u % 2 := hd
      omega
    obtain ⟨-, σ, h0, hx, hf⟩ := C49_no_trap_partial (exPair_legal false) rfl rfl hr hone
    subst h0
    exact ⟨σ, exPair_legal _, hr, p0, p1, d4, d5, hone, hx, hf⟩
  · intro hc; cases hc

end Asagi.Props
