import Verif.Proofs.SessionStarve
import Verif.Props.ManySessions
/-
No thread starves in a program that uses several grids, from the `setParam` calls to the getters.
Executions and fairness: `Spec/Starvation.lean`, `Spec/SessionStarve.lean`.
-/
namespace Asagi.Props
open Spec
variable {α : Type} {Q : Program α} {G : Many α} {x : Nat → LevelVar α}

/-- **C102** and C87: any number of levels of any number of grids, each configured by any sequence of `setParam` calls
(without the communication thread) and opened for any variable, are used at the same time by the threads of all
processes. Every access returns, although other threads make new calls in all grids all the time, if locks are granted
fairly. -/
theorem C102_program (hQ : ProperProgram Q x) (hG : Q.Runs G) {p : ∀ i, LevelPos (G.L i)}
    (hp : ∀ i, i < Q.n → ImplPos (Q.V i) (G.L i) (p i)) {σ : Nat → G.St} (h : ManyReach G (σ 0))
    (hc : CourseOf (ManyStep G) σ) (hf : FairLocksOf (ManyMoves G p) (fun t s => ¬ ManyBusy G s t) σ) (t n : Nat) :
    ∃ m, n ≤ m ∧ ¬ ManyBusy G (σ m) t := by
  have hr : ∀ n, ManyReach G (σ n) := by
    intro n
    induction n with
    | zero => exact h
    | succ n ih =>
      rcases hc n with h | h
      · exact .step ih h
      · rw [h]; exact ih
  refine many_returns (fun i hi => (program_good hQ hG i hi).1.toSafe) (fun i hi => Classical.choice ?_) hr hc hf t n
  rw [hG.n] at hi
  rw [hG.rank]
  exact session_live (hQ.level i hi) (hQ.axes i hi) (hQ.sizes i hi) (hQ.noThread i hi) (hp i hi)

/-- A program with a FULL grid, a CACHE grid and a PASS_THROUGH grid. At the beginning thread 5 is in a getter of the
CACHE grid. In the rest of the execution, thread 2 calls a getter of the PASS_THROUGH grid again and again, and all locks
are granted fairly. Thread 5 returns. -/
example : ∃ (Q : Program (List Nat)) (G : Many (List Nat)) (p : ∀ i, LevelPos (G.L i)) (σ : Nat → G.St),
    ProperProgram Q (fun _ => exVar) ∧ Q.Runs G ∧ (Q.V 0).sel.type = .FULL_MPIWIN_NUMA ∧
    (Q.V 1).sel.type = .CACHE_MPIWIN_NUMA ∧ (Q.V 2).sel.type = .PASS_THROUGH ∧
    (∀ i, i < Q.n → ImplPos (Q.V i) (G.L i) (p i)) ∧ ManyReach G (σ 0) ∧ ManyBusy G (σ 0) 5 ∧
    CourseOf (ManyStep G) σ ∧ FairLocksOf (ManyMoves G p) (fun t s => ¬ ManyBusy G s t) σ ∧
    (∀ n, ∃ m, n ≤ m ∧ (G.L 2).called 2 [.fin 3.6, .fin 8.9] (σ m 2) (σ (m + 1) 2)) ∧
    ∃ m, ¬ ManyBusy G (σ m) 5 := by
  obtain ⟨Q, hn, hQ, k0, k1, k2, ⟨G, hG, s, hs, hidle⟩, hcall⟩ := exProgram_three
  have hpos : ∀ i, ∃ p : LevelPos (G.L i), i < Q.n → ImplPos (Q.V i) (G.L i) p := by
    intro i
    by_cases hi : i < Q.n
    · obtain ⟨p, hp⟩ := impl_pos (hG.sys i hi)
      exact ⟨p, fun _ => hp⟩
    · exact ⟨⟨Unit, fun _ _ => ()⟩, fun h => absurd h hi⟩
  choose p hp using hpos
  obtain ⟨s1, h1, h2⟩ := (hcall G hG s hs 1 5 (by simp) (hidle 5)).1
  have hq : ∀ {s}, ManyReach G s → (∀ s', ¬ ManyQuiet G s s') → ∀ t, ¬ ManyBusy G s t := by
    intro s hr hq t ht
    obtain ⟨s', h⟩ := (C87_every_access_returns hQ hG hr).1 t ht
    exact hq s' h
  obtain ⟨σ, e0, g1, g2, g3⟩ := fairCourse_exists (reach := ManyReach G) (quiet := ManyQuiet G)
    (step := ManyStep G) (Q := fun s s' => (G.L 2).called 2 [.fin 3.6, .fin 8.9] (s 2) (s' 2))
    (ManyMoves G p) (fun t s => ¬ ManyBusy G s t)
    (fun h hs => .step h hs) (fun h => h.1) (fun τ hτ hq => by
      obtain ⟨-, N, hN⟩ := C87_every_access_returns hQ hG hτ
      have hrun : ∀ j, ManyQuietRun G j (τ 0) (τ j) := by
        intro j
        induction j with
        | zero => exact .zero _
        | succ j ih => exact .succ ih (hq j)
      have := (hN _ _ (hrun (N + 1))).1
      omega) hq (fun {s} hr hn => (hcall G hG s hr 2 2 (by simp) (hq hr hn 2)).1) (.step hs h1)
  obtain ⟨m, -, hm⟩ := C102_program hQ hG hp (σ := σ) (e0 ▸ .step hs h1) g1 g2 5 0
  refine ⟨Q, G, p, σ, hQ, hG, k0, k1, k2, hp, e0 ▸ .step hs h1, ?_, g1, g2, g3, m, hm⟩
  have h3 : 1 < G.n := by rw [hG.n, hn]; decide
  rw [e0]
  exact ⟨1, h3, ((program_good hQ hG 1 h3).2.calledBusy _ _ _ _ h2).2⟩

end Asagi.Props
