import Verif.Proofs.ManyStarveWin
import Verif.Props.ManyLevels
/-
No thread starves if several levels are used at the same time.
Executions and fairness: `Spec/Starvation.lean`, `Spec/ManyStarve.lean`.
-/
namespace Asagi.Props
open Spec
variable {α : Type} {G : Many α} {f : Nat → OpenedFile α}

/-- **C102** and C85: if several levels, of one or of several grids, are used at the same time, every access
returns, although other threads make new calls in all levels all the time. The levels share `mpiLock` and
`netcdfLock`. Locks are granted fairly: a thread that waits for one of these locks is not passed over for ever
by threads in the same or in other levels. -/
theorem C102_levels {p : ∀ i, LevelPos (G.L i)}
    (hG : ∀ i, i < G.n → LiveLevel G.rank (f i) (G.L i) (p i)) {σ : Nat → G.St} (h : ManyReach G (σ 0))
    (hc : CourseOf (ManyStep G) σ) (hf : FairLocksOf (ManyMoves G p) (fun t s => ¬ ManyBusy G s t) σ) (t n : Nat) :
    ∃ m, n ≤ m ∧ ¬ ManyBusy G (σ m) t := by
  have hr : ∀ n, ManyReach G (σ n) := by
    intro n
    induction n with
    | zero => exact h
    | succ n ih =>
      rcases hc n with h | h
      · exact .step ih h
      · rw [h]; exact ih
  exact many_returns (fun i hi => (good_proper (live_proper (hG i hi)).1).toSafe)
    (fun i hi => Classical.choice (live_proper (hG i hi)).2) hr hc hf t n

/-- The positions in the levels of the example. -/
def exManyPosOf : ∀ i, LevelPos (exMany.L i) := fun i => match i with
  | 0 | 1 => ⟨Pc (List Nat) × MtxPc, fun (ws : WinState (List Nat)) t =>
      (ws.st.pc (.user t), ws.mtx.pc (exManyWin.thr t))⟩
  | _ + 2 => ⟨PassPc (List Nat), fun (s : PassState (List Nat)) t => s.pc t⟩

theorem exMany_live : ∀ i, i < exMany.n → LiveLevel exMany.rank exManyFile (exMany.L i) (exManyPosOf i) := by
  intro i hi
  match i with
  | 0 => exact .cacheWindow exLevel _ exManyWin exLevel_opened rfl exManyWin_legal fun _ => rfl
  | 1 => exact .cacheWindow exLevel _ exManyWin exLevel_opened rfl exManyWin_legal fun _ => rfl
  | 2 =>
    refine .passThrough exLevel _ 0 _ _ exLevel_opened (fun t ht => ?_) (fun t ht => ?_) fun t u ht hu e => ?_
    · show t % 4 / 2 = 0
      omega
    · show t / 4 * 2 + t % 2 < 4
      omega
    · omega
  | i + 3 => have : i + 3 < 3 := hi; omega

/-- Thread 0 has both locks in the first level, thread 1 waits for `mpiLock` in the second level, and thread 4
waits for `netcdfLock` in the third level. In the rest of the execution thread 4 calls a getter again and again. -/
example : ∃ σ : Nat → exMany.St, ManyReach exMany (σ 0) ∧
    InLibrary .mpi (exMany.L 0) (σ 0 0) 0 ∧ InLibrary .netcdf (exMany.L 0) (σ 0 0) 0 ∧
    ManyBusy exMany (σ 0) 1 ∧ ManyBusy exMany (σ 0) 4 ∧
    CourseOf (ManyStep exMany) σ ∧
    FairLocksOf (ManyMoves exMany exManyPosOf) (fun t s => ¬ ManyBusy exMany s t) σ ∧
    (∀ n, ∃ m, n ≤ m ∧ (exMany.L 2).called 4 exManyPos (σ m 2) (σ (m + 1) 2)) ∧
    ∃ m, ¬ ManyBusy exMany (σ m) 1 := by
  obtain ⟨s, s1, -, hr, hs, g1, g2, g3, -, g4, -⟩ := exMany_three
  have hidle : ∀ {s}, ManyReach exMany s → (∀ s', ¬ ManyQuiet exMany s s') → ∀ t, ¬ ManyBusy exMany s t := by
    intro s hr hq t ht
    obtain ⟨s', h⟩ := C85_no_deadlock exMany_proper hr t ht
    exact hq s' h
  obtain ⟨σ, e0, h1, h2, h3⟩ := fairCourse_exists (reach := ManyReach exMany) (quiet := ManyQuiet exMany)
    (step := ManyStep exMany) (Q := fun s s' => (exMany.L 2).called 4 exManyPos (s 2) (s' 2))
    (ManyMoves exMany exManyPosOf) (fun t s => ¬ ManyBusy exMany s t)
    (fun h hs => .step h hs) (fun h => h.1) (fun τ hτ hq => by
      obtain ⟨N, hN⟩ := C85_every_access_returns exMany_proper hτ
      have hrun : ∀ j, ManyQuietRun exMany j (τ 0) (τ j) := by
        intro j
        induction j with
        | zero => exact .zero _
        | succ j ih => exact .succ ih (hq j)
      have := (hN _ _ (hrun (N + 1))).1
      omega) hidle (fun {s} hr hq => by
      have hi : ∀ t, PassState.pc (s 2) t = .idle := by
        intro t
        by_contra hn
        exact hidle hr hq t ⟨2, by decide, hn⟩
      let z : PassState (List Nat) := s 2
      have hst : (exMany.L 2).step (s 2)
          ({ z with pc := upd z.pc 4 (.want exManyPos) } : PassState (List Nat)) := by
        refine ⟨.call (s := z) 4 exManyPos ⟨by decide, by decide⟩ (hi 4), fun e => ?_, fun t pos h => ?_⟩
        · have := congrFun e 4
          change upd z.pc 4 (.want exManyPos) 4 = z.pc 4 at this
          rw [upd_self, hi 4] at this; cases this
        · change upd z.pc 4 (.want exManyPos) t = .want pos at h
          rw [upd_apply] at h
          split at h
          · injection h with h
            subst h
            decide +kernel
          · rw [hi t] at h; cases h
      refine ⟨_, .level s 2 _ (by decide) hst (fun t _ _ j hj hb => hidle hr hq t ⟨j, hj, hb⟩)
        (fun k t h1 h2 => ?_), hi 4, ?_⟩
      · cases k with
        | mpi => exact h1.elim
        | netcdf => exact absurd h1 h2
      · exact Function.update_self ..) (.step hr hs)
  obtain ⟨m, -, hm⟩ := C102_levels (σ := σ) exMany_live (e0 ▸ .step hr hs) h1 h2 1 0
  refine ⟨σ, e0 ▸ .step hr hs, ?_⟩
  rw [e0]
  refine ⟨g1, g2, ⟨1, by decide, g3⟩, ⟨2, by decide, ?_⟩, h1, h2, h3, m, hm⟩
  obtain ⟨-, g4⟩ := g4
  intro h
  change PassState.pc (s1 2) 4 = .idle at h
  rw [g4] at h
  change upd (PassState.pc (s 2)) 4 (.want exManyPos) 4 = .idle at h
  rw [upd_self] at h; cases h

end Asagi.Props
