import Verif.Spec.ManyLevels
import Mathlib.Algebra.BigOperators.Group.Finset.Basic
import Mathlib.Algebra.Order.BigOperators.Group.Finset
/-
Several levels at the same time: what is needed of each level, and what follows for all.
-/
namespace Asagi
open Spec Props
variable {α : Type} {L : LevelSys α} {G : Many α}

/-- States that a level can reach on its own. -/
def LevelSys.Reach (L : LevelSys α) : L.S → Prop := Reachable L.start L.step

/-- A step without a new call. -/
def LevelSys.Quiet (L : LevelSys α) (s x : L.S) : Prop := L.step s x ∧ ∀ t, L.busy x t → L.busy s t

inductive LevelSys.QuietRun (L : LevelSys α) : Nat → L.S → L.S → Prop
  | zero (s) : LevelSys.QuietRun L 0 s s
  | succ {n s s1 s2} : LevelSys.QuietRun L n s s1 → L.Quiet s1 s2 → LevelSys.QuietRun L (n + 1) s s2

inductive LevelSys.During (L : LevelSys α) (t : Nat) : L.S → L.S → Prop
  | refl (s) : LevelSys.During L t s s
  | tail {s s1 s2} : LevelSys.During L t s s1 → L.step s1 s2 → L.busy s2 t → LevelSys.During L t s s2

/-- What is needed of a level that uses the locks of the libraries. -/
structure LevelSys.Safe (L : LevelSys α) (f : OpenedFile α) : Prop where
  fresh : ∀ s t, L.start s → ¬ L.busy s t
  usesBusy : ∀ s k t, L.Reach s → L.uses k s t → L.busy s t
  single : ∀ s x k t u, L.Reach s → L.step s x → L.uses k x t → ¬ L.uses k s t → L.uses k x u →
    ¬ L.uses k s u → t = u
  value : ∀ s s1 s2 t pos idx v, L.Reach s → L.step s s1 → L.called t pos s s1 → L.During t s1 s2 →
    L.returns t s2 v → pos2index f.fp (openAxes f.fp f.cc f.nc) pos = some idx → v = f.val idx

/-- What is needed of a level. -/
structure LevelSys.Good (L : LevelSys α) (f : OpenedFile α) : Prop extends L.Safe f where
  free : ∀ s t, L.Reach s → L.busy s t → ∃ x, L.Quiet s x
  mpi : ∀ s t, L.Reach s → L.uses .mpi s t → ∃ x, L.Quiet s x ∧ ∀ u, L.uses .mpi x u → L.uses .mpi s u
  netcdf : ∀ s t, L.Reach s → L.uses .netcdf s t → ∃ x, L.Quiet s x ∧ ∀ k u, L.uses k x u → L.uses k s u
  bound : ∀ s, L.Reach s → ∃ N, ∀ n x, L.QuietRun n s x → n ≤ N

theorem many_level {s : G.St} (h : ManyReach G s) : ∀ i, (G.L i).Reach (s i) := by
  induction h with
  | init h => exact fun i => .init (h i)
  | step _ hs ih =>
    intro j
    cases hs with
    | level i x hi hst =>
      by_cases e : j = i
      · subst e; rw [Function.update_self]; exact .step (ih j) hst
      · rw [Function.update_of_ne e]; exact ih j

theorem many_quiet {s : G.St} {i : Nat} {x : (G.L i).S} (hi : i < G.n)
    (hb : ∀ t, (G.L i).busy x t → ¬ (G.L i).busy (s i) t → ∀ j, j < G.n → ¬ (G.L j).busy (s j) t)
    (hq : ∀ t, ManyBusy G (Function.update s i x) t → ManyBusy G s t) (t : Nat)
    (ht : (G.L i).busy x t) : (G.L i).busy (s i) t := by
  by_contra hn
  obtain ⟨j, hj, h⟩ := hq t ⟨i, hi, by rw [Function.update_self]; exact ht⟩
  exact hb t ht hn j hj h

/-- The projections of an execution. -/
theorem many_run {n : Nat} {s s' : G.St} (h : ManyQuietRun G n s s') :
    ∃ c : Nat → Nat, (∀ i, (G.L i).QuietRun (c i) (s i) (s' i)) ∧ n = ∑ i ∈ Finset.range G.n, c i := by
  induction h with
  | zero => exact ⟨fun _ => 0, fun i => .zero _, by simp⟩
  | succ _ hq ih =>
    obtain ⟨c, h1, h2⟩ := ih
    obtain ⟨hs, hq⟩ := hq
    cases hs with
    | level i x hi hst hb hu =>
      refine ⟨Function.update c i (c i + 1), fun j => ?_, ?_⟩
      · by_cases e : j = i
        · subst e
          rw [Function.update_self, Function.update_self]
          exact .succ (h1 j) ⟨hst, many_quiet hi hb hq⟩
        · rw [Function.update_of_ne e, Function.update_of_ne e]; exact h1 j
      · have hm : i ∈ Finset.range G.n := Finset.mem_range.2 hi
        rw [h2, ← Finset.add_sum_erase _ _ hm, ← Finset.add_sum_erase _ _ hm, Function.update_self]
        have : ∑ x ∈ (Finset.range G.n).erase i, Function.update c i (c i + 1) x =
            ∑ x ∈ (Finset.range G.n).erase i, c x :=
          Finset.sum_congr rfl fun j hj => Function.update_of_ne (Finset.ne_of_mem_erase hj) _ _
        omega

theorem many_bound {f : Nat → OpenedFile α} (hG : ∀ i, i < G.n → (G.L i).Good (f i)) {s : G.St}
    (h : ManyReach G s) : ∃ N, ∀ n s', ManyQuietRun G n s s' → n ≤ N := by
  have hN : ∀ i, ∃ N, i < G.n → ∀ n x, (G.L i).QuietRun n (s i) x → n ≤ N := by
    intro i
    by_cases hi : i < G.n
    · obtain ⟨N, hN⟩ := (hG i hi).bound _ (many_level h i)
      exact ⟨N, fun _ => hN⟩
    · exact ⟨0, fun h => absurd h hi⟩
  choose N hN using hN
  refine ⟨∑ i ∈ Finset.range G.n, N i, fun n s' hr => ?_⟩
  obtain ⟨c, h1, rfl⟩ := many_run hr
  exact Finset.sum_le_sum fun i hi => hN i (Finset.mem_range.1 hi) _ _ (h1 i)

/-- A quiet step of a level with new uses of locks that nobody has. -/
theorem many_lift {s : G.St} {i : Nat} {x : (G.L i).S} (hi : i < G.n) (hq : (G.L i).Quiet (s i) x)
    (hu : ∀ k t, (G.L i).uses k x t → ¬ (G.L i).uses k (s i) t →
      ∀ j u, j < G.n → ¬ (G.L j).uses k (s j) u) : ManyQuiet G s (Function.update s i x) := by
  refine ⟨.level s i x hi hq.1 (fun t h1 h2 => absurd (hq.2 t h1) h2)
    (fun k t h1 h2 j u hj _ => hu k t h1 h2 j u hj), ?_⟩
  rintro t ⟨j, hj, hb⟩
  by_cases e : j = i
  · subst e; rw [Function.update_self] at hb; exact ⟨j, hj, hq.2 t hb⟩
  · rw [Function.update_of_ne e] at hb; exact ⟨j, hj, hb⟩

theorem many_progress {f : Nat → OpenedFile α} (hG : ∀ i, i < G.n → (G.L i).Good (f i)) {s : G.St}
    (h : ManyReach G s) {t : Nat} (ht : ManyBusy G s t) : ∃ s', ManyQuiet G s s' := by
  by_cases hn : ∃ i u, i < G.n ∧ (G.L i).uses .netcdf (s i) u
  · obtain ⟨i, u, hi, hu⟩ := hn
    obtain ⟨x, hq, hx⟩ := (hG i hi).netcdf _ u (many_level h i) hu
    exact ⟨_, many_lift hi hq fun k v h1 h2 => absurd (hx k v h1) h2⟩
  by_cases hm : ∃ i u, i < G.n ∧ (G.L i).uses .mpi (s i) u
  · obtain ⟨i, u, hi, hu⟩ := hm
    obtain ⟨x, hq, hx⟩ := (hG i hi).mpi _ u (many_level h i) hu
    refine ⟨_, many_lift hi hq fun k v h1 h2 j w hj h3 => ?_⟩
    cases k with
    | mpi => exact h2 (hx v h1)
    | netcdf => exact hn ⟨j, w, hj, h3⟩
  · obtain ⟨i, hi, hb⟩ := ht
    obtain ⟨x, hq⟩ := (hG i hi).free _ t (many_level h i) hb
    refine ⟨_, many_lift hi hq fun k v h1 h2 j w hj h3 => ?_⟩
    cases k with
    | mpi => exact hm ⟨j, w, hj, h3⟩
    | netcdf => exact hn ⟨j, w, hj, h3⟩

theorem many_quiet_reach {n : Nat} {s s' : G.St} (h : ManyReach G s) (hr : ManyQuietRun G n s s') :
    ManyReach G s' := by
  induction hr with
  | zero => exact h
  | succ _ hq ih => exact .step (ih h) hq.1

/-- A thread is inside of one getter, and has a lock of a library alone. -/
theorem many_excl {f : Nat → OpenedFile α} (hG : ∀ i, i < G.n → (G.L i).Safe (f i)) {s : G.St}
    (h : ManyReach G s) :
    (∀ t i j, i < G.n → j < G.n → (G.L i).busy (s i) t → (G.L j).busy (s j) t → i = j) ∧
    ∀ k t u i j, i < G.n → j < G.n → (G.L i).uses k (s i) t → (G.L j).uses k (s j) u →
      G.rank t = G.rank u → t = u ∧ i = j := by
  induction h with
  | init h =>
    refine ⟨fun t i j hi _ h1 => absurd h1 ((hG i hi).fresh _ t (h i)), fun k t u i j hi _ h1 => ?_⟩
    exact absurd ((hG i hi).usesBusy _ k t (.init (h i)) h1) ((hG i hi).fresh _ t (h i))
  | @step s _ hr hs ih =>
    cases hs with
    | level i x hi hst hb hu =>
      obtain ⟨ih1, ih2⟩ := ih
      have hri := many_level hr i
      have B : ∀ t j, j < G.n → j ≠ i → (G.L i).busy x t → ¬ (G.L j).busy (s j) t := by
        intro t j hj hne h1 h2
        by_cases h3 : (G.L i).busy (s i) t
        · exact hne (ih1 t j i hj hi h2 h3)
        · exact hb t h1 h3 j hj h2
      have U : ∀ k t u j, j < G.n → j ≠ i → (G.L i).uses k x t → G.rank t = G.rank u →
          ¬ (G.L j).uses k (s j) u := by
        intro k t u j hj hne h1 he h2
        by_cases h3 : (G.L i).uses k (s i) t
        · exact hne (ih2 k u t j i hj hi h2 h3 he.symm).2
        · exact hu k t h1 h3 j u hj he.symm h2
      refine ⟨fun t j j' hj hj' h1 h2 => ?_, fun k t u j j' hj hj' h1 h2 he => ?_⟩
      · by_cases e : j = i
        · subst e
          by_cases e' : j' = j
          · exact e'.symm
          · rw [Function.update_self] at h1
            rw [Function.update_of_ne e'] at h2
            exact absurd h2 (B t j' hj' e' h1)
        · rw [Function.update_of_ne e] at h1
          by_cases e' : j' = i
          · subst e'
            rw [Function.update_self] at h2
            exact absurd h1 (B t j hj e h2)
          · rw [Function.update_of_ne e'] at h2
            exact ih1 t j j' hj hj' h1 h2
      · by_cases e : j = i
        · subst e
          rw [Function.update_self] at h1
          by_cases e' : j' = j
          · subst e'
            rw [Function.update_self] at h2
            refine ⟨?_, rfl⟩
            by_cases h3 : (G.L j').uses k (s j') t
            · by_cases h4 : (G.L j').uses k (s j') u
              · exact (ih2 k t u j' j' hj hj h3 h4 he).1
              · exact absurd h3 (hu k u h2 h4 j' t hj he)
            · by_cases h4 : (G.L j').uses k (s j') u
              · exact absurd h4 (hu k t h1 h3 j' u hj he.symm)
              · exact (hG j' hj).single _ _ k t u hri hst h1 h3 h2 h4
          · rw [Function.update_of_ne e'] at h2
            exact absurd h2 (U k t u j' hj' e' h1 he)
        · rw [Function.update_of_ne e] at h1
          by_cases e' : j' = i
          · subst e'
            rw [Function.update_self] at h2
            exact absurd h1 (U k u t j hj e h2 he.symm)
          · rw [Function.update_of_ne e'] at h2
            exact ih2 k t u j j' hj hj' h1 h2 he

/-- The projection of an execution during a call. -/
theorem many_during {i t : Nat} {s s' : G.St} (hd : ManyDuring G i t s s') : (G.L i).During t (s i) (s' i) := by
  induction hd with
  | refl => exact .refl _
  | tail _ hs hb ih =>
    cases hs with
    | level j x hj hst =>
      by_cases e : i = j
      · subst e
        rw [Function.update_self] at hb ⊢
        exact .tail ih hst hb
      · rw [Function.update_of_ne e]; exact ih

end Asagi
