import Verif.Proofs.ManyLevels
import Verif.Proofs.Starve
import Verif.Spec.ManyStarve
/-
Several levels at the same time: if the locks are granted fairly, and no thread starves in a level on its
own, no thread starves.
-/
namespace Asagi
open Spec Props
variable {α : Type} {G : Many α}

/-- What is needed of a level. -/
structure LevelSys.Live (rank : Nat → Nat) (L : LevelSys α) (p : LevelPos L) where
  left : p.Pos → Nat
  forward : ∀ {s x t}, L.Reach s → L.step s x → L.busy s t →
    p.pos x t = p.pos s t ∨ left (p.pos x t) < left (p.pos s t)
  enter : ∀ {s x t}, L.Reach s → L.step s x → p.pos x t ≠ p.pos s t → ¬ L.busy s t → L.busy x t
  calm : ∀ {s x t}, L.Reach s → L.step s x → p.pos x t ≠ p.pos s t → L.busy s t →
    (∀ u, L.busy x u → L.busy s u) ∧ ∀ k u, L.uses k x u → ¬ L.uses k s u → u = t
  acquire : ∀ {s x s2 t k}, L.Reach s → L.step s x → p.pos x t ≠ p.pos s t → L.busy s t →
    L.uses k x t → ¬ L.uses k s t → L.Reach s2 → p.pos s2 t = p.pos s t → L.busy s2 t →
    (∀ u, rank u = rank t → ¬ L.uses k s2 u) →
    ∃ x2, L.step s2 x2 ∧ p.pos x2 t ≠ p.pos s2 t ∧ (∀ u, L.busy x2 u → L.busy s2 u) ∧
      ∀ k' u, L.uses k' x2 u → ¬ L.uses k' s2 u → k' = k ∧ u = t
  netcdf : ∀ {s t}, L.Reach s → L.uses .netcdf s t →
    ∃ x, L.step s x ∧ p.pos x t ≠ p.pos s t ∧ (∀ u, L.busy x u → L.busy s u) ∧
      ∀ k u, L.uses k x u → L.uses k s u
  mpi : ∀ {σ : Nat → L.S}, L.Reach (σ 0) → CourseOf L.step σ →
    FairLocksOf (fun t s x => L.step s x ∧ p.pos x t ≠ p.pos s t) (fun t s => ¬ L.uses .mpi s t) σ →
    ∀ t n, ∃ m, n ≤ m ∧ ¬ L.uses .mpi (σ m) t
  returns : ∀ {σ : Nat → L.S}, L.Reach (σ 0) → CourseOf L.step σ →
    FairLocksOf (fun t s x => L.step s x ∧ p.pos x t ≠ p.pos s t) (fun t s => ¬ L.busy s t) σ →
    ∀ t n, ∃ m, n ≤ m ∧ ¬ L.busy (σ m) t

theorem fairLocks_shift {S A : Type} {moves : A → S → S → Prop} {out : A → S → Prop} {σ : Nat → S}
    (hf : FairLocksOf moves out σ) (N : Nat) : FairLocksOf moves out (fun n => σ (N + n)) := by
  intro t n
  obtain ⟨m, hm, h⟩ := hf t (N + n)
  obtain ⟨k, rfl⟩ : ∃ k, m = N + k := ⟨m - N, by omega⟩
  refine ⟨k, by omega, h.imp_right (·.imp_right fun h j hj => h (N + j) (by omega))⟩

section
variable {f : Nat → OpenedFile α} {p : ∀ i, LevelPos (G.L i)} {σ : Nat → G.St}
  (hG : ∀ i, i < G.n → (G.L i).Safe (f i)) (hL : ∀ i, i < G.n → (G.L i).Live G.rank (p i))
  (hr : ∀ n, ManyReach G (σ n)) (hc : CourseOf (ManyStep G) σ)
  (hf : FairLocksOf (ManyMoves G p) (fun t s => ¬ ManyBusy G s t) σ)
include hG hL hr hc hf

/-- A thread that never returns from a getter of level `i` can finally never continue. -/
theorem many_stuck {i t N : Nat} (hi : i < G.n) (hb : ∀ m, N ≤ m → (G.L i).busy (σ m i) t) :
    ∃ M, N ≤ M ∧ ∀ m, M ≤ m → ∀ s', ¬ ManyMoves G p t (σ m) s' := by
  have step : ∀ m s', N ≤ m → ManyStep G (σ m) s' →
      (∀ j, j < G.n → (p j).pos (s' j) t = (p j).pos (σ m j) t) ∨
      (hL i hi).left ((p i).pos (s' i) t) < (hL i hi).left ((p i).pos (σ m i) t) := by
    intro m s' hm hs
    cases hs with
    | level j x hj hst hbz hus =>
      by_cases e : i = j
      · subst e
        rcases (hL i hi).forward (many_level (hr m) i) hst (hb m hm) with h | h
        · refine .inl fun k hk => ?_
          by_cases e : k = i
          · subst e; rw [Function.update_self]; exact h
          · rw [Function.update_of_ne e]
        · refine .inr ?_
          rw [Function.update_self]; exact h
      · refine .inl fun k hk => ?_
        by_cases e1 : k = j
        · subst e1
          rw [Function.update_self]
          by_contra hne
          by_cases hbk : (G.L k).busy (σ m k) t
          · exact e ((many_excl hG (hr m)).1 t i k hi hk (hb m hm) hbk)
          · exact hbz t ((hL k hk).enter (many_level (hr m) k) hst hne hbk) hbk i hi (hb m hm)
        · rw [Function.update_of_ne e1]
  obtain ⟨M, -, hM⟩ := stuck_of_busy (fairLocks_shift hf N) (a := t)
    (fun s => (hL i hi).left ((p i).pos (s i) t)) (fun n _ => by
      rcases hc (N + n) with hs | e
      · rcases step (N + n) _ (by omega) hs with h | h
        · show (hL i hi).left ((p i).pos (σ (N + (n + 1)) i) t) ≤ _
          rw [← Nat.add_assoc, h i hi]
        · exact Nat.le_of_lt h
      · show (hL i hi).left ((p i).pos (σ (N + (n + 1)) i) t) ≤ _
        rw [← Nat.add_assoc, e]) (fun n _ hmv => by
      obtain ⟨hs, j, hj, hne⟩ := hmv
      rcases step (N + n) _ (by omega) hs with h | h
      · exact absurd (h j hj) hne
      · exact h) (n := 0) (fun m _ h => h ⟨i, hi, hb (N + m) (by omega)⟩)
  refine ⟨N + M, by omega, fun m hm => ?_⟩
  obtain ⟨k, rfl⟩ : ∃ k, m = N + k := ⟨m - N, by omega⟩
  exact hM k (by omega)

omit hL hf in
/-- A lock that is never free is held by the same thread for ever. -/
theorem many_holder {k : LibLock} {r N : Nat}
    (hne : ∀ m, N ≤ m → ∃ j u, j < G.n ∧ G.rank u = r ∧ (G.L j).uses k (σ m j) u) :
    ∃ j u, j < G.n ∧ ∀ m, N ≤ m → (G.L j).uses k (σ m j) u := by
  obtain ⟨j, u, hj, hu, huse⟩ := hne N (Nat.le_refl _)
  refine ⟨j, u, hj, forever (Q := fun m => (G.L j).uses k (σ m j) u) huse (fun m hm h => ?_)⟩
  obtain ⟨j', u', hj', hu', h'⟩ := hne (m + 1) (by omega)
  by_cases hold : (G.L j').uses k (σ m j') u'
  · obtain ⟨rfl, rfl⟩ := (many_excl hG (hr m)).2 k u u' j j' hj hj' h hold (hu.trans hu'.symm)
    exact h'
  · exfalso
    rcases hc m with hs | e
    · revert h' hs
      generalize σ (m + 1) = s'
      intro h' hs
      cases hs with
      | level i x hi hst hbz hus =>
        by_cases e : j' = i
        · subst e
          rw [Function.update_self] at h'
          exact hus k u' h' hold j u hj (hu.trans hu'.symm) h
        · rw [Function.update_of_ne e] at h'
          exact hold h'
    · rw [e] at h'; exact hold h'

/-- The lock of netCDF is free again and again. -/
theorem many_netcdf (r N : Nat) :
    ∃ m, N ≤ m ∧ ∀ j u, j < G.n → G.rank u = r → ¬ (G.L j).uses .netcdf (σ m j) u := by
  by_contra hne
  push Not at hne
  obtain ⟨j, u, hj, hforever⟩ := many_holder hG hr hc hne
  obtain ⟨M, hM, hst⟩ := many_stuck hG hL hr hc hf hj fun m hm =>
    (hG j hj).usesBusy _ _ u (many_level (hr m) j) (hforever m hm)
  obtain ⟨x, h1, h2, h3, h4⟩ := (hL j hj).netcdf (many_level (hr M) j) (hforever M hM)
  refine hst M (Nat.le_refl _) _ ⟨(many_lift hj ⟨h1, h3⟩ fun k v a b => absurd (h4 k v a) b).1, j, hj, ?_⟩
  rw [Function.update_self]; exact h2

omit hG hf in
/-- A thread that can never continue cannot continue in its level, if the locks that it does not have are free
again and again. -/
theorem many_dead {i t M : Nat} (hi : i < G.n) (hb : ∀ m, M ≤ m → (G.L i).busy (σ m i) t)
    (hst : ∀ m, M ≤ m → ∀ s', ¬ ManyMoves G p t (σ m) s')
    (hfree : ∀ k, (∃ m, M ≤ m ∧ ¬ (G.L i).uses k (σ m i) t) → ∀ N, ∃ m, N ≤ m ∧
      ∀ j u, j < G.n → G.rank u = G.rank t → ¬ (G.L j).uses k (σ m j) u) :
    ∀ m, M ≤ m → ∀ x, ¬ ((G.L i).step (σ m i) x ∧ (p i).pos x t ≠ (p i).pos (σ m i) t) := by
  have hsame : ∀ m, M ≤ m → (p i).pos (σ m i) t = (p i).pos (σ M i) t :=
    forever (Q := fun m => (p i).pos (σ m i) t = (p i).pos (σ M i) t) rfl (fun m hm e => by
      show (p i).pos (σ (m + 1) i) t = _
      rcases hc m with h | h
      · by_contra hne
        exact hst m hm _ ⟨h, i, hi, fun e' => hne (e'.trans e)⟩
      · rw [h]; exact e)
  rintro k hk x ⟨h1, h2⟩
  obtain ⟨c1, c2⟩ := (hL i hi).calm (many_level (hr k) i) h1 h2 (hb k hk)
  by_cases hnew : ∃ kk, (G.L i).uses kk x t ∧ ¬ (G.L i).uses kk (σ k i) t
  · obtain ⟨kk, u1, u2⟩ := hnew
    obtain ⟨m, hm, hfree⟩ := hfree kk ⟨k, hk, u2⟩ k
    obtain ⟨x2, g1, g2, g3, g4⟩ := (hL i hi).acquire (many_level (hr k) i) h1 h2 (hb k hk) u1 u2
      (many_level (hr m) i) ((hsame m (by omega)).trans (hsame k hk).symm) (hb m (by omega))
      (fun u hu => hfree i u hi hu)
    refine hst m (by omega) _ ⟨.level _ i x2 hi g1 (fun v a b => absurd (g3 v a) b)
      fun k' v a b j u hj hu => ?_, i, hi, ?_⟩
    · obtain ⟨rfl, rfl⟩ := g4 k' v a b
      exact hfree j u hj hu
    · rw [Function.update_self]; exact g2
  · push Not at hnew
    refine hst k hk _ ⟨(many_lift hi ⟨h1, c1⟩ fun k' v a b => ?_).1, i, hi, ?_⟩
    · obtain rfl := c2 k' v a b
      exact absurd (hnew k' a) b
    · rw [Function.update_self]; exact h2

omit hG hL hr hf in
theorem many_course (i : Nat) : CourseOf (G.L i).step (fun m => σ m i) := by
  intro m
  show (G.L i).step (σ m i) (σ (m + 1) i) ∨ σ (m + 1) i = σ m i
  rcases hc m with hs | e
  · revert hs
    generalize σ (m + 1) = s'
    intro hs
    cases hs with
    | level l x hl hst hbz hus =>
      by_cases e : i = l
      · subst e
        refine .inl ?_
        rw [Function.update_self]; exact hst
      · exact .inr (by rw [Function.update_of_ne e])
  · exact .inr (by rw [e])

/-- The lock of MPI is free again and again. -/
theorem many_mpi (r N : Nat) :
    ∃ m, N ≤ m ∧ ∀ j u, j < G.n → G.rank u = r → ¬ (G.L j).uses .mpi (σ m j) u := by
  by_contra hne
  push Not at hne
  obtain ⟨j, u, hj, hforever⟩ := many_holder hG hr hc hne
  obtain ⟨m, hm, h⟩ := (hL j hj).mpi (σ := fun m => σ m j) (many_level (hr 0) j) (many_course hc j)
    (fun t n => by
      by_cases hout : ∃ m, n ≤ m ∧ ¬ (G.L j).uses .mpi (σ m j) t
      · obtain ⟨m, hm, h⟩ := hout
        exact ⟨m, hm, .inl h⟩
      push Not at hout
      have hb : ∀ m, n ≤ m → (G.L j).busy (σ m j) t := fun m hm =>
        (hG j hj).usesBusy _ _ t (many_level (hr m) j) (hout m hm)
      obtain ⟨M, hM, hst⟩ := many_stuck hG hL hr hc hf hj hb
      refine ⟨M, hM, .inr (.inr (many_dead hL hr hc hj (fun m hm => hb m (by omega)) hst ?_))⟩
      rintro k ⟨m, hm, hk⟩ N
      cases k with
      | mpi => exact absurd (hout m (by omega)) hk
      | netcdf => exact many_netcdf hG hL hr hc hf _ N) u N
  exact h (hforever m hm)

/-- The locks of a level are granted fairly. -/
theorem many_fair {i : Nat} (hi : i < G.n) :
    FairLocksOf (fun t s x => (G.L i).step s x ∧ (p i).pos x t ≠ (p i).pos s t)
      (fun t s => ¬ (G.L i).busy s t) (fun m => σ m i) := by
  intro t n
  by_cases hout : ∃ m, n ≤ m ∧ ¬ (G.L i).busy (σ m i) t
  · obtain ⟨m, hm, h⟩ := hout
    exact ⟨m, hm, .inl h⟩
  push Not at hout
  obtain ⟨M, hM, hst⟩ := many_stuck hG hL hr hc hf hi hout
  refine ⟨M, hM, .inr (.inr (many_dead hL hr hc hi (fun m hm => hout m (by omega)) hst ?_))⟩
  intro k _ N
  cases k with
  | mpi => exact many_mpi hG hL hr hc hf _ N
  | netcdf => exact many_netcdf hG hL hr hc hf _ N

/-- Every thread returns. -/
theorem many_returns (t n : Nat) : ∃ m, n ≤ m ∧ ¬ ManyBusy G (σ m) t := by
  by_contra hne
  push Not at hne
  obtain ⟨i, hi, hb⟩ := hne n (Nat.le_refl _)
  have stay : ∀ m, n ≤ m → (G.L i).busy (σ m i) t :=
    forever (Q := fun m => (G.L i).busy (σ m i) t) hb (fun m hm h => by
      show (G.L i).busy (σ (m + 1) i) t
      obtain ⟨j, hj, h'⟩ := hne (m + 1) (by omega)
      rcases hc m with hs | e
      · revert h' hs
        generalize σ (m + 1) = s'
        intro h' hs
        cases hs with
        | level l x hl hst hbz hus =>
          by_cases e : i = l
          · subst e
            by_cases e1 : j = i
            · subst e1; exact h'
            · rw [Function.update_of_ne e1] at h'
              exact absurd ((many_excl hG (hr m)).1 t j i hj hi h' h) e1
          · rw [Function.update_of_ne e]; exact h
      · rw [e]; exact h)
  obtain ⟨m, hm, h⟩ := (hL i hi).returns (σ := fun m => σ m i) (many_level (hr 0) i) (many_course hc i)
    (many_fair hG hL hr hc hf hi) t n
  exact h (stay m hm)
end
end Asagi
