import Verif.Model.Trans
import Verif.Spec.Starvation
import Verif.Proofs.CacheDistFair
/-
Locks with an order: if locks are granted fairly, nobody starves.
-/
namespace Asagi
open Spec

/-- A system of agents `A` that take locks `L`, seen along an infinite execution `σ`. -/
structure LockSys {S A Pos L : Type} (σ : Nat → S) (pos : S → A → Pos) (moves : A → S → S → Prop)
    (idle : Pos → Prop) where
  step : ∀ n, (∃ a, moves a (σ n) (σ (n + 1))) ∨ ∀ a, pos (σ (n + 1)) a = pos (σ n) a
  fair : ∀ a n, ∃ m, n ≤ m ∧ (idle (pos (σ m) a) ∨ moves a (σ m) (σ (m + 1)) ∨
    ∀ k, m ≤ k → ∀ s', ¬ moves a (σ k) s')
  /-- a step changes the position of one agent -/
  other : ∀ n a, moves a (σ n) (σ (n + 1)) → ∀ b, b ≠ a → pos (σ (n + 1)) b = pos (σ n) b
  /-- the number of steps until the end of a call -/
  left : Pos → Nat
  dec : ∀ n a, moves a (σ n) (σ (n + 1)) → ¬ idle (pos (σ n) a) →
    left (pos (σ (n + 1)) a) < left (pos (σ n) a)
  /-- the holder of a lock -/
  own : S → L → Option A
  Of : A → Pos → L → Prop
  hown : ∀ n l a, own (σ n) l = some a ↔ Of a (pos (σ n) a) l
  busy : ∀ a p l, Of a p l → ¬ idle p
  /-- the lock that is needed for the next step -/
  need : A → Pos → Option L
  can : ∀ n a, ¬ idle (pos (σ n) a) → (∃ s', moves a (σ n) s') ∨
    ∃ l, need a (pos (σ n) a) = some l ∧ own (σ n) l ≠ none
  rank : L → Nat
  order : ∀ n a l l', Of a (pos (σ n) a) l → need a (pos (σ n) a) = some l' → rank l' < rank l

namespace LockSys
variable {S A Pos L : Type} {σ : Nat → S} {pos : S → A → Pos} {moves : A → S → S → Prop}
  {idle : Pos → Prop}

/-- A lock that is never free is held by one agent. -/
theorem holder (h : LockSys (L := L) σ pos moves idle) {l : L} {N : Nat}
    (hne : ∀ m, N ≤ m → h.own (σ m) l ≠ none) : ∃ a, ∀ m, N ≤ m → h.own (σ m) l = some a := by
  obtain ⟨a, ha⟩ := Option.ne_none_iff_exists'.1 (hne N (Nat.le_refl _))
  refine ⟨a, forever (Q := fun m => h.own (σ m) l = some a) ha (fun m hm hq => ?_)⟩
  obtain ⟨a', ha'⟩ := Option.ne_none_iff_exists'.1 (hne (m + 1) (by omega))
  rcases h.step m with ⟨x, hx⟩ | e
  · have ho := h.other m x hx
    by_cases e : a = x
    · by_cases e' : a' = x
      · rw [e, ← e']; exact ha'
      · have h1 := (h.hown (m + 1) l a').1 ha'
        rw [ho a' e'] at h1
        have := (h.hown m l a').2 h1
        rw [this] at hq
        rw [← hq]; exact ha'
    · refine (h.hown (m + 1) l a).2 ?_
      rw [ho a e]
      exact (h.hown m l a).1 hq
  · exact (h.hown (m + 1) l a).2 (by rw [e]; exact (h.hown m l a).1 hq)

/-- An agent that never becomes idle is finally blocked for ever. -/
theorem stuck (h : LockSys (L := L) σ pos moves idle) {a : A} :
    ∀ k n, h.left (pos (σ n) a) ≤ k → (∀ m, n ≤ m → ¬ idle (pos (σ m) a)) →
    ∃ N, n ≤ N ∧ ∀ m, N ≤ m → pos (σ m) a = pos (σ N) a ∧ ∀ s', ¬ moves a (σ m) s' := by
  classical
  have hle : ∀ m, ¬ idle (pos (σ m) a) → h.left (pos (σ (m + 1)) a) ≤ h.left (pos (σ m) a) := by
    intro m hn
    rcases h.step m with ⟨u, hu⟩ | e
    · by_cases e : a = u
      · subst e; exact Nat.le_of_lt (h.dec m _ hu hn)
      · rw [h.other m u hu a e]
    · rw [e]
  have hstop : ∀ m, (∀ k, m ≤ k → ∀ s', ¬ moves a (σ k) s') → ∀ j, m ≤ j →
      pos (σ j) a = pos (σ m) a ∧ ∀ s', ¬ moves a (σ j) s' := by
    intro m hf j hj
    refine ⟨?_, hf j hj⟩
    refine forever (Q := fun j => pos (σ j) a = pos (σ m) a) rfl (fun j hj e => ?_) j hj
    rcases h.step j with ⟨u, hu⟩ | e'
    · by_cases e1 : a = u
      · subst e1; exact absurd hu (hf j hj _)
      · rw [h.other j u hu a e1]; exact e
    · rw [e']; exact e
  intro k
  induction k with
  | zero =>
    intro n hk hn
    obtain ⟨m, hnm, hf⟩ := h.fair a n
    have hz : ∀ j, n ≤ j → h.left (pos (σ j) a) ≤ 0 :=
      forever (Q := fun j => h.left (pos (σ j) a) ≤ 0) hk
        (fun j hj h0 => Nat.le_trans (hle j (hn j hj)) h0)
    rcases hf with hf | hf | hf
    · exact absurd hf (hn m hnm)
    · have := h.dec m a hf (hn m hnm)
      have := hz m hnm
      omega
    · exact ⟨m, hnm, hstop m hf⟩
  | succ k ih =>
    intro n hk hn
    obtain ⟨m, hnm, hf⟩ := h.fair a n
    have hz : ∀ j, n ≤ j → h.left (pos (σ j) a) ≤ k + 1 :=
      forever (Q := fun j => h.left (pos (σ j) a) ≤ k + 1) hk
        (fun j hj h0 => Nat.le_trans (hle j (hn j hj)) h0)
    rcases hf with hf | hf | hf
    · exact absurd hf (hn m hnm)
    · have h1 := h.dec m a hf (hn m hnm)
      have h2 := hz m hnm
      obtain ⟨N, hN, hx⟩ := ih (m + 1) (by omega) (fun j hj => hn j (by omega))
      exact ⟨N, by omega, hx⟩
    · exact ⟨m, hnm, hstop m hf⟩

/-- An agent that is blocked for ever needs a lock that is never free. -/
theorem blocked (h : LockSys (L := L) σ pos moves idle) {a : A} {M : Nat} (hb : ¬ idle (pos (σ M) a))
    (hx : ∀ m, M ≤ m → pos (σ m) a = pos (σ M) a ∧ ∀ s', ¬ moves a (σ m) s') :
    ∃ l, h.need a (pos (σ M) a) = some l ∧ ∀ m, M ≤ m → h.own (σ m) l ≠ none := by
  have key : ∀ m, M ≤ m → ∃ l, h.need a (pos (σ M) a) = some l ∧ h.own (σ m) l ≠ none := by
    intro m hm
    obtain ⟨e, hd⟩ := hx m hm
    rcases h.can m a (by rw [e]; exact hb) with ⟨s', hs⟩ | ⟨l, hn, ho⟩
    · exact absurd hs (hd s')
    · exact ⟨l, by rw [← e]; exact hn, ho⟩
  obtain ⟨l, hl, -⟩ := key M (Nat.le_refl _)
  refine ⟨l, hl, fun m hm => ?_⟩
  obtain ⟨l', hl', hd⟩ := key m hm
  rw [hl] at hl'
  injection hl' with e
  rw [e]; exact hd

/-- Every lock is free again and again. -/
theorem free (h : LockSys (L := L) σ pos moves idle) : ∀ k (l : L), h.rank l ≤ k → ∀ N,
    ¬ ∀ m, N ≤ m → h.own (σ m) l ≠ none := by
  intro k
  induction k with
  | zero =>
    intro l hk N hne
    obtain ⟨a, ha⟩ := h.holder hne
    have ho := fun m hm => (h.hown m l a).1 (ha m hm)
    obtain ⟨M, hM, hx⟩ := h.stuck (a := a) _ N (Nat.le_refl _) (fun m hm => h.busy _ _ _ (ho m hm))
    obtain ⟨l', hn, -⟩ := h.blocked (h.busy _ _ _ (ho M hM)) hx
    have := h.order M a l l' (ho M hM) hn
    omega
  | succ k ih =>
    intro l hk N hne
    obtain ⟨a, ha⟩ := h.holder hne
    have ho := fun m hm => (h.hown m l a).1 (ha m hm)
    obtain ⟨M, hM, hx⟩ := h.stuck (a := a) _ N (Nat.le_refl _) (fun m hm => h.busy _ _ _ (ho m hm))
    obtain ⟨l', hn, hf⟩ := h.blocked (h.busy _ _ _ (ho M hM)) hx
    have := h.order M a l l' (ho M hM) hn
    exact ih l' (by omega) M hf

/-- Nobody starves. -/
theorem returns (h : LockSys (L := L) σ pos moves idle) (a : A) (n : Nat) :
    ∃ m, n ≤ m ∧ idle (pos (σ m) a) := by
  by_contra hx
  push Not at hx
  obtain ⟨M, hM, hs⟩ := h.stuck (a := a) _ n (Nat.le_refl _) hx
  obtain ⟨l, -, hf⟩ := h.blocked (hx M hM) hs
  exact h.free _ l (Nat.le_refl _) M hf

end LockSys

/-- Executions with fair locks exist in which something happens again and again: threads inside of
getters continue as long as possible (`quiet`), then a step with `Q` is made. -/
theorem fairCourse_exists {S A : Type} {step quiet Q : S → S → Prop} {reach : S → Prop}
    (moves : A → S → S → Prop) (out : A → S → Prop)
    (hreach : ∀ {s s'}, reach s → step s s' → reach s') (hq : ∀ {s s'}, quiet s s' → step s s')
    (hfin : ∀ τ : Nat → S, reach (τ 0) → ¬ ∀ n, quiet (τ n) (τ (n + 1)))
    (hout : ∀ {s}, reach s → (∀ s', ¬ quiet s s') → ∀ t, out t s)
    (hcall : ∀ {s}, reach s → (∀ s', ¬ quiet s s') → ∃ s', step s s' ∧ Q s s') {s0 : S} (h0 : reach s0) :
    ∃ σ : Nat → S, σ 0 = s0 ∧ CourseOf step σ ∧ FairLocksOf moves out σ ∧
      ∀ n, ∃ m, n ≤ m ∧ Q (σ m) (σ (m + 1)) := by
  have hnext : ∀ s, ∃ s', reach s → step s s' ∧ (quiet s s' ∨ ((∀ s'', ¬ quiet s s'') ∧ Q s s')) := by
    intro s
    by_cases hx : ∃ s', quiet s s'
    · obtain ⟨s', h⟩ := hx
      exact ⟨s', fun _ => ⟨hq h, .inl h⟩⟩
    · push Not at hx
      by_cases hr : reach s
      · obtain ⟨s', h1, h2⟩ := hcall hr hx
        exact ⟨s', fun _ => ⟨h1, .inr ⟨hx, h2⟩⟩⟩
      · exact ⟨s, fun h => absurd h hr⟩
  choose f hf using hnext
  let σ : Nat → S := fun n => Nat.rec s0 (fun _ s => f s) n
  have hr : ∀ n, reach (σ n) := by
    intro n
    induction n with
    | zero => exact h0
    | succ n ih => exact hreach ih (hf _ ih).1
  have hall : ∀ n, ∃ m, n ≤ m ∧ ∀ s', ¬ quiet (σ m) s' := by
    intro n
    by_contra hx
    push Not at hx
    refine hfin (fun j => σ (n + j)) (hr _) (fun j => ?_)
    obtain ⟨s', hs'⟩ := hx (n + j) (by omega)
    rcases (hf _ (hr (n + j))).2 with h | ⟨h, -⟩
    · exact h
    · exact absurd hs' (h s')
  refine ⟨σ, rfl, fun n => .inl (hf _ (hr n)).1, fun t n => ?_, fun n => ?_⟩
  · obtain ⟨m, h1, h2⟩ := hall n
    exact ⟨m, h1, .inl (hout (hr m) h2 t)⟩
  · obtain ⟨m, h1, h2⟩ := hall n
    refine ⟨m, h1, ?_⟩
    rcases (hf _ (hr m)).2 with h | ⟨-, h⟩
    · exact absurd h (h2 _)
    · exact h

/-- Without an order of locks: an agent that never leaves is finally blocked for ever. -/
theorem stuck_of_busy {S A : Type} {σ : Nat → S} {moves : A → S → S → Prop} {out : A → S → Prop}
    (hf : FairLocksOf moves out σ) (left : S → Nat) {a : A}
    (hle : ∀ n, ¬ out a (σ n) → left (σ (n + 1)) ≤ left (σ n))
    (hlt : ∀ n, ¬ out a (σ n) → moves a (σ n) (σ (n + 1)) → left (σ (n + 1)) < left (σ n)) :
    ∀ {n}, (∀ m, n ≤ m → ¬ out a (σ m)) → ∃ N, n ≤ N ∧ ∀ m, N ≤ m → ∀ s', ¬ moves a (σ m) s' := by
  have key : ∀ k n, left (σ n) ≤ k → (∀ m, n ≤ m → ¬ out a (σ m)) →
      ∃ N, n ≤ N ∧ ∀ m, N ≤ m → ∀ s', ¬ moves a (σ m) s' := by
    intro k
    induction k with
    | zero =>
      intro n hk hb
      have hz := forever (Q := fun j => left (σ j) ≤ 0) hk
        (fun j hj h0 => Nat.le_trans (hle j (hb j hj)) h0)
      obtain ⟨m, hnm, h | h | h⟩ := hf a n
      · exact absurd h (hb m hnm)
      · have := hlt m (hb m hnm) h
        have := hz m hnm
        omega
      · exact ⟨m, hnm, h⟩
    | succ k ih =>
      intro n hk hb
      have hz := forever (Q := fun j => left (σ j) ≤ k + 1) hk
        (fun j hj h0 => Nat.le_trans (hle j (hb j hj)) h0)
      obtain ⟨m, hnm, h | h | h⟩ := hf a n
      · exact absurd h (hb m hnm)
      · have h1 := hlt m (hb m hnm) h
        have h2 := hz m hnm
        obtain ⟨N, hN, hx⟩ := ih (m + 1) (by omega) (fun j hj => hb j (by omega))
        exact ⟨N, by omega, hx⟩
      · exact ⟨m, hnm, h⟩
  intro n hb
  exact key _ n (Nat.le_refl _) hb

/-- A lock that is never free is held by one agent, if it is not passed on without being free. -/
theorem held_forever {A : Type} {own : Nat → Option A} {N : Nat}
    (hs : ∀ n, own (n + 1) = own n ∨ own n = none ∨ own (n + 1) = none)
    (hne : ∀ m, N ≤ m → own m ≠ none) : ∃ a, ∀ m, N ≤ m → own m = some a := by
  obtain ⟨a, ha⟩ := Option.ne_none_iff_exists'.1 (hne N (Nat.le_refl _))
  refine ⟨a, forever (Q := fun m => own m = some a) ha (fun m hm hq => ?_)⟩
  rcases hs m with h | h | h
  · rw [h]; exact hq
  · exact absurd h (hne m hm)
  · exact absurd h (hne (m + 1) (by omega))

end Asagi
