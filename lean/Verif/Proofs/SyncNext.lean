import Verif.Model.OpenSync
import Verif.Props.Sync
/-
Steps of one thread in the functions of a `Sync` object.
-/
namespace Asagi
open Asagi.Props

variable {α : Type} {P : SyncParams α} {s s' : SyncState α} {t : Nat}

theorem inside_iff {pc : SyncPc} : pc.inside = true ↔ Inside pc := by
  cases pc <;> simp [SyncPc.inside, Inside]

/-- Order of the places. -/
def SyncPc.weight : SyncPc → Nat
  | .idle => 0 | .waitFin => 1 | .sigFin => 2 | .waitCond => 3 | .sigCond => 4 | .waitLast => 5 | .sigLast => 6

/-- What a step does to another thread: it may be woken. -/
def Woken (p p' : SyncPc) : Prop :=
  p' = p ∨ (p = .waitFin ∧ p' = .sigFin) ∨ (p = .waitCond ∧ p' = .sigCond) ∨ (p = .waitLast ∧ p' = .sigLast)

theorem Woken.inside {p p' : SyncPc} (h : Woken p p') : p'.inside = p.inside := by
  rcases h with rfl | ⟨rfl, rfl⟩ | ⟨rfl, rfl⟩ | ⟨rfl, rfl⟩ <;> rfl

theorem Woken.idle {p p' : SyncPc} (h : Woken p p') : p' = .idle ↔ p = .idle := by
  rcases h with rfl | ⟨rfl, rfl⟩ | ⟨rfl, rfl⟩ | ⟨rfl, rfl⟩ <;> simp

theorem Woken.weight {p p' : SyncPc} (h : Woken p p') : p.weight ≤ p'.weight := by
  rcases h with rfl | ⟨rfl, rfl⟩ | ⟨rfl, rfl⟩ | ⟨rfl, rfl⟩ <;> simp [SyncPc.weight]

theorem Woken.trans {p p' p'' : SyncPc} (h : Woken p p') (h' : Woken p' p'') : Woken p p'' := by
  rcases h with rfl | ⟨rfl, rfl⟩ | ⟨rfl, rfl⟩ | ⟨rfl, rfl⟩
  · exact h'
  all_goals rcases h' with rfl | ⟨h1, -⟩ | ⟨h1, -⟩ | ⟨h1, -⟩ <;> first | cases h1 | simp [Woken]

theorem woken_wake {pc : Nat → SyncPc} {a b : SyncPc} (u : Nat)
    (h : (a = .waitFin ∧ b = .sigFin) ∨ (a = .waitCond ∧ b = .sigCond) ∨ (a = .waitLast ∧ b = .sigLast)) :
    Woken (pc u) (wake pc a b u) := by
  unfold wake
  split
  · next e => rw [e]; exact .inr h
  · exact .inl rfl

theorem leave_other {u : Nat} (h : u ≠ t) : Woken (s.pc u) ((s.leave P t).pc u) ∧ (s.leave P t).rnd u = s.rnd u := by
  refine ⟨?_, upd_ne _ _ h⟩
  unfold SyncState.leave
  simp only [upd_ne _ _ h]
  split_ifs
  all_goals first
    | exact Or.inl rfl
    | exact woken_wake u (.inl ⟨rfl, rfl⟩)
    | exact woken_wake u (.inr (.inr ⟨rfl, rfl⟩))
    | exact (woken_wake u (.inr (.inr ⟨rfl, rfl⟩))).trans (woken_wake u (.inl ⟨rfl, rfl⟩))

theorem leave_self : (s.leave P t).pc t = .idle ∧ (s.leave P t).rnd t = s.rnd t + 1 :=
  ⟨upd_self _ _ _, upd_self _ _ _⟩

theorem afterCond_other {u : Nat} (h : u ≠ t) :
    Woken (s.pc u) ((s.afterCond P t).pc u) ∧ (s.afterCond P t).rnd u = s.rnd u := by
  unfold SyncState.afterCond
  split
  · exact ⟨.inl (upd_ne _ _ h), rfl⟩
  · exact leave_other h

theorem afterCond_self : ((s.afterCond P t).pc t = .idle ∧ (s.afterCond P t).rnd t = s.rnd t + 1) ∨
    ((s.afterCond P t).pc t = .waitLast ∧ (s.afterCond P t).rnd t = s.rnd t) := by
  unfold SyncState.afterCond
  split
  · exact .inr ⟨upd_self _ _ _, rfl⟩
  · exact .inl leave_self

theorem arrive_other {u : Nat} (h : u ≠ t) :
    Woken (s.pc u) ((s.arrive P t).pc u) ∧ (s.arrive P t).rnd u = s.rnd u := by
  unfold SyncState.arrive
  simp only
  split
  · obtain ⟨h1, h2⟩ := afterCond_other (P := P) (s := { s with
      data := if P.isRoot s t then some (t, s.rnd t) else s.data
      synced := s.synced + 1
      last := if P.isRoot s t then s.last + 1 else s.last
      finishing := true, pc := wake s.pc .waitCond .sigCond }) h
    exact ⟨(woken_wake u (by simp)).trans h1, h2⟩
  · exact ⟨.inl (upd_ne _ _ h), rfl⟩

theorem arrive_self : ((s.arrive P t).pc t = .idle ∧ (s.arrive P t).rnd t = s.rnd t + 1) ∨
    (((s.arrive P t).pc t = .waitLast ∨ (s.arrive P t).pc t = .waitCond) ∧ (s.arrive P t).rnd t = s.rnd t) := by
  unfold SyncState.arrive
  simp only
  split
  · rcases afterCond_self (P := P) (t := t) (s := { s with
      data := if P.isRoot s t then some (t, s.rnd t) else s.data
      synced := s.synced + 1
      last := if P.isRoot s t then s.last + 1 else s.last
      finishing := true, pc := wake s.pc .waitCond .sigCond }) with h | h
    · exact .inl h
    · exact .inr ⟨.inl h.1, h.2⟩
  · exact .inr ⟨.inr (upd_self _ _ _), rfl⟩

theorem next_step (ht : t < P.n) (h : s.next P t = some s') : SyncStep P false s s' := by
  unfold SyncState.next at h
  split at h
  · next hp =>
    injection h with h
    subst h
    split
    · next hf => exact .waitFinish s t ht hp hf
    · next hf => exact .enter s t ht hp (by simpa using hf)
  · next hp => injection h with h; subst h; exact .resume s t ht hp
  · next hp => injection h with h; subst h; exact .pass s t ht hp
  · next hp => injection h with h; subst h; exact .rootPass s t ht hp
  all_goals cases h

theorem next_other (h : s.next P t = some s') {u : Nat} (hu : u ≠ t) :
    Woken (s.pc u) (s'.pc u) ∧ s'.rnd u = s.rnd u := by
  unfold SyncState.next at h
  split at h
  · injection h with h
    subst h
    split
    · exact ⟨.inl (upd_ne _ _ hu), rfl⟩
    · exact arrive_other hu
  · injection h with h; subst h; exact arrive_other hu
  · injection h with h; subst h; exact afterCond_other hu
  · injection h with h; subst h; exact leave_other hu
  all_goals cases h

/-- A step of the thread: it leaves, or it stays and comes further. -/
theorem next_self (h : s.next P t = some s') :
    (s'.pc t = .idle ∧ s'.rnd t = s.rnd t + 1 ∧ ((s.pc t).inside = true ∨ s.arrives t = true)) ∨
    (s'.rnd t = s.rnd t ∧ s'.pc t ≠ .idle ∧ (s.pc t).weight < (s'.pc t).weight ∧
      (s'.pc t).inside = ((s.pc t).inside || s.arrives t)) := by
  unfold SyncState.next at h
  split at h
  · next hp =>
    injection h with h
    subst h
    split
    · next hf =>
      exact .inr ⟨rfl, by simp [upd_self], by simp [upd_self, hp, SyncPc.weight],
        by simp [upd_self, hp, SyncPc.inside, SyncState.arrives, hf]⟩
    · next hf =>
      rcases arrive_self (P := P) (s := s) (t := t) with ⟨h1, h2⟩ | ⟨h1 | h1, h2⟩
      · exact .inl ⟨h1, h2, .inr (by simp [SyncState.arrives, hp, hf])⟩
      all_goals exact .inr ⟨h2, by simp [h1], by simp [h1, hp, SyncPc.weight],
        by simp [h1, hp, SyncPc.inside, SyncState.arrives, hf]⟩
  · next hp =>
    injection h with h
    subst h
    rcases arrive_self (P := P) (s := s) (t := t) with ⟨h1, h2⟩ | ⟨h1 | h1, h2⟩
    · exact .inl ⟨h1, h2, .inr (by simp [SyncState.arrives, hp])⟩
    all_goals exact .inr ⟨h2, by simp [h1], by simp [h1, hp, SyncPc.weight],
      by simp [h1, hp, SyncPc.inside, SyncState.arrives]⟩
  · next hp =>
    injection h with h
    subst h
    rcases afterCond_self (P := P) (s := s) (t := t) with ⟨h1, h2⟩ | ⟨h1, h2⟩
    · exact .inl ⟨h1, h2, .inl (by simp [SyncPc.inside, hp])⟩
    · exact .inr ⟨h2, by simp [h1], by simp [h1, hp, SyncPc.weight],
        by simp [h1, hp, SyncPc.inside, SyncState.arrives]⟩
  · next hp =>
    injection h with h
    subst h
    exact .inl ⟨leave_self.1, leave_self.2, .inl (by simp [SyncPc.inside, hp])⟩
  all_goals cases h

/-- The step depends only on the number of threads, the root of this use and the values. -/
theorem next_congr {P' : SyncParams α} (h1 : P.n = P'.n) (h2 : P.root (s.rnd t) = P'.root (s.rnd t))
    (h3 : P.val = P'.val) : s.next P t = s.next P' t := by
  have hl : ∀ s1 : SyncState α, s1.rnd = s.rnd → s1.leave P t = s1.leave P' t := by
    intro s1 e
    unfold SyncState.leave SyncState.deref
    simp only [SyncParams.isRoot, e, h2, h3]
  have ha : ∀ s1 : SyncState α, s1.rnd = s.rnd → s1.afterCond P t = s1.afterCond P' t := by
    intro s1 e
    unfold SyncState.afterCond
    rw [hl s1 e]
    simp only [SyncParams.isRoot, e, h2]
  have hr : s.arrive P t = s.arrive P' t := by
    unfold SyncState.arrive
    simp only [SyncParams.isRoot, h2, h1]
    split
    · exact ha _ rfl
    · rfl
  unfold SyncState.next
  rw [hr, hl s rfl, ha s rfl]

variable (hn : 0 < P.n) (hroot : ∀ k r, P.root k = some r → r < P.n) (h : SyncReach P false s)
include hn hroot h

/-- When a thread leaves, all threads have arrived. -/
theorem left_all (ht : t < P.n) (hs : s.next P t = some s') (hl : s'.rnd t ≠ s.rnd t) (u : Nat) (hu : u < P.n)
    (hut : u ≠ t) : s.rnd t < s.rnd u ∨ (s.rnd u = s.rnd t ∧ (s.pc u).inside = true) := by
  have hr := Reachable.step h (next_step ht hs)
  have hrt : s'.rnd t = s.rnd t + 1 := by
    rcases next_self hs with ⟨-, h2, -⟩ | ⟨h2, -⟩
    · exact h2
    · exact absurd h2 hl
  obtain ⟨hw, hru⟩ := next_other hs hut
  rcases (C21_barrier P hn hroot s' hr).1 t u (s.rnd t) ht hu (by omega) with h1 | ⟨h1, h2⟩
  · left; omega
  · right
    rw [← hw.inside]
    exact ⟨by omega, inside_iff.2 h2⟩

/-- When a thread leaves a broadcast, it has the value of the root. -/
theorem left_got (ht : t < P.n) (hs : s.next P t = some s') (hl : s'.rnd t ≠ s.rnd t) {r : Nat}
    (hr : P.root (s.rnd t) = some r) : s'.got t (s.rnd t) = some (some (P.val r (s.rnd t))) := by
  have hr' := Reachable.step h (next_step ht hs)
  have hrt : s'.rnd t = s.rnd t + 1 := by
    rcases next_self hs with ⟨-, h2, -⟩ | ⟨h2, -⟩
    · exact h2
    · exact absurd h2 hl
  exact (C22_broadcast P hn hroot s' hr' _ r hr).1 t ht (by omega)

/-- Before a thread leaves a broadcast, the root has not left. -/
theorem root_stays (ht : t < P.n) {r : Nat} (hr : P.root (s.rnd t) = some r) : s.rnd r ≤ s.rnd t := by
  by_contra hc
  have := (C22_broadcast P hn hroot s h _ r hr).2 (by omega) t ht
  omega

/-- A thread waits only while another one can continue or has not yet called its function. -/
theorem sync_waits (ht : t < P.n) :
    (∃ u < P.n, s.pc u ≠ .idle ∧ (s.next P u).isSome) ∨
    (s.pc t ≠ .waitFin ∧ ∃ u < P.n, s.pc u = .idle ∧ s.rnd u = s.rnd t) := by
  obtain ⟨k0, hI⟩ := SyncInv.reachable hn hroot h
  cases hf : s.finishing with
  | false =>
    obtain ⟨c1, c2, c3, _⟩ := hI.collect hf
    have hex : ∃ u, u < P.n ∧ s.pc u ≠ .waitCond := by
      by_contra hcon
      have : cnt (fun t => s.pc t = .waitCond) P.n = P.n := cnt_full (fun u hu => by
        by_contra hp; exact hcon ⟨u, hu, hp⟩)
      omega
    obtain ⟨u, hu, hpu⟩ := hex
    rcases (c1 u hu).2 with h2 | h2 | h2
    · right
      refine ⟨?_, u, hu, h2, by rw [(c1 u hu).1, (c1 t ht).1]⟩
      rcases (c1 t ht).2 with h3 | h3 | h3 <;> simp [h3]
    · exact .inl ⟨u, hu, by simp [h2], by simp [SyncState.next, h2]⟩
    · exact absurd h2 hpu
  | true =>
    obtain ⟨f1, f2, f3, f4, f5, f6, f7, f8⟩ := hI.finish hf
    left
    have hsig : ∀ u, u < P.n → s.pc u = .sigCond → ∃ u < P.n, s.pc u ≠ .idle ∧ (s.next P u).isSome :=
      fun u hu h2 => ⟨u, hu, by rw [h2]; simp, by simp [SyncState.next, h2]⟩
    obtain ⟨u, hu, hru⟩ := cnt_pos (p := fun t => s.rnd t = k0) (n := P.n) (by omega)
    rcases f1 u hu with ⟨_, h2⟩ | ⟨h1, _⟩
    · rcases h2 with h2 | ⟨hr, h2 | h2⟩
      · exact hsig u hu h2
      · obtain ⟨v, hv, hvu, hrv⟩ := f7 u hu h2
        rcases f1 v hv with ⟨_, h3⟩ | ⟨h3, _⟩
        · rcases h3 with h3 | ⟨hr', _⟩
          · exact hsig v hv h3
          · rw [hr] at hr'; exact absurd (Option.some.inj hr').symm hvu
        · omega
      · exact ⟨u, hu, by rw [h2]; simp, by simp [SyncState.next, h2]⟩
    · omega

end Asagi
