import Verif.Model.ManyClose
import Verif.Proofs.ManyCommKinds
/-
Levels that are used and closed: what follows from the level while it is open somewhere (`Wrap.good`).
-/
namespace Asagi
open Spec Props
variable {α : Type}

/-- The level with steps that are not steps of `close` only, if MPI does not buffer messages. -/
abbrev CloseSys.calm (W : CloseSys α) : CommSys α :=
  { W.toCommSys with sync := fun s x => W.sync s x ∧ W.stage x = W.stage s }

/-- Some process has not called `close`. -/
def CloseSys.Used (W : CloseSys α) (procs : Nat) (s : W.S) : Prop := ∃ q, q < procs ∧ W.stage s q = 0

/-- Steps of `close` that remain. -/
def CloseSys.remain (W : CloseSys α) (procs : Nat) (s : W.S) : Nat :=
  ∑ r ∈ Finset.range procs, (W.closed - W.stage s r)

/-- The level `W` is the level `B`, with `close`. -/
structure Wrap (B : CommSys α) (W : CloseSys α) (base : W.S → B.S) (rank : Nat → Nat) (procs : Nat)
    (μ : W.S → Nat → Prop) (f : OpenedFile α) : Prop where
  good : B.Good f
  ranks : ∀ t, rank t < procs
  start : ∀ s, W.start s → B.start (base s)
  busy : ∀ s t, W.busy s t = B.busy (base s) t
  uses : ∀ k s t, W.uses k s t = B.uses k (base s) t
  called : ∀ t pos s x, W.called t pos s x = B.called t pos (base s) (base x)
  returns : ∀ t s v, W.returns t s v = B.returns t (base s) v
  inbox : ∀ s, W.inbox s = B.inbox (base s)
  serving : ∀ s r, W.serving s r = B.serving (base s) r
  refused : ∀ s x, W.refused s x = B.refused (base s) (base x)
  tags : W.tags = B.tags
  syncStep : ∀ s x, W.sync s x → W.step s x
  notCalled : ∀ t pos y, ¬ B.called t pos y y
  retBusy : ∀ t y v, B.returns t y v → B.busy y t
  usesBusy : ∀ k s t, W.Reach s → B.uses k (base s) t → B.busy (base s) t
  /-- the invariant -/
  used : ∀ s, W.Reach s → W.Used procs s → B.Reach (base s)
  idle : ∀ s t, W.Reach s → W.stage s (rank t) ≠ 0 → ¬ B.busy (base s) t
  out : ∀ s r, W.Reach s → procs ≤ r → W.stage s r = 0
  bar : ∀ s r, W.Reach s → 2 ≤ W.stage s r → ¬ W.Used procs s
  /-- the steps -/
  step : ∀ s x, W.Reach s → W.step s x →
    (B.step (base s) (base x) ∧ W.stage x = W.stage s) ∨ (¬ W.Used procs s ∧ W.stage x = W.stage s) ∨
    (base x = base s ∧ (∀ r, W.stage x r = 0 → W.stage s r = 0) ∧ W.remain procs x + 1 ≤ W.remain procs s)
  msgs : ∀ s x, W.Reach s → W.step s x → ∀ q r, W.inbox x q r = W.inbox s q r ∨
    (∃ tag, W.inbox x q r = W.inbox s q r ++ [tag]) ∨ ∃ tag, W.inbox s q r = tag :: W.inbox x q r
  serves : ∀ s x r, W.Reach s → W.step s x → W.serving x r → ¬ W.serving s r →
    ∃ q tag, W.inbox s q r = tag :: W.inbox x q r
  /-- in use -/
  lift : ∀ s y, W.Reach s → W.Used procs s →
    (∃ t, W.busy s t) ∨ (∃ r, W.serving s r) ∨ (∃ q r, W.inbox s q r ≠ []) → B.Calm (base s) y →
    ∃ x, W.sync s x ∧ W.stage x = W.stage s ∧ base x = y
  /-- all processes have called `close` -/
  tagged : ∀ s q r, W.Reach s → ¬ W.Used procs s → ∀ tag ∈ W.inbox s q r, tag ∈ W.tags r
  serve : ∀ s r, W.Reach s → ¬ W.Used procs s → W.serving s r →
    ∃ x, W.sync s x ∧ W.stage x = W.stage s ∧ W.inbox x = W.inbox s
  take : ∀ s q r tag l, W.Reach s → ¬ W.Used procs s → (∀ r, ¬ W.serving s r) → W.inbox s q r = tag :: l →
    ∃ x, W.sync s x ∧ W.stage x = W.stage s ∧ W.inbox x = upd (W.inbox s) q (upd (W.inbox s q) r l)
  /-- the length of executions -/
  rest : ∀ s, W.Reach s → ∃ m, μ s m
  grow : ∀ s x m, W.Reach s → W.step s x → μ s m → ∃ m', μ x m' ∧ m' ≤ m + 3
  less : ∀ s x m, W.Reach s → ¬ W.Used procs s → W.step s x → μ s m → ∃ m', μ x m' ∧ m' + 1 ≤ m
  /-- `close` continues -/
  advance : ∀ s r, W.Reach s → (∀ t, ¬ W.busy s t) → (∀ r, ¬ W.serving s r) → r < procs →
    W.stage s r ≠ W.closed → ∃ x, W.sync s x ∧ base x = base s ∧ ∀ q, procs ≤ q → W.stage x q = W.stage s q

theorem CommSys.QuietRun.fold {L : CommSys α} {P : Nat → Nat → L.S → Prop} {s x : L.S} {n k : Nat}
    (hq : L.QuietRun n k s x) (h0 : P 0 0 s)
    (h1 : ∀ n k a b, P n k a → L.Quiet a b → ¬ L.refused a b → P (n + 1) k b)
    (h2 : ∀ n k a b, P n k a → L.Quiet a b → L.refused a b → P (n + 1) (k + 1) b) : P n k x := by
  induction hq with
  | zero => exact h0
  | served _ hq hn ih => exact h1 _ _ _ _ (ih h0) hq hn
  | refused _ hq hn ih => exact h2 _ _ _ _ (ih h0) hq hn

theorem LevelSys.During.reach {L : LevelSys α} {t : Nat} {s x : L.S} (hd : L.During t s x) (hr : L.Reach s) : L.Reach x := by
  induction hd with
  | refl => exact hr
  | tail _ hs _ ih => exact .step ih hs

section
variable {B : CommSys α} {W : CloseSys α} {base : W.S → B.S} {rank : Nat → Nat} {procs : Nat}
  {μ : W.S → Nat → Prop} {f : OpenedFile α}

theorem Wrap.busyUsed (h : Wrap B W base rank procs μ f) {s : W.S} (hr : W.Reach s) {t : Nat}
    (hb : B.busy (base s) t) : W.Used procs s :=
  ⟨rank t, h.ranks t, Classical.byContradiction fun h0 => h.idle s t hr h0 hb⟩

theorem Wrap.zero (h : Wrap B W base rank procs μ f) {s x : W.S} (hr : W.Reach s) (hs : W.step s x) (r : Nat)
    (h0 : W.stage x r = 0) : W.stage s r = 0 := by
  rcases h.step s x hr hs with ⟨_, e⟩ | ⟨_, e⟩ | ⟨_, e, _⟩
  · rw [← e]; exact h0
  · rw [← e]; exact h0
  · exact e r h0

theorem Wrap.usedBack (h : Wrap B W base rank procs μ f) {s x : W.S} (hr : W.Reach s) (hs : W.step s x)
    (hu : W.Used procs x) : W.Used procs s := by
  obtain ⟨q, h1, h2⟩ := hu
  exact ⟨q, h1, h.zero hr hs q h2⟩

/-- A call of a getter, seen in the level that is not closed. -/
theorem Wrap.during (h : Wrap B W base rank procs μ f) {t : Nat} {s s' : W.S} (hr : W.Reach s)
    (hd : W.During t s s') (hu : W.Used procs s') :
    W.Reach s' ∧ W.Used procs s ∧ B.During t (base s) (base s') := by
  induction hd with
  | refl => exact ⟨hr, hu, .refl _⟩
  | tail hd hs hb ih =>
    have key := hd.reach hr
    obtain ⟨h1, h2, h3⟩ := ih (h.usedBack key hs hu)
    refine ⟨.step h1 hs, h2, ?_⟩
    rcases h.step _ _ h1 hs with ⟨e, _⟩ | ⟨e, _⟩ | ⟨e, _⟩
    · exact .tail h3 e ((h.busy _ _) ▸ hb)
    · exact absurd (h.usedBack key hs hu) e
    · rw [e]; exact h3

theorem Wrap.safe (h : Wrap B W base rank procs μ f) : W.calm.toLevelSys.Safe f where
  fresh := fun (s : W.S) t hs hb => h.good.fresh (base s) t (h.start s hs) ((h.busy s t) ▸ hb)
  usesBusy := fun (s : W.S) k t hr hu => by
    show W.busy s t
    rw [h.busy]
    exact h.usesBusy k _ t hr ((h.uses k s t) ▸ hu)
  single := by
    intro (s : W.S) (x : W.S) k t u hr hs h1 h2 h3 h4
    have hr : W.Reach s := hr
    have hs : W.step s x := hs
    change W.uses k x t at h1
    change ¬ W.uses k s t at h2
    change W.uses k x u at h3
    change ¬ W.uses k s u at h4
    rw [h.uses] at h1 h2 h3 h4
    have hu : W.Used procs s := h.usedBack hr hs (h.busyUsed (.step hr hs) (h.usesBusy _ _ _ (.step hr hs) h1))
    rcases h.step s x hr hs with ⟨e, _⟩ | ⟨e, _⟩ | ⟨e, _⟩
    · exact h.good.single _ _ k t u (h.used s hr hu) e h1 h2 h3 h4
    · exact absurd hu e
    · rw [e] at h1; exact absurd h1 h2
  value := by
    intro (s : W.S) (s1 : W.S) (s2 : W.S) t pos idx v hr hs hc hd hv hp
    have hr : W.Reach s := hr
    have hs : W.step s s1 := hs
    have hr1 : W.Reach s1 := .step hr hs
    have hd : W.During t s1 s2 := hd
    change W.called t pos s s1 at hc
    change W.returns t s2 v at hv
    rw [h.called] at hc
    rw [h.returns] at hv
    have hr2 : W.Reach s2 := hd.reach hr1
    obtain ⟨-, hu1, hd'⟩ := h.during hr1 hd (h.busyUsed hr2 (h.retBusy _ _ _ hv))
    have hu := h.usedBack hr hs hu1
    rcases h.step s s1 hr hs with ⟨e, _⟩ | ⟨e, _⟩ | ⟨e, _⟩
    · exact h.good.value _ _ _ t pos idx v (h.used s hr hu) e hc hd' hv hp
    · exact absurd hu e
    · rw [e] at hc; exact (h.notCalled _ _ _ hc).elim

/-! ### The length of executions -/

theorem Wrap.run (h : Wrap B W base rank procs μ f) {s x : W.S} {n k : Nat} (hr : W.Reach s)
    (hq : W.calm.QuietRun n k s x) {m : Nat} (hm : μ s m) :
    W.Reach x ∧ ∃ a b c k1 y, n = a + b + c ∧ k1 ≤ k ∧ B.QuietRun a k1 (base s) y ∧
      b + (if c = 0 then W.remain procs x else 0) ≤ W.remain procs s ∧ (W.Used procs x → y = base x ∧ c = 0) ∧
      ∃ m', μ x m' ∧ m' + c ≤ m + 3 * (a + b) := by
  have key : ∀ {s1 s2 : W.S} {n k k' : Nat}, (W.Reach s1 ∧ ∃ a b c k1 y, n = a + b + c ∧ k1 ≤ k ∧
      B.QuietRun a k1 (base s) y ∧ b + (if c = 0 then W.remain procs s1 else 0) ≤ W.remain procs s ∧
      (W.Used procs s1 → y = base s1 ∧ c = 0) ∧
      ∃ m', μ s1 m' ∧ m' + c ≤ m + 3 * (a + b)) → W.calm.Quiet s1 s2 →
      (W.refused s1 s2 → k' = k + 1) → (¬ W.refused s1 s2 → k' = k) →
      (W.Reach s2 ∧ ∃ a b c k1 y, n + 1 = a + b + c ∧ k1 ≤ k' ∧ B.QuietRun a k1 (base s) y ∧
      b + (if c = 0 then W.remain procs s2 else 0) ≤ W.remain procs s ∧
      (W.Used procs s2 → y = base s2 ∧ c = 0) ∧ ∃ m', μ s2 m' ∧ m' + c ≤ m + 3 * (a + b)) := by
    rintro s1 s2 n k k' ⟨hr1, a, b, c, k1, y, rfl, hk, hB, hb, hu, m1, hm1, hle⟩ ⟨hs, hbusy⟩ hk1 hk2
    have hs : W.step s1 s2 := hs
    have hr2 : W.Reach s2 := .step hr1 hs
    refine ⟨hr2, ?_⟩
    have hkk : k ≤ k' := by
      by_cases e : W.refused s1 s2
      · have := hk1 e; omega
      · have := hk2 e; omega
    by_cases hu1 : W.Used procs s1
    · obtain ⟨rfl, rfl⟩ := hu hu1
      rw [if_pos rfl] at hb
      rcases h.step s1 s2 hr1 hs with ⟨e1, e2⟩ | ⟨e1, _⟩ | ⟨e1, e2, e3⟩
      · have hquiet : B.Quiet (base s1) (base s2) := ⟨e1, fun t ht => by
          have := hbusy t (show W.busy s2 t by rw [h.busy]; exact ht)
          change W.busy s1 t at this
          rw [h.busy] at this; exact this⟩
        obtain ⟨k2, hk2', hrun⟩ : ∃ k2, k2 ≤ k' ∧ B.QuietRun (a + 1) k2 (base s) (base s2) := by
          by_cases e : W.refused s1 s2
          · have h1 := hk1 e
            rw [h.refused] at e
            exact ⟨k1 + 1, by omega, .refused hB hquiet e⟩
          · have h1 := hk2 e
            rw [h.refused] at e
            exact ⟨k1, by omega, .served hB hquiet e⟩
        obtain ⟨m2, hm2, hle2⟩ := h.grow s1 s2 m1 hr1 hs hm1
        refine ⟨a + 1, b, 0, k2, _, by omega, hk2', hrun, ?_, fun _ => ⟨rfl, rfl⟩, m2, hm2, by omega⟩
        rw [if_pos rfl]
        have : W.remain procs s2 = W.remain procs s1 := by unfold CloseSys.remain; rw [e2]
        omega
      · exact absurd hu1 e1
      · obtain ⟨m2, hm2, hle2⟩ := h.grow s1 s2 m1 hr1 hs hm1
        refine ⟨a, b + 1, 0, k1, _, by omega, by omega, hB, ?_, fun _ => ⟨e1.symm, rfl⟩, m2, hm2, by omega⟩
        rw [if_pos rfl]; omega
    · obtain ⟨m2, hm2, hle2⟩ := h.less s1 s2 m1 hr1 hu1 hs hm1
      refine ⟨a, b, c + 1, k1, y, by omega, by omega, hB, ?_, fun hu2 => absurd (h.usedBack hr1 hs hu2) hu1,
        m2, hm2, by omega⟩
      rw [if_neg (by omega)]
      split at hb <;> omega
  refine CommSys.QuietRun.fold (L := W.calm) (P := fun n k x => W.Reach x ∧ ∃ a b c k1 y, n = a + b + c ∧ k1 ≤ k ∧ B.QuietRun a k1 (base s) y ∧
      b + (if c = 0 then W.remain procs x else 0) ≤ W.remain procs s ∧ (W.Used procs x → y = base x ∧ c = 0) ∧
      ∃ m', μ x m' ∧ m' + c ≤ m + 3 * (a + b)) hq ?_ (fun n k a b ih hq hn => ?_) (fun n k a b ih hq hn => ?_)
  · exact ⟨hr, 0, 0, 0, 0, base s, rfl, le_rfl, .zero _, by simp, fun _ => ⟨rfl, rfl⟩, m, hm, by simp⟩
  · exact key ih hq (fun e => absurd e hn) (fun _ => rfl)
  · exact key ih hq (fun _ => rfl) (fun e => absurd hn e)

theorem Wrap.bound (h : Wrap B W base rank procs μ f) {s : W.S} (hr : W.Reach s) :
    ∃ N K, ∀ n k x, W.calm.QuietRun n k s x → n ≤ N + k * K := by
  obtain ⟨m, hm⟩ := h.rest s hr
  obtain ⟨N, K, hN⟩ : ∃ N K, W.Used procs s → ∀ n k y, B.QuietRun n k (base s) y → n ≤ N + k * K := by
    by_cases hu : W.Used procs s
    · obtain ⟨N, K, hN⟩ := h.good.bound _ (h.used s hr hu)
      exact ⟨N, K, fun _ => hN⟩
    · exact ⟨0, 0, fun h => absurd h hu⟩
  refine ⟨m + 4 * (W.remain procs s + N), 4 * K, fun n k x hq => ?_⟩
  by_cases hu : W.Used procs s
  · obtain ⟨-, a, b, c, k1, y, rfl, hk, hB, hb, -, m', -, hle⟩ := h.run hr hq hm
    have h1 := hN hu _ _ _ hB
    have h2 : b ≤ W.remain procs s := by split at hb <;> omega
    have h3 : k1 * K ≤ k * K := Nat.mul_le_mul_right K hk
    have h4 : k * (4 * K) = 4 * (k * K) := by rw [Nat.mul_left_comm]
    omega
  · have : ∀ {n k x}, W.calm.QuietRun n k s x → W.Reach x ∧ ¬ W.Used procs x ∧ ∃ m', μ x m' ∧ m' + n ≤ m := by
      intro n k x hq
      have key : ∀ {s1 s2 : W.S} {n : Nat}, (W.Reach s1 ∧ ¬ W.Used procs s1 ∧ ∃ m', μ s1 m' ∧ m' + n ≤ m) →
          W.calm.Quiet s1 s2 → W.Reach s2 ∧ ¬ W.Used procs s2 ∧ ∃ m', μ s2 m' ∧ m' + (n + 1) ≤ m := by
        rintro s1 s2 n ⟨h1, h2, m1, h3, h4⟩ ⟨hs, -⟩
        obtain ⟨m2, h5, h6⟩ := h.less s1 s2 m1 h1 h2 hs h3
        exact ⟨.step h1 hs, fun hu => h2 (h.usedBack h1 hs hu), m2, h5, by omega⟩
      exact CommSys.QuietRun.fold (L := W.calm) (P := fun n _ x => W.Reach x ∧ ¬ W.Used procs x ∧ ∃ m', μ x m' ∧ m' + n ≤ m) hq
        ⟨hr, hu, m, hm, le_rfl⟩ (fun _ _ _ _ ih hq _ => key ih hq) (fun _ _ _ _ ih hq _ => key ih hq)
    obtain ⟨-, -, m', -, h2⟩ := this hq
    have := Nat.zero_le (k * (4 * K))
    omega

/-! ### All that is needed of the level -/

theorem Wrap.calmLift (h : Wrap B W base rank procs μ f) {s : W.S} (hr : W.Reach s) (hu : W.Used procs s)
    (ha : (∃ t, W.busy s t) ∨ (∃ r, W.serving s r) ∨ (∃ q r, W.inbox s q r ≠ [])) {y : B.S}
    (hc : B.Calm (base s) y) : ∃ x, W.calm.Calm s x ∧ base x = y := by
  obtain ⟨x, h1, h2, h3⟩ := h.lift s y hr hu ha hc
  refine ⟨x, ⟨⟨h1, h2⟩, fun t ht => ?_⟩, h3⟩
  change W.busy x t at ht
  show W.busy s t
  rw [h.busy] at ht ⊢
  exact hc.2 t (h3 ▸ ht)

theorem Wrap.calmStill (h : Wrap B W base rank procs μ f) {s x : W.S} (hr : W.Reach s) (hu : ¬ W.Used procs s)
    (h1 : W.sync s x) (h2 : W.stage x = W.stage s) : W.calm.Calm s x :=
  ⟨⟨h1, h2⟩, fun t ht => absurd (h.usedBack hr (h.syncStep _ _ h1)
    (h.busyUsed (.step hr (h.syncStep _ _ h1)) (h.busy _ _ ▸ ht))) hu⟩

theorem Wrap.commGood (h : Wrap B W base rank procs μ f) : W.calm.Good f where
  toSafe := h.safe
  syncStep := fun (s x : W.S) hs => h.syncStep s x hs.1
  empty := fun (s : W.S) hs q r => by
    have := h.good.empty _ (h.start s hs) q r
    constructor
    · show W.inbox s q r = []
      rw [h.inbox]; exact this.1
    · show ¬ W.serving s r
      rw [h.serving]; exact this.2
  tagged := fun (s : W.S) q r hr tag ht => by
    have hr : W.Reach s := hr
    change tag ∈ W.inbox s q r at ht
    show tag ∈ W.tags r
    by_cases hu : W.Used procs s
    · rw [h.tags]; rw [h.inbox] at ht
      exact h.good.tagged _ q r (h.used s hr hu) tag ht
    · exact h.tagged s q r hr hu tag ht
  msgs := h.msgs
  serves := h.serves
  netcdf := fun (s : W.S) t hr hu => by
    have hr : W.Reach s := hr
    change W.uses .netcdf s t at hu
    rw [h.uses] at hu
    have hb := h.usesBusy _ _ _ hr hu
    have hus := h.busyUsed hr hb
    obtain ⟨y, h1, h2, h3⟩ := h.good.netcdf _ t (h.used s hr hus) hu
    obtain ⟨x, h4, rfl⟩ := h.calmLift hr hus (.inl ⟨t, (h.busy s t) ▸ hb⟩) h1
    refine ⟨x, h4, fun k u hk => ?_, ?_⟩
    · change W.uses k x u at hk
      show W.uses k s u
      rw [h.uses] at hk ⊢
      exact h2 k u hk
    · show W.inbox x = W.inbox s
      rw [h.inbox, h.inbox, h3]
  mpi := fun (s : W.S) t hr hu => by
    have hr : W.Reach s := hr
    change W.uses .mpi s t at hu
    rw [h.uses] at hu
    have hb := h.usesBusy _ _ _ hr hu
    have hus := h.busyUsed hr hb
    obtain ⟨y, h1, h2, h3⟩ := h.good.mpi _ t (h.used s hr hus) hu
    obtain ⟨x, h4, rfl⟩ := h.calmLift hr hus (.inl ⟨t, (h.busy s t) ▸ hb⟩) h1
    refine ⟨x, h4, fun u hk => ?_, ?_⟩
    · change W.uses .mpi x u at hk
      show W.uses .mpi s u
      rw [h.uses] at hk ⊢
      exact h2 u hk
    · show W.inbox x = W.inbox s
      rw [h.inbox, h.inbox, h3]
  serve := fun (s : W.S) r hr hs => by
    have hr : W.Reach s := hr
    have hs : W.serving s r := hs
    by_cases hu : W.Used procs s
    · obtain ⟨y, h1, h2⟩ := h.good.serve _ r (h.used s hr hu) ((h.serving s r) ▸ hs)
      obtain ⟨x, h4, rfl⟩ := h.calmLift hr hu (.inr (.inl ⟨r, hs⟩)) h1
      refine ⟨x, h4, ?_⟩
      show W.inbox x = W.inbox s
      rw [h.inbox, h.inbox, h2]
    · obtain ⟨x, h1, h2, h3⟩ := h.serve s r hr hu hs
      exact ⟨x, h.calmStill hr hu h1 h2, h3⟩
  take := fun (s : W.S) q r tag l hr hn hi => by
    have hr : W.Reach s := hr
    have hn : ∀ r, ¬ W.serving s r := hn
    have hi : W.inbox s q r = tag :: l := hi
    by_cases hu : W.Used procs s
    · obtain ⟨y, h1, h2⟩ := h.good.take _ q r tag l (h.used s hr hu) (fun r => (h.serving s r) ▸ hn r)
        ((h.inbox s) ▸ hi)
      obtain ⟨x, h4, rfl⟩ := h.calmLift hr hu (.inr (.inr ⟨q, r, by rw [hi]; nofun⟩)) h1
      refine ⟨x, h4, ?_⟩
      show W.inbox x = upd (W.inbox s) q (upd (W.inbox s q) r l)
      rw [h.inbox, h.inbox, h2]
    · obtain ⟨x, h1, h2, h3⟩ := h.take s q r tag l hr hu hn hi
      exact ⟨x, h.calmStill hr hu h1 h2, h3⟩
  free := fun (s : W.S) t hr hb hn hi => by
    have hr : W.Reach s := hr
    have hb : W.busy s t := hb
    have hn : ∀ r, ¬ W.serving s r := hn
    have hi : ∀ q r, W.inbox s q r = [] := hi
    have hb' := hb
    rw [h.busy] at hb'
    have hu := h.busyUsed hr hb'
    obtain ⟨y, h1⟩ := h.good.free _ t (h.used s hr hu) hb' (fun r => (h.serving s r) ▸ hn r)
      (fun q r => (h.inbox s) ▸ hi q r)
    obtain ⟨x, h4, -⟩ := h.calmLift hr hu (.inl ⟨t, hb⟩) h1
    exact ⟨x, h4⟩
  unchanged := fun (s : W.S) hs => by
    change W.refused s s at hs
    rw [h.refused] at hs
    exact h.good.unchanged _ hs
  bound := fun (s : W.S) hr => h.bound hr

end

end Asagi
