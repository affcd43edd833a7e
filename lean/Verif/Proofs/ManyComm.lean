import Verif.Spec.ManyComm
import Verif.Proofs.ManyLevels
import Mathlib.Algebra.BigOperators.Ring.Finset
/-
Several grids with the same communication threads: what is needed of each level, and what follows for all.
-/
namespace Asagi
open Spec Props
variable {α : Type} {L : CommSys α} {G : ManyComm α}

/-- A step without a new call, if MPI does not buffer messages. -/
def CommSys.Calm (L : CommSys α) (s x : L.S) : Prop := L.sync s x ∧ ∀ t, L.busy x t → L.busy s t

/-- `n` steps without new calls, among them `k` refusals. -/
inductive CommSys.QuietRun (L : CommSys α) : (n k : Nat) → L.S → L.S → Prop
  | zero (s) : CommSys.QuietRun L 0 0 s s
  | served {n k s s1 s2} : CommSys.QuietRun L n k s s1 → L.Quiet s1 s2 → ¬ L.refused s1 s2 →
      CommSys.QuietRun L (n + 1) k s s2
  | refused {n k s s1 s2} : CommSys.QuietRun L n k s s1 → L.Quiet s1 s2 → L.refused s1 s2 →
      CommSys.QuietRun L (n + 1) (k + 1) s s2

/-- What is needed of a level. -/
structure CommSys.Good (L : CommSys α) (f : OpenedFile α) : Prop extends L.toLevelSys.Safe f where
  syncStep : ∀ s x, L.sync s x → L.step s x
  empty : ∀ s, L.start s → ∀ q r, L.inbox s q r = [] ∧ ¬ L.serving s r
  tagged : ∀ s q r, L.Reach s → ∀ tag ∈ L.inbox s q r, tag ∈ L.tags r
  msgs : ∀ s x, L.Reach s → L.step s x → ∀ q r, L.inbox x q r = L.inbox s q r ∨
    (∃ tag, L.inbox x q r = L.inbox s q r ++ [tag]) ∨ ∃ tag, L.inbox s q r = tag :: L.inbox x q r
  serves : ∀ s x r, L.Reach s → L.step s x → L.serving x r → ¬ L.serving s r →
    ∃ q tag, L.inbox s q r = tag :: L.inbox x q r
  netcdf : ∀ s t, L.Reach s → L.uses .netcdf s t →
    ∃ x, L.Calm s x ∧ (∀ k u, L.uses k x u → L.uses k s u) ∧ L.inbox x = L.inbox s
  mpi : ∀ s t, L.Reach s → L.uses .mpi s t →
    ∃ x, L.Calm s x ∧ (∀ u, L.uses .mpi x u → L.uses .mpi s u) ∧ L.inbox x = L.inbox s
  serve : ∀ s r, L.Reach s → L.serving s r → ∃ x, L.Calm s x ∧ L.inbox x = L.inbox s
  take : ∀ s q r tag l, L.Reach s → (∀ r, ¬ L.serving s r) → L.inbox s q r = tag :: l →
    ∃ x, L.Calm s x ∧ L.inbox x = upd (L.inbox s) q (upd (L.inbox s q) r l)
  free : ∀ s t, L.Reach s → L.busy s t → (∀ r, ¬ L.serving s r) → (∀ q r, L.inbox s q r = []) → ∃ x, L.Calm s x
  unchanged : ∀ s, ¬ L.refused s s
  bound : ∀ s, L.Reach s → ∃ N K, ∀ n k x, L.QuietRun n k s x → n ≤ N + k * K

/-! ### Projections -/

theorem lv_self (s : G.St) {i : Nat} (x : (G.L i).S) (net' : Nat → Nat → List Nat) :
    (⟨Function.update s.lv i x, net'⟩ : G.St).lv i = x := Function.update_self ..

theorem lv_ne (s : G.St) {i j : Nat} (h : j ≠ i) (x : (G.L i).S) (net' : Nat → Nat → List Nat) :
    (⟨Function.update s.lv i x, net'⟩ : G.St).lv j = s.lv j := Function.update_of_ne h ..

theorem stepIf_step {early : Bool} {f : OpenedFile α} (h : L.Good f) {s x : L.S} (hs : L.stepIf early s x) : L.step s x := by
  cases early with
  | true => exact hs
  | false => exact h.syncStep _ _ hs

section
variable {f : Nat → OpenedFile α} {early : Bool} {s s' : G.St}

/-- The levels, without the messages. -/
theorem comm_step (hG : ∀ i, i < G.n → (G.L i).Good (f i)) (h : ManyCommStep G early s s') :
    ManyStep G.many s.lv s'.lv := by
  cases h with
  | level i x net' hi hst hb hu hn => exact .level s.lv i x hi (stepIf_step (hG i hi) hst) hb hu

theorem comm_reach (h : ManyCommReach G s) : ManyReach G.many s.lv := by
  induction h with
  | init h => exact .init h.1
  | step _ hs ih =>
    cases hs with
    | level i x net' hi hst hb hu hn =>
      exact .step ih (ManyStep.level (G := G.many) _ i x hi hst hb hu)

theorem comm_level (h : ManyCommReach G s) (i : Nat) : (G.L i).Reach (s.lv i) := many_level (comm_reach h) i

theorem comm_during {i t : Nat} (h : CommDuring G i t s s') : ManyDuring G.many i t s.lv s'.lv := by
  induction h with
  | refl => exact .refl _
  | tail _ hs hb ih =>
    cases hs with
    | level j x net' hj hst hb' hu hn => exact .tail ih (ManyStep.level (G := G.many) _ j x hj hst hb' hu) hb

theorem comm_buffered (hG : ∀ i, i < G.n → (G.L i).Good (f i)) (h : ManyCommStep G early s s') :
    ManyCommStep G true s s' := by
  cases h with
  | level i x net' hi hst hb hu hn => exact .level _ i x net' hi (stepIf_step (hG i hi) hst) hb hu hn

theorem comm_run_reach (hG : ∀ i, i < G.n → (G.L i).Good (f i)) {n k : Nat} (h : ManyCommReach G s)
    (hr : CommQuietRun G early n k s s') : ManyCommReach G s' := by
  induction hr with
  | zero => exact h
  | served _ hq _ ih => exact .step (ih h) (comm_buffered hG hq.1)
  | refused _ hq _ ih => exact .step (ih h) (comm_buffered hG hq.1)

/-! ### Messages -/

/-- Messages of a level that all messages contain. -/
theorem net_filter {owner : Nat → Option Nat} {i : Nat} {fr : Prop} {l l' w w' : List Nat} (h : NetStep owner i fr l l' w w')
    (htag : ∀ tag ∈ l', owner tag = some i) (hw : w.filter (fun tag => decide (owner tag = some i)) = l) :
    w'.filter (fun tag => decide (owner tag = some i)) = l' := by
  cases h with
  | none => exact hw
  | send _ _ tag => rw [List.filter_append, hw, List.filter_cons, if_pos (by simpa using htag tag (by simp)), List.filter_nil]
  | recv _ _ tag ho _ =>
    rw [List.filter_cons, if_pos (by simpa using ho)] at hw
    injection hw

theorem net_other {owner : Nat → Option Nat} {i j : Nat} (hj : j ≠ i) {fr : Prop} {l l' w w' : List Nat}
    (h : NetStep owner i fr l l' w w') (htag : ∀ tag ∈ l', owner tag = some i) :
    w'.filter (fun tag => decide (owner tag = some j)) = w.filter (fun tag => decide (owner tag = some j)) := by
  have hne : ∀ tag, owner tag = some i → ¬ (decide (owner tag = some j) = true) := by
    intro tag h1 h2
    rw [h1] at h2
    exact hj (Option.some.inj (of_decide_eq_true h2)).symm
  cases h with
  | none => rfl
  | send _ _ tag => rw [List.filter_append, List.filter_cons, if_neg (hne tag (htag tag (by simp))), List.filter_nil, List.append_nil]
  | recv _ _ tag ho _ => rw [List.filter_cons, if_neg (hne tag ho)]

theorem net_owned {owner : Nat → Option Nat} {i n : Nat} (hi : i < n) {fr : Prop} {l l' w w' : List Nat}
    (h : NetStep owner i fr l l' w w') (htag : ∀ tag ∈ l', owner tag = some i)
    (hw : ∀ tag ∈ w, ∃ j, j < n ∧ owner tag = some j) : ∀ tag ∈ w', ∃ j, j < n ∧ owner tag = some j := by
  cases h with
  | none => exact hw
  | send _ _ tag =>
    intro t ht
    rcases List.mem_append.1 ht with ht | ht
    · exact hw t ht
    · rw [List.mem_singleton] at ht
      subst ht
      exact ⟨i, hi, htag t (by simp)⟩
  | recv _ _ tag ho _ => exact fun t ht => hw t (List.mem_cons_of_mem _ ht)

/-- All messages on their way belong to a level, and those of a level are in the order in which it has sent them. -/
theorem comm_net (hG : ∀ i, i < G.n → (G.L i).Good (f i))
    (ho : ∀ i, i < G.n → ∀ r, ∀ tag ∈ (G.L i).tags r, G.owner r tag = some i) (h : ManyCommReach G s) (q r : Nat) :
    (∀ i, i < G.n → (s.net q r).filter (fun tag => decide (G.owner r tag = some i)) = (G.L i).inbox (s.lv i) q r) ∧
    ∀ tag ∈ s.net q r, ∃ j, j < G.n ∧ G.owner r tag = some j := by
  induction h with
  | init h => rw [h.2 q r]; exact ⟨fun i hi => ((hG i hi).empty _ (h.1 i) q r).1.symm, nofun⟩
  | @step s1 s2 hr hs ih =>
    have hr2 : ManyCommReach G s2 := .step hr hs
    cases hs with
    | level i x net' hi hst hb hu hn =>
      have hlv := comm_level hr2 i
      rw [lv_self] at hlv
      have htag : ∀ tag ∈ (G.L i).inbox x q r, G.owner r tag = some i :=
        fun tag ht => ho i hi r tag ((hG i hi).tagged _ q r hlv tag ht)
      refine ⟨fun j hj => ?_, net_owned hi (hn q r) htag ih.2⟩
      by_cases e : j = i
      · subst e
        rw [lv_self]
        exact net_filter (hn q r) htag (ih.1 j hj)
      · rw [lv_ne _ e]
        exact (net_other e (hn q r) htag).trans (ih.1 j hj)

/-- A communication thread works for one level at a time. -/
theorem comm_serving (hG : ∀ i, i < G.n → (G.L i).Good (f i)) (h : ManyCommReach G s) (r : Nat) :
    ∀ i j, i < G.n → j < G.n → (G.L i).serving (s.lv i) r → (G.L j).serving (s.lv j) r → i = j := by
  induction h with
  | init h => exact fun i j hi _ h1 => absurd h1 ((hG i hi).empty _ (h.1 i) 0 r).2
  | @step s1 s2 hr hs ih =>
    cases hs with
    | level i x net' hi hst hb hu hn =>
      have key : (G.L i).serving x r → ∀ j, j < G.n → j ≠ i → ¬ (G.L j).serving (s1.lv j) r := by
        intro h1 j hj hne h2
        by_cases h3 : (G.L i).serving (s1.lv i) r
        · exact hne (ih j i hj hi h2 h3)
        · obtain ⟨q, tag, e⟩ := (hG i hi).serves _ _ r (comm_level hr i) (stepIf_step (hG i hi) hst) h1 h3
          have := hn q r
          rw [e] at this
          generalize hl : (G.L i).inbox x q r = l' at this
          generalize net' q r = w' at this
          generalize s1.net q r = w at this
          have hlen : ∀ {l l1 : List Nat}, l = tag :: l1 → l = l1 → False := by
            intro l l1 e1 e2; subst e2
            have := congrArg List.length e1
            simp at this
          generalize e4 : tag :: l' = l at this
          cases this with
          | none => exact hlen e4.symm rfl
          | send _ _ tag' =>
            have := congrArg List.length e4
            simp at this; omega
          | recv _ _ tag' h4 h5 => exact h5 j hj h2
      intro a b ha hb' h1 h2
      by_cases ea : a = i
      · subst ea
        rw [lv_self] at h1
        by_cases eb : b = a
        · exact eb.symm
        · rw [lv_ne _ eb] at h2
          exact absurd h2 (key h1 b hb' eb)
      · rw [lv_ne _ ea] at h1
        by_cases eb : b = i
        · subst eb
          rw [lv_self] at h2
          exact absurd h1 (key h2 a ha ea)
        · rw [lv_ne _ eb] at h2
          exact ih a b ha hb' h1 h2

/-! ### Progress -/

theorem calm_stepIf {g : OpenedFile α} (h : L.Good g) {s x : L.S} (hq : L.Calm s x) (early : Bool) : L.stepIf early s x := by
  cases early with
  | true => exact h.syncStep _ _ hq.1
  | false => exact hq.1

/-- A step of a level without new uses of locks that somebody has, and that takes only messages that it may take. -/
theorem comm_lift (hG : ∀ i, i < G.n → (G.L i).Good (f i)) (h : ManyCommReach G s) {i : Nat} {x : (G.L i).S}
    (hi : i < G.n) (hq : (G.L i).Calm (s.lv i) x)
    (hu : ∀ k t, (G.L i).uses k x t → ¬ (G.L i).uses k (s.lv i) t →
      ∀ j u, j < G.n → ¬ (G.L j).uses k (s.lv j) u)
    (hm : ∀ q r tag, (G.L i).inbox (s.lv i) q r = tag :: (G.L i).inbox x q r →
      (∃ w, s.net q r = tag :: w) ∧ G.owner r tag = some i ∧ ∀ j, j < G.n → ¬ (G.L j).serving (s.lv j) r) (early : Bool) :
    ∃ s', CommQuiet G early s s' := by
  have hnet : ∀ q r, ∃ w', NetStep (G.owner r) i (∀ j, j < G.n → ¬ (G.L j).serving (s.lv j) r)
        ((G.L i).inbox (s.lv i) q r) ((G.L i).inbox x q r) (s.net q r) w' := by
    intro q r
    rcases (hG i hi).msgs _ _ (comm_level h i) ((hG i hi).syncStep _ _ hq.1) q r with e | ⟨tag, e⟩ | ⟨tag, e⟩
    · rw [e]; exact ⟨_, .none _ _⟩
    · rw [e]; exact ⟨_, .send _ _ tag⟩
    · obtain ⟨⟨w, h1⟩, h2, h3⟩ := hm q r tag e
      rw [e, h1]; exact ⟨_, .recv _ _ tag h2 h3⟩
  choose net' hnet using hnet
  refine ⟨⟨Function.update s.lv i x, net'⟩, .level s i x net' hi (calm_stepIf (hG i hi) hq early)
    (fun t h1 h2 => absurd (hq.2 t h1) h2) (fun k t h1 h2 j u hj _ => hu k t h1 h2 j u hj) hnet, ?_⟩
  rintro t ⟨j, hj, hb⟩
  by_cases e : j = i
  · subst e
    rw [lv_self] at hb
    exact ⟨j, hj, hq.2 t hb⟩
  · rw [lv_ne _ e] at hb
    exact ⟨j, hj, hb⟩

theorem cons_ne {tag : Nat} {l l' : List Nat} (h : l = tag :: l') (h' : l' = l) : False := by
  subst h'
  have := congrArg List.length h
  simp at this

/-- A thread is in a getter, a communication thread works, or a message is on its way: something can happen. -/
theorem comm_active (hG : ∀ i, i < G.n → (G.L i).Good (f i))
    (ho : ∀ i, i < G.n → ∀ r, ∀ tag ∈ (G.L i).tags r, G.owner r tag = some i) (h : ManyCommReach G s)
    (ht : (∃ t, CommBusy G s t) ∨ (∃ i r, i < G.n ∧ (G.L i).serving (s.lv i) r) ∨ ∃ q r, s.net q r ≠ []) (early : Bool) :
    ∃ s', CommQuiet G early s s' := by
  have same : ∀ {i : Nat} {x : (G.L i).S}, (G.L i).inbox x = (G.L i).inbox (s.lv i) → ∀ q r tag,
      (G.L i).inbox (s.lv i) q r = tag :: (G.L i).inbox x q r →
      (∃ w, s.net q r = tag :: w) ∧ G.owner r tag = some i ∧ ∀ j, j < G.n → ¬ (G.L j).serving (s.lv j) r :=
    fun e q r tag e1 => (cons_ne e1 (by rw [e])).elim
  by_cases hn : ∃ i u, i < G.n ∧ (G.L i).uses .netcdf (s.lv i) u
  · obtain ⟨i, u, hi, hu⟩ := hn
    obtain ⟨x, hq, hx, e⟩ := (hG i hi).netcdf _ u (comm_level h i) hu
    exact comm_lift hG h hi hq (fun k v h1 h2 => absurd (hx k v h1) h2) (same e) early
  by_cases hm : ∃ i u, i < G.n ∧ (G.L i).uses .mpi (s.lv i) u
  · obtain ⟨i, u, hi, hu⟩ := hm
    obtain ⟨x, hq, hx, e⟩ := (hG i hi).mpi _ u (comm_level h i) hu
    refine comm_lift hG h hi hq (fun k v h1 h2 j w hj h3 => ?_) (same e) early
    cases k with
    | mpi => exact h2 (hx v h1)
    | netcdf => exact hn ⟨j, w, hj, h3⟩
  have nolock : ∀ {i : Nat} {x : (G.L i).S} (k : LibLock) (t : Nat), (G.L i).uses k x t → ¬ (G.L i).uses k (s.lv i) t →
      ∀ j u, j < G.n → ¬ (G.L j).uses k (s.lv j) u := by
    intro i x k v _ _ j w hj h3
    cases k with
    | mpi => exact hm ⟨j, w, hj, h3⟩
    | netcdf => exact hn ⟨j, w, hj, h3⟩
  by_cases hs : ∃ i r, i < G.n ∧ (G.L i).serving (s.lv i) r
  · obtain ⟨i, r, hi, hr⟩ := hs
    obtain ⟨x, hq, e⟩ := (hG i hi).serve _ r (comm_level h i) hr
    exact comm_lift hG h hi hq nolock (same e) early
  by_cases hw : ∃ q r, s.net q r ≠ []
  · obtain ⟨q, r, hw⟩ := hw
    obtain ⟨h1, h2⟩ := comm_net hG ho h q r
    cases e : s.net q r with
    | nil => exact absurd e hw
    | cons tag w =>
      rw [e] at h1 h2
      obtain ⟨i, hi, hoi⟩ := h2 tag List.mem_cons_self
      have hin := h1 i hi
      rw [List.filter_cons, if_pos (by simpa using hoi)] at hin
      obtain ⟨x, hq, ex⟩ := (hG i hi).take _ q r tag _ (comm_level h i) (fun r' hr' => hs ⟨i, r', hi, hr'⟩) hin.symm
      refine comm_lift hG h hi hq nolock (fun q' r' tag' e' => ?_) early
      by_cases e1 : q' = q
      · by_cases e2 : r' = r
        · subst e1 e2
          rw [← hin] at e'
          injection e' with e' _
          subst e'
          exact ⟨⟨w, e⟩, hoi, fun j hj hsv => hs ⟨j, r', hj, hsv⟩⟩
        · subst e1
          exact (cons_ne e' (by rw [ex, upd_self, upd_ne _ _ e2])).elim
      · exact (cons_ne e' (by rw [ex, upd_ne _ _ e1])).elim
  · obtain ⟨t, i, hi, hb⟩ := ht.resolve_right fun e => e.elim hs hw
    have hin : ∀ q r, (G.L i).inbox (s.lv i) q r = [] := by
      intro q r
      rw [← (comm_net hG ho h q r).1 i hi]
      have : s.net q r = [] := by
        by_contra hne
        exact hw ⟨q, r, hne⟩
      rw [this]; rfl
    obtain ⟨x, hq⟩ := (hG i hi).free _ t (comm_level h i) hb (fun r hr => hs ⟨i, r, hi, hr⟩) hin
    refine comm_lift hG h hi hq nolock (fun q r tag e => ?_) early
    rw [hin] at e; cases e

theorem comm_progress (hG : ∀ i, i < G.n → (G.L i).Good (f i))
    (ho : ∀ i, i < G.n → ∀ r, ∀ tag ∈ (G.L i).tags r, G.owner r tag = some i) (h : ManyCommReach G s) {t : Nat}
    (ht : CommBusy G s t) (early : Bool) : ∃ s', CommQuiet G early s s' := comm_active hG ho h (.inl ⟨t, ht⟩) early

/-! ### The length of executions -/

theorem comm_quiet_busy {i : Nat} {x : (G.L i).S} {net' : Nat → Nat → List Nat} (hi : i < G.n)
    (hb : ∀ t, (G.L i).busy x t → ¬ (G.L i).busy (s.lv i) t → ∀ j, j < G.n → ¬ (G.L j).busy (s.lv j) t)
    (hq : ∀ t, CommBusy G ⟨Function.update s.lv i x, net'⟩ t → CommBusy G s t) (t : Nat)
    (ht : (G.L i).busy x t) : (G.L i).busy (s.lv i) t := by
  by_contra hn
  obtain ⟨j, hj, h⟩ := hq t ⟨i, hi, by
    rw [lv_self]; exact ht⟩
  exact hb t ht hn j hj h

theorem sum_bump (c : Nat → Nat) {n i : Nat} (hi : i < n) (d : Nat) :
    ∑ j ∈ Finset.range n, Function.update c i (c i + d) j = (∑ j ∈ Finset.range n, c j) + d := by
  have hm : i ∈ Finset.range n := Finset.mem_range.2 hi
  rw [← Finset.add_sum_erase _ _ hm, ← Finset.add_sum_erase _ _ hm, Function.update_self]
  have : ∑ x ∈ (Finset.range n).erase i, Function.update c i (c i + d) x = ∑ x ∈ (Finset.range n).erase i, c x :=
    Finset.sum_congr rfl fun j hj => Function.update_of_ne (Finset.ne_of_mem_erase hj) _ _
  omega

/-- The projections of an execution. -/
theorem comm_run (hG : ∀ i, i < G.n → (G.L i).Good (f i)) {n k : Nat} (h : CommQuietRun G early n k s s') :
    ∃ c d : Nat → Nat, (∀ i, i < G.n → (G.L i).QuietRun (c i) (d i) (s.lv i) (s'.lv i)) ∧
      n = ∑ i ∈ Finset.range G.n, c i ∧ k = ∑ i ∈ Finset.range G.n, d i := by
  have key : ∀ {s1 s2 : G.St} {n k : Nat}, (∃ c d : Nat → Nat,
      (∀ i, i < G.n → (G.L i).QuietRun (c i) (d i) (s.lv i) (s1.lv i)) ∧
      n = ∑ i ∈ Finset.range G.n, c i ∧ k = ∑ i ∈ Finset.range G.n, d i) → CommQuiet G early s1 s2 → ∀ k' ,
      (CommRefused G s1 s2 → k' = k + 1) → (¬ CommRefused G s1 s2 → k' = k) → ∃ c d : Nat → Nat,
      (∀ i, i < G.n → (G.L i).QuietRun (c i) (d i) (s.lv i) (s2.lv i)) ∧
      n + 1 = ∑ i ∈ Finset.range G.n, c i ∧ k' = ∑ i ∈ Finset.range G.n, d i := by
    rintro s1 s2 n k ⟨c, d, h1, h2, h3⟩ ⟨hs, hq⟩ k' hk1 hk2
    cases hs with
    | level i x net' hi hst hb hu hn =>
      have hquiet : (G.L i).Quiet (s1.lv i) x := ⟨stepIf_step (hG i hi) hst, comm_quiet_busy hi hb hq⟩
      have href : CommRefused G s1 ⟨Function.update s1.lv i x, net'⟩ ↔ (G.L i).refused (s1.lv i) x := by
        constructor
        · rintro ⟨j, hj, hr⟩
          by_cases e : j = i
          · subst e
            rw [lv_self] at hr
            exact hr
          · rw [lv_ne _ e] at hr
            exact absurd hr ((hG j hj).unchanged _)
        · intro hr
          refine ⟨i, hi, ?_⟩
          rw [lv_self]
          exact hr
      rw [href] at hk1 hk2
      obtain ⟨e, he, hrun⟩ : ∃ e, k' = k + e ∧ (G.L i).QuietRun (c i + 1) (d i + e) (s.lv i) x := by
        by_cases hr : (G.L i).refused (s1.lv i) x
        · exact ⟨1, hk1 hr, .refused (h1 i hi) hquiet hr⟩
        · exact ⟨0, hk2 hr, .served (h1 i hi) hquiet hr⟩
      refine ⟨Function.update c i (c i + 1), Function.update d i (d i + e), fun j hj => ?_, ?_, ?_⟩
      · by_cases ej : j = i
        · subst ej
          rw [Function.update_self, Function.update_self,
            lv_self]
          exact hrun
        · rw [Function.update_of_ne ej, Function.update_of_ne ej,
            lv_ne _ ej]
          exact h1 j hj
      · rw [sum_bump c hi, ← h2]
      · rw [sum_bump d hi, ← h3, he]
  clear * -h key
  induction h with
  | zero => exact ⟨fun _ => 0, fun _ => 0, fun i _ => .zero _, by simp, by simp⟩
  | served _ hq hn ih => exact key (ih key) hq _ (fun h => absurd h hn) (fun _ => rfl)
  | refused _ hq hn ih => exact key (ih key) hq _ (fun _ => rfl) (fun h => absurd hn h)

theorem comm_bound (hG : ∀ i, i < G.n → (G.L i).Good (f i)) (h : ManyCommReach G s) :
    ∃ N K, ∀ early n k s', CommQuietRun G early n k s s' → n ≤ N + k * K := by
  have hN : ∀ i, ∃ N K, i < G.n → ∀ n k x, (G.L i).QuietRun n k (s.lv i) x → n ≤ N + k * K := by
    intro i
    by_cases hi : i < G.n
    · obtain ⟨N, K, hN⟩ := (hG i hi).bound _ (comm_level h i)
      exact ⟨N, K, fun _ => hN⟩
    · exact ⟨0, 0, fun h => absurd h hi⟩
  choose N K hN using hN
  refine ⟨∑ i ∈ Finset.range G.n, N i, ∑ i ∈ Finset.range G.n, K i, fun early n k s' hr => ?_⟩
  obtain ⟨c, d, h1, rfl, rfl⟩ := comm_run hG hr
  calc ∑ i ∈ Finset.range G.n, c i ≤ ∑ i ∈ Finset.range G.n, (N i + d i * ∑ j ∈ Finset.range G.n, K j) := by
        refine Finset.sum_le_sum fun i hi => ?_
        have := hN i (Finset.mem_range.1 hi) _ _ _ (h1 i (Finset.mem_range.1 hi))
        have hK : K i ≤ ∑ j ∈ Finset.range G.n, K j := Finset.single_le_sum (fun _ _ => Nat.zero_le _) hi
        have := Nat.mul_le_mul_left (d i) hK
        omega
    _ = _ := by rw [Finset.sum_add_distrib, Finset.sum_mul]

end

end Asagi
