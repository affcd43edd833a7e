import Verif.Proofs.ManyCloseKinds
import Verif.Spec.ManyClose
/-
Several grids that are used and closed at the same time.
-/
namespace Asagi
open Spec Props
variable {α : Type} {G : ManyClose α} {f : Nat → OpenedFile α}

/-- What is needed of a level that is used and closed by the processes `mem`. -/
structure CloseSys.Fine (W : CloseSys α) (mem : Nat → Prop) (rank : Nat → Nat) (f : OpenedFile α) : Prop where
  good : W.calm.Good f
  syncStep : ∀ s x, W.sync s x → W.step s x
  notCalled : ∀ t pos s, ¬ W.called t pos s s
  idle : ∀ s t, W.Reach s → W.stage s (rank t) ≠ 0 → ¬ W.busy s t
  out : ∀ s r, W.Reach s → ¬ mem r → W.stage s r = 0
  bar : ∀ s r, W.Reach s → 2 ≤ W.stage s r → ∀ q, mem q → W.stage s q ≠ 0
  advance : ∀ s r, W.Reach s → (∀ t, ¬ W.busy s t) → (∀ r, ¬ W.serving s r) → mem r →
    W.stage s r ≠ W.closed → ∃ x, W.sync s x ∧ W.inbox x = W.inbox s ∧ (∀ t, W.busy x t → W.busy s t) ∧
      (∀ k t, W.uses k x t → W.uses k s t) ∧ ∀ q, ¬ mem q → W.stage x q = W.stage s q

theorem Wrap.fine {B : CommSys α} {W : CloseSys α} {base : W.S → B.S} {rank : Nat → Nat} {procs : Nat}
    {μ : W.S → Nat → Prop} {g : OpenedFile α} (h : Wrap B W base rank procs μ g) : W.Fine (· < procs) rank g where
  good := h.commGood
  syncStep := h.syncStep
  notCalled := fun t pos s hc => h.notCalled t pos (base s) (h.called t pos s s ▸ hc)
  idle := fun s t hr h0 hb => h.idle s t hr h0 (h.busy s t ▸ hb)
  out := fun s r hr h0 => h.out s r hr (Nat.le_of_not_lt h0)
  bar := fun s r hr h2 => unused_iff.1 (h.bar s r hr h2)
  advance := by
    intro s r hr hb hn hrp h8
    obtain ⟨x, h1, h2, h3⟩ := h.advance s r hr hb hn hrp h8
    refine ⟨x, h1, ?_, fun t => ?_, fun k t => ?_, fun q hq => h3 q (Nat.le_of_not_lt hq)⟩
    · rw [h.inbox, h.inbox, h2]
    · rw [h.busy, h.busy, h2]; exact id
    · rw [h.uses, h.uses, h2]; exact id

theorem fine_close {rank : Nat → Nat} {procs : Nat} {g : OpenedFile α} {W : CloseSys α} (hp : ∀ t, rank t < procs)
    (h : ProperClose rank procs g W) : W.Fine (· < procs) rank g := by
  cases h with
  | other L hL => exact (wrap_other hL hp).fine
  | full c X s0 h1 h2 h3 h4 =>
    obtain rfl : X.rankT = rank := funext h4
    exact (wrap_full h1 h2 h3 hp).fine
  | cache c S C h1 h2 h3 h4 =>
    obtain rfl : C.P.rankT = rank := funext h4
    exact (wrap_cache h1 h2 h3 hp).fine

/-- The levels and the communication threads, as in `Verif.Model.ManyComm`. -/
abbrev ManyClose.calm (G : ManyClose α) : ManyComm α := ⟨G.n, G.rank, fun i => (G.L i).calm, G.owner⟩

abbrev ManyClose.St.calm (s : G.St) : G.calm.St := ⟨s.lv, s.net⟩

section
variable {mem : Nat → Nat → Prop} {early : Bool} {s s' : G.St} (hG : ∀ i, i < G.n → (G.L i).Fine (mem i) G.rank (f i))
include hG

theorem close_goods : ∀ i, i < G.calm.n → (G.calm.L i).Good (f i) := fun i hi => (hG i hi).good

theorem close_stepIf {i : Nat} (hi : i < G.n) {a b : (G.L i).S} (h : (G.L i).stepIf early a b) : (G.L i).step a b := by
  cases early with
  | true => exact h
  | false => exact (hG i hi).syncStep _ _ h

theorem close_step (h : ManyCloseStep G early s s') : ManyCommStep G.calm true s.calm s'.calm := by
  cases h with
  | level i x net' hi hst hb hu hn hc =>
    exact ManyCommStep.level (G := G.calm) s.calm i x net' hi (close_stepIf hG hi hst) hb hu hn

theorem close_buffered (h : ManyCloseStep G early s s') : ManyCloseStep G true s s' := by
  cases h with
  | level i x net' hi hst hb hu hn hc => exact .level s i x net' hi (close_stepIf hG hi hst) hb hu hn hc

theorem close_reach (h : ManyCloseReach G s) : ManyCommReach G.calm s.calm := by
  induction h with
  | init h => exact .init h
  | step _ hs ih => exact .step ih (close_step hG hs)

theorem close_level (h : ManyCloseReach G s) (i : Nat) : (G.L i).Reach (s.lv i) := comm_level (close_reach hG h) i

theorem close_during {i t : Nat} (h : CloseDuring G i t s s') : CommDuring G.calm i t s.calm s'.calm := by
  induction h with
  | refl => exact .refl _
  | tail _ hs hb ih => exact .tail ih (close_step hG hs) hb

theorem close_quiet (h : CloseQuiet G early s s') : CommQuiet G.calm true s.calm s'.calm := ⟨close_step hG h.1, h.2⟩

theorem close_run {n k : Nat} (h : CloseQuietRun G early n k s s') : CommQuietRun G.calm true n k s.calm s'.calm := by
  induction h with
  | zero => exact .zero _
  | served _ hq hn ih => exact .served ih (close_quiet hG hq) hn
  | refused _ hq hn ih => exact .refused ih (close_quiet hG hq) hn

theorem close_run_reach {n k : Nat} (h : ManyCloseReach G s) (hr : CloseQuietRun G early n k s s') : ManyCloseReach G s' := by
  induction hr with
  | zero => exact h
  | served _ hq _ ih => exact .step (ih h) (close_buffered hG hq.1)
  | refused _ hq _ ih => exact .step (ih h) (close_buffered hG hq.1)

/-- Something can happen while a thread is in a getter or a grid is not closed. -/
theorem close_progress (ho : ∀ i, i < G.n → ∀ r, ∀ tag ∈ (G.L i).tags r, G.owner r tag = some i) (hsame : ∀ r j i, mem i r → G.before r j i → j < i ∧ G.closes j ∧ mem j r)
    (h : ManyCloseReach G s)
    (ht : (∃ t, CloseBusy G s t) ∨ ∃ i r, i < G.n ∧ mem i r ∧ G.closes i ∧ ¬ ClosedBy G s i r) (early : Bool) :
    ∃ s', CloseQuiet G early s s' := by
  by_cases ha : (∃ t, CloseBusy G s t) ∨ (∃ i r, i < G.n ∧ (G.L i).serving (s.lv i) r) ∨ ∃ q r, s.net q r ≠ []
  · obtain ⟨y, hs, hq⟩ := comm_active (G := G.calm) (close_goods hG) ho (close_reach hG h) ha false
    cases hs with
    | level i x net' hi hst hb hu hn =>
      have hst : (G.L i).sync (s.lv i) x ∧ (G.L i).stage x = (G.L i).stage (s.lv i) := hst
      refine ⟨⟨Function.update s.lv i x, net'⟩, .level s i x net' hi ?_ hb hu hn fun r hr => absurd (by rw [hst.2]) hr, hq⟩
      cases early with
      | true => exact (hG i hi).syncStep _ _ hst.1
      | false => exact hst.1
  · rw [not_or, not_or] at ha
    obtain ⟨a1, a2, -⟩ := ha
    have hbusy : ∀ i, i < G.n → ∀ t, ¬ (G.L i).busy (s.lv i) t := fun i hi t hb => a1 ⟨t, i, hi, hb⟩
    have hserv : ∀ i, i < G.n → ∀ r, ¬ (G.L i).serving (s.lv i) r := fun i hi r hb => a2 ⟨i, r, hi, hb⟩
    have hex : ∃ i, i < G.n ∧ G.closes i ∧ ∃ r, mem i r ∧ ¬ ClosedBy G s i r := by
      obtain ⟨i, r, h1, h2, h3, h4⟩ := ht.resolve_left a1
      exact ⟨i, h1, h3, r, h2, h4⟩
    classical
    obtain ⟨hi, hcl, r, hr, hnc⟩ := Nat.find_spec hex
    have hmin : ∀ j, j < Nat.find hex → G.closes j → ∀ q, mem j q → ClosedBy G s j q := by
      intro j hj hc q hq
      by_contra hn
      exact Nat.find_min hex hj ⟨by omega, hc, q, hq, hn⟩
    generalize Nat.find hex = i at hi hcl hr hnc hmin
    obtain ⟨x, h1, h2, h3, h4, h5⟩ := (hG i hi).advance _ r (close_level hG h i) (hbusy i hi) (hserv i hi) hr hnc
    refine ⟨⟨Function.update s.lv i x, s.net⟩, .level s i x s.net hi ?_ (fun t hb hnb => absurd (h3 t hb) hnb)
      (fun k t hu hnu => absurd (h4 k t hu) hnu) (fun q r => by rw [h2]; exact .none _ _) fun q hq => ?_, ?_⟩
    · cases early with
      | true => exact (hG i hi).syncStep _ _ h1
      | false => exact h1
    · refine ⟨hcl, fun j hj => ?_, fun _ j hj => hserv j hj q⟩
      obtain ⟨e1, e2, e3⟩ := hsame q j i (Classical.not_not.1 fun hn => hq (h5 q hn)) hj
      exact hmin j e1 e2 q e3
    · rintro t ⟨j, hj, hb⟩
      by_cases e : j = i
      · subst e
        rw [show (⟨Function.update s.lv j x, s.net⟩ : G.St).lv j = x from Function.update_self ..] at hb
        exact absurd (h3 t hb) (hbusy j hj t)
      · rw [show (⟨Function.update s.lv i x, s.net⟩ : G.St).lv j = s.lv j from Function.update_of_ne e ..] at hb
        exact ⟨j, hj, hb⟩

end

end Asagi
