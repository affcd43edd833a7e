import Verif.Spec.Deal
import Verif.Proofs.Blocked
import Mathlib.Tactic.ByContra
/-
C86: the blocks of a distributed grid are dealt out in order and evenly.
-/
namespace Asagi.Props
open Asagi Asagi.Spec

/-- How many of the numbers below `i` are `n` modulo `R`. -/
def turns (R i n : Nat) : Nat := (i + (R - 1 - n)) / R

theorem turns_succ {R i n : Nat} (hn : n < R) :
    turns R (i + 1) n = turns R i n + if i % R = n then 1 else 0 := by
  unfold turns
  have e : i + 1 + (R - 1 - n) = i + (R - 1 - n) + 1 := by omega
  rw [e, Nat.succ_div]
  congr 1
  have : R ∣ i + (R - 1 - n) + 1 ↔ i % R = n := by
    have e2 : i + (R - 1 - n) + 1 = i + (R - n) := by omega
    rw [e2, Nat.dvd_iff_mod_eq_zero, Nat.add_mod]
    rcases Nat.eq_zero_or_pos n with rfl | h0
    · simp
    · rw [Nat.mod_eq_of_lt (show R - n < R by omega)]
      have h1 : i % R < R := Nat.mod_lt _ (by omega)
      constructor
      · intro h
        by_contra hne
        rcases Nat.lt_or_ge (i % R + (R - n)) R with h2 | h2
        · rw [Nat.mod_eq_of_lt h2] at h; omega
        · rw [Nat.mod_eq_sub_mod h2, Nat.mod_eq_of_lt (by omega)] at h; omega
      · intro h
        rw [h, show n + (R - n) = R by omega, Nat.mod_self]
  by_cases h : i % R = n
  · rw [if_pos (this.mpr h), if_pos h]
  · rw [if_neg (fun k => h (this.mp k)), if_neg h]

theorem turns_self {R i : Nat} (hR : 0 < R) : turns R i (i % R) = i / R := by
  unfold turns
  have h1 := Nat.mod_lt i hR
  have h2 := Nat.div_add_mod i R
  have e : i + (R - 1 - i % R) = R - 1 + R * (i / R) := by omega
  rw [e, Nat.add_mul_div_left _ _ hR, Nat.div_eq_of_lt (by omega), Nat.zero_add]

theorem dealt_state {R D : Nat} (hR : 0 < R) (i : Nat) :
    (dealt R D i).node = i % R ∧
    (∀ n, n < R → (dealt R D i).core n = turns R i n % D) ∧
    ∀ n c, n < R → c < D → (dealt R D i).offset n c = turns D (turns R i n) c := by
  induction i with
  | zero =>
    have h0 : ∀ n, n < R → turns R 0 n = 0 := fun n hn => Nat.div_eq_of_lt (by omega)
    refine ⟨by simp [dealt, Dealer.start], fun n hn => ?_, fun n c hn hc => ?_⟩
    · rw [h0 n hn]; simp [dealt, Dealer.start]
    · rw [h0 n hn]
      exact (Nat.div_eq_of_lt (by omega)).symm
  | succ i ih =>
    obtain ⟨h1, h2, h3⟩ := ih
    have hm := Nat.mod_lt i hR
    refine ⟨?_, fun n hn => ?_, fun n c hn hc => ?_⟩
    · simp only [dealt, Dealer.next, h1]
      simp [Nat.add_mod]
    · simp only [dealt, Dealer.next, h1, h2 n hn, turns_succ hn]
      by_cases e : n = i % R
      · rw [if_pos e, if_pos e.symm]; simp [Nat.add_mod]
      · rw [if_neg e, if_neg (fun k => e k.symm), Nat.add_zero]
    · simp only [dealt, Dealer.next, h1, h2 _ hm, h3 n c hn hc, turns_succ hn]
      by_cases e : n = i % R
      · subst e
        simp only [if_true, true_and, turns_succ hc]
        by_cases e2 : c = turns R i (i % R) % D
        · rw [if_pos e2, if_pos e2.symm]
        · rw [if_neg e2, if_neg (fun k => e2 k.symm), Nat.add_zero]
      · rw [if_neg (fun k => e k.1), if_neg (fun k => e k.symm), Nat.add_zero]

/-- **C86** Round robin: the place of each block is the one it gets when the blocks are dealt out one after the other,
each to the next process, and in each process to the next domain. -/
theorem C86_round_robin (ds : Dist) (hr : 0 < ds.ranks) (hd : 0 < ds.domains) (hrr : ds.roundRobin = true)
    (total b : Nat) : placeOf ds total b = (dealt ds.ranks ds.domains b).place := by
  obtain ⟨h1, h2, h3⟩ := dealt_state (D := ds.domains) hr b
  have hm := Nat.mod_lt b hr
  simp only [placeOf, Dealer.place, Dist.blockRank, Dist.blockDomain, Dist.blockOffset, hrr, if_true]
  rw [h1, h2 _ hm, turns_self hr, h3 _ _ hm (Nat.mod_lt _ hd), turns_self hr, turns_self hd]

theorem filled_state {D L : Nat} (hD : 0 < D) (hL : 0 < L) (i : Nat) :
    ((filled D L i).node * D + (filled D L i).core) * L + (filled D L i).offset = i ∧
    (filled D L i).core < D ∧ (filled D L i).offset < L := by
  induction i with
  | zero => exact ⟨by simp [filled], hD, hL⟩
  | succ i ih =>
    obtain ⟨h1, h2, h3⟩ := ih
    simp only [filled, Place.next]
    split
    · next h => exact ⟨by dsimp only; omega, h2, h⟩
    · next h =>
      have h4 : (filled D L i).offset + 1 = L := by omega
      split
      · next h' =>
        refine ⟨?_, h', hL⟩
        dsimp only
        rw [← Nat.add_assoc, Nat.add_mul _ 1 L]; omega
      · next h' =>
        have h5 : (filled D L i).core + 1 = D := by omega
        refine ⟨?_, hD, hL⟩
        dsimp only
        have e : ((filled D L i).node + 1) * D = (filled D L i).node * D + (filled D L i).core + 1 := by
          rw [Nat.add_mul]; omega
        rw [Nat.add_zero, e, Nat.add_mul _ 1 L]; omega

/-- **C86** Otherwise the place of each block is the one it gets when the domains are filled one after the other. -/
theorem C86_filled (ds : Dist) (hr : 0 < ds.ranks) (hd : 0 < ds.domains) (hrr : ds.roundRobin = false)
    (total b : Nat) (hb : b < total) :
    placeOf ds total b = filled ds.domains (ds.localBlockCount total) b := by
  have hL : 0 < ds.localBlockCount total := by
    have hc : 0 < ds.domains * ds.ranks := Nat.mul_pos hd hr
    exact Nat.div_pos (by omega) hc
  obtain ⟨h1, h2, h3⟩ := filled_state hd hL b
  generalize filled ds.domains (ds.localBlockCount total) b = p at *
  generalize hLd : ds.localBlockCount total = L at *
  have d1 : b / L = p.node * ds.domains + p.core := by
    rw [← h1, Nat.add_comm, Nat.add_mul_div_right _ _ hL, Nat.div_eq_of_lt h3, Nat.zero_add]
  have d2 : b % L = p.offset := by
    rw [← h1, Nat.add_comm, Nat.add_mul_mod_self_right, Nat.mod_eq_of_lt h3]
  simp only [placeOf, Dist.blockRank, Dist.blockDomain, Dist.blockOffset, Dist.nodeBlockCount, hrr, hLd, d2,
    Bool.false_eq_true, if_false]
  rw [← Nat.div_div_eq_div_mul, d1, Nat.add_comm, Nat.add_mul_div_right _ _ hd, Nat.div_eq_of_lt h2,
    Nat.add_mul_mod_self_right, Nat.mod_eq_of_lt h2, Nat.zero_add]

/-- **C86** Round robin: the numbers of blocks of any two domains differ by one at most. -/
theorem C86_even (ds : Dist) (hr : 0 < ds.ranks) (hd : 0 < ds.domains) (hrr : ds.roundRobin = true)
    (total r d r' d' : Nat) (h1 : r < ds.ranks) (h2 : d < ds.domains) (h3 : r' < ds.ranks) (h4 : d' < ds.domains) :
    blocksOf ds total r d ≤ blocksOf ds total r' d' + 1 := by
  have key : ∀ r d, r < ds.ranks → d < ds.domains →
      blocksOf ds total r d = turns (ds.ranks * ds.domains) total (d * ds.ranks + r) := by
    intro r d h1 h2
    have hlt : d * ds.ranks + r < ds.ranks * ds.domains := by
      calc d * ds.ranks + r < d * ds.ranks + ds.ranks := by omega
        _ = (d + 1) * ds.ranks := by rw [Nat.add_mul]; omega
        _ ≤ ds.domains * ds.ranks := Nat.mul_le_mul_right _ h2
        _ = _ := Nat.mul_comm _ _
    unfold blocksOf
    induction total with
    | zero => exact (Nat.div_eq_of_lt (by omega)).symm
    | succ n ih =>
      rw [List.range_succ, List.countP_append, turns_succ hlt]
      have e1 : ∀ t, (fun b => decide (ds.blockRank t b = r ∧ ds.blockDomain t b = d)) =
          fun b => decide (b % (ds.ranks * ds.domains) = d * ds.ranks + r) := by
        intro t
        funext b
        simp only [Dist.blockRank, Dist.blockDomain, hrr, if_true]
        congr 1
        rw [Nat.mod_mul, eq_iff_iff]
        have hm := Nat.mod_lt b hr
        constructor
        · rintro ⟨rfl, rfl⟩; rw [Nat.mul_comm]; omega
        · intro h
          have m1 := congrArg (· % ds.ranks) h
          have m2 := congrArg (· / ds.ranks) h
          simp only [Nat.add_mul_mod_self_left, Nat.mod_mod] at m1
          rw [Nat.add_comm (d * _), Nat.add_mul_mod_self_right, Nat.mod_eq_of_lt h1] at m1
          simp only [Nat.add_mul_div_left _ _ hr, Nat.div_eq_of_lt hm] at m2
          rw [Nat.add_comm (d * _), Nat.add_mul_div_right _ _ hr, Nat.div_eq_of_lt h1] at m2
          exact ⟨m1, by omega⟩
      rw [e1] at ih ⊢
      rw [ih]
      congr 1
      by_cases h : n % (ds.ranks * ds.domains) = d * ds.ranks + r
      · simp [h]
      · simp [h]
  rw [key r d h1 h2, key r' d' h3 h4]
  have hRD : 0 < ds.ranks * ds.domains := Nat.mul_pos hr hd
  unfold turns
  calc (total + (ds.ranks * ds.domains - 1 - (d * ds.ranks + r))) / (ds.ranks * ds.domains)
      ≤ (total + (ds.ranks * ds.domains - 1 - (d' * ds.ranks + r')) + ds.ranks * ds.domains) /
          (ds.ranks * ds.domains) := Nat.div_le_div_right (by omega)
    _ = _ := Nat.add_div_right _ hRD

/-- **C86** Otherwise each domain owns consecutive blocks: those of domain `d` of process `r` are the blocks with the
numbers from `k * L` to `(k + 1) * L - 1`, where `k` is the number of the domain over all processes. -/
theorem C86_consecutive (ds : Dist) (hr : 0 < ds.ranks) (hd : 0 < ds.domains) (hrr : ds.roundRobin = false)
    (total r d b : Nat) (h1 : r < ds.ranks) (h2 : d < ds.domains) (hb : b < total) :
    (ds.blockRank total b = r ∧ ds.blockDomain total b = d) ↔
      (r * ds.domains + d) * ds.localBlockCount total ≤ b ∧
        b < (r * ds.domains + d + 1) * ds.localBlockCount total := by
  have hL : 0 < ds.localBlockCount total := by
    have hc : 0 < ds.domains * ds.ranks := Nat.mul_pos hd hr
    exact Nat.div_pos (by omega) hc
  have e : ((r * ds.domains + d) * ds.localBlockCount total ≤ b ∧
      b < (r * ds.domains + d + 1) * ds.localBlockCount total) ↔
      b / ds.localBlockCount total = r * ds.domains + d := by
    rw [Nat.div_eq_iff hL]
    constructor
    · rintro ⟨a, c⟩; rw [Nat.add_mul, Nat.one_mul] at c; omega
    · rintro ⟨a, c⟩; rw [Nat.add_mul _ 1, Nat.one_mul]; omega
  rw [e]
  simp only [Dist.blockRank, Dist.blockDomain, Dist.nodeBlockCount, hrr, Bool.false_eq_true, if_false]
  rw [← Nat.div_div_eq_div_mul]
  generalize b / ds.localBlockCount total = x
  constructor
  · rintro ⟨rfl, rfl⟩
    have := Nat.div_add_mod x ds.domains
    rw [Nat.mul_comm] at this; omega
  · rintro rfl
    rw [Nat.add_comm, Nat.add_mul_div_right _ _ hd, Nat.div_eq_of_lt h2, Nat.add_mul_mod_self_right,
      Nat.mod_eq_of_lt h2]
    exact ⟨Nat.zero_add _, rfl⟩

/-- 20 blocks, 2 processes with 3 domains. -/
example : (List.range 8).map (placeOf ⟨2, 3, true⟩ 20) =
    [⟨0, 0, 0⟩, ⟨1, 0, 0⟩, ⟨0, 1, 0⟩, ⟨1, 1, 0⟩, ⟨0, 2, 0⟩, ⟨1, 2, 0⟩, ⟨0, 0, 1⟩, ⟨1, 0, 1⟩] ∧
    (List.range 8).map (filled 3 4) =
    [⟨0, 0, 0⟩, ⟨0, 0, 1⟩, ⟨0, 0, 2⟩, ⟨0, 0, 3⟩, ⟨0, 1, 0⟩, ⟨0, 1, 1⟩, ⟨0, 1, 2⟩, ⟨0, 1, 3⟩] ∧
    (Dist.localBlockCount ⟨2, 3, false⟩ 20) = 4 ∧
    blocksOf ⟨2, 3, true⟩ 20 0 0 = 4 ∧ blocksOf ⟨2, 3, true⟩ 20 1 2 = 3 := by decide +kernel

end Asagi.Props
