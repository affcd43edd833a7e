import Verif.Model.Machine
import Verif.Proofs.Blocked
import Mathlib.Tactic.Ring
/-
Machine arithmetic agrees with exact arithmetic as long as the results are small enough.
-/
namespace Asagi
open Spec

theorem u64_mul {a b : UInt64} (h : a.toNat * b.toNat < 2 ^ 64) :
    (a * b).toNat = a.toNat * b.toNat := by rw [UInt64.toNat_mul, Nat.mod_eq_of_lt h]

theorem u64_add {a b : UInt64} (h : a.toNat + b.toNat < 2 ^ 64) :
    (a + b).toNat = a.toNat + b.toNat := by rw [UInt64.toNat_add, Nat.mod_eq_of_lt h]

theorem u32_mul {a b : UInt32} (h : a.toNat * b.toNat < 2 ^ 32) :
    (a * b).toNat = a.toNat * b.toNat := by rw [UInt32.toNat_mul, Nat.mod_eq_of_lt h]

theorem u32_add {a b : UInt32} (h : a.toNat + b.toNat < 2 ^ 32) :
    (a + b).toNat = a.toNat + b.toNat := by rw [UInt32.toNat_add, Nat.mod_eq_of_lt h]

theorem u64_pred {a : UInt64} (h : 0 < a.toNat) : (a - 1).toNat = a.toNat - 1 := by
  rw [UInt64.toNat_sub_of_le]
  · rfl
  · rw [UInt64.le_iff_toNat_le]; exact h

theorem MDim.blocks_toNat {d : MDim} (hb : 0 < d.bs.toNat) (h : d.size.toNat + d.bs.toNat < 2 ^ 64) :
    d.blocks.toNat = d.exact.blocks := by
  simp only [MDim.blocks, Dim.blocks, MDim.exact, UInt64.toNat_div]
  rw [u64_pred (by rw [u64_add h]; omega), u64_add h]

theorem mprodLoop_toNat (xs : List UInt64) (acc : UInt64) (hx : ∀ x ∈ xs, 0 < x.toNat)
    (h : acc.toNat * prod (xs.map UInt64.toNat) < 2 ^ 64) :
    (mprodLoop xs acc).toNat = prodLoop (xs.map UInt64.toNat) acc.toNat := by
  induction xs generalizing acc with
  | nil => rfl
  | cons x xs ih =>
    simp only [mprodLoop, prodLoop, List.map_cons, prod] at h ⊢
    have hp : 0 < prod (xs.map UInt64.toNat) := prod_pos (by
      intro y hy; simp only [List.mem_map] at hy; obtain ⟨z, hz, rfl⟩ := hy
      exact hx z (by simp [hz]))
    have e : (acc * x).toNat = acc.toNat * x.toNat := by
      apply u64_mul
      calc acc.toNat * x.toNat ≤ acc.toNat * x.toNat * prod (xs.map UInt64.toNat) :=
            Nat.le_mul_of_pos_right _ hp
        _ = acc.toNat * (x.toNat * prod (xs.map UInt64.toNat)) := by ring
        _ < _ := h
    rw [ih _ (fun y hy => hx y (by simp [hy])), e]
    rw [e]
    calc acc.toNat * x.toNat * prod (xs.map UInt64.toNat)
        = acc.toNat * (x.toNat * prod (xs.map UInt64.toNat)) := by ring
      _ < _ := h

theorem horner_step {acc n q p : Nat} (hq : q < n) (h : (acc + 1) * (n * p) ≤ 2 ^ 64)
    (hp : 0 < p) : acc * n + q < 2 ^ 64 ∧ acc * n < 2 ^ 64 ∧ (acc * n + q + 1) * p ≤ 2 ^ 64 := by
  have h1 : acc * n + q + 1 ≤ (acc + 1) * n := by rw [Nat.add_mul]; omega
  have h2 : (acc * n + q + 1) * p ≤ 2 ^ 64 := by
    calc (acc * n + q + 1) * p ≤ (acc + 1) * n * p := Nat.mul_le_mul_right _ h1
      _ = (acc + 1) * (n * p) := by ring
      _ ≤ _ := h
  have h3 : (acc * n + q + 1) ≤ (acc * n + q + 1) * p := Nat.le_mul_of_pos_right _ hp
  omega

/-- All dimensions have blocks and their number is exact. -/
def ExactBlocks (g : List MDim) : Prop :=
  ∀ d ∈ g, 0 < d.bs.toNat ∧ d.bs.toNat ≤ d.size.toNat ∧ d.blocks.toNat = d.exact.blocks ∧
    0 < d.exact.blocks

theorem ExactBlocks.tail {d : MDim} {g : List MDim} (h : ExactBlocks (d :: g)) : ExactBlocks g :=
  fun e he => h e (by simp [he])

theorem ExactBlocks.prods {g : List MDim} (h : ExactBlocks g) :
    0 < prod ((g.map MDim.exact).map Dim.blocks) ∧ 0 < prod ((g.map MDim.exact).map Dim.bs) := by
  constructor <;> apply prod_pos <;> intro x hx <;> simp only [List.map_map, List.mem_map] at hx <;>
    obtain ⟨d, hd, rfl⟩ := hx
  · exact (h d hd).2.2.2
  · exact (h d hd).1

theorem mblockByCoordsLoop_toNat (g : List MDim) (idx : List UInt64) (acc : UInt64)
    (hg : ExactBlocks g) (hi : InBox (g.map fun d => d.size.toNat) (idx.map UInt64.toNat))
    (h : (acc.toNat + 1) * prod ((g.map MDim.exact).map Dim.blocks) ≤ 2 ^ 64) :
    (mblockByCoordsLoop g idx acc).toNat =
      blockByCoordsLoop (g.map MDim.exact) (idx.map UInt64.toNat) acc.toNat := by
  induction g generalizing idx acc with
  | nil => cases idx <;> simp_all [InBox, mblockByCoordsLoop, blockByCoordsLoop]
  | cons d g ih => cases idx with
    | nil => simp [InBox] at hi
    | cons i is =>
      simp only [List.map_cons, InBox, prod] at hi h ⊢
      obtain ⟨h0, hle, hbl, hpos⟩ := hg d (by simp)
      have hq : i.toNat / d.exact.bs < d.exact.blocks := div_lt_blocks (d := d.exact) h0 hi.1
      obtain ⟨k1, k2, k3⟩ := horner_step hq h (hg.tail.prods).1
      have e1 : (acc * d.blocks).toNat = acc.toNat * d.exact.blocks := by
        rw [u64_mul (by rw [hbl]; exact k2), hbl]
      have e2 : (i / d.bs).toNat = i.toNat / d.exact.bs := by rw [UInt64.toNat_div]; rfl
      have e : (acc * d.blocks + i / d.bs).toNat = acc.toNat * d.exact.blocks + i.toNat / d.exact.bs := by
        rw [u64_add (by rw [e1, e2]; exact k1), e1, e2]
      simp only [mblockByCoordsLoop, blockByCoordsLoop]
      rw [ih is _ hg.tail hi.2 (by rw [e]; exact k3), e]

theorem mcalcOffsetInBlockLoop_toNat (g : List MDim) (idx : List UInt64) (acc : UInt64)
    (hg : ExactBlocks g) (hi : InBox (g.map fun d => d.size.toNat) (idx.map UInt64.toNat))
    (h : (acc.toNat + 1) * prod ((g.map MDim.exact).map Dim.bs) ≤ 2 ^ 64) :
    (mcalcOffsetInBlockLoop g idx acc).toNat =
      calcOffsetInBlockLoop (g.map MDim.exact) (idx.map UInt64.toNat) acc.toNat := by
  induction g generalizing idx acc with
  | nil => cases idx <;> simp_all [InBox, mcalcOffsetInBlockLoop, calcOffsetInBlockLoop]
  | cons d g ih => cases idx with
    | nil => simp [InBox] at hi
    | cons i is =>
      simp only [List.map_cons, InBox, prod] at hi h ⊢
      obtain ⟨h0, hle, hbl, hpos⟩ := hg d (by simp)
      have hq : i.toNat % d.exact.bs < d.exact.bs := Nat.mod_lt _ h0
      obtain ⟨k1, k2, k3⟩ := horner_step hq h (hg.tail.prods).2
      have e1 : (acc * d.bs).toNat = acc.toNat * d.exact.bs := u64_mul k2
      have e2 : (i % d.bs).toNat = i.toNat % d.exact.bs := by rw [UInt64.toNat_mod]; rfl
      have e : (acc * d.bs + i % d.bs).toNat = acc.toNat * d.exact.bs + i.toNat % d.exact.bs := by
        rw [u64_add (by rw [e1, e2]; exact k1), e1, e2]
      simp only [mcalcOffsetInBlockLoop, calcOffsetInBlockLoop]
      rw [ih is _ hg.tail hi.2 (by rw [e]; exact k3), e]

theorem mcalcBlockPositionLoop_toNat (g : List MDim) (b : UInt64) (pos : List UInt64)
    (hg : ExactBlocks g) :
    (mcalcBlockPositionLoop g b pos).map UInt64.toNat =
      calcBlockPositionLoop (g.map MDim.exact) b.toNat (pos.map UInt64.toNat) := by
  induction g generalizing b pos with
  | nil => rfl
  | cons d g ih =>
    simp only [mcalcBlockPositionLoop, List.map_cons, calcBlockPositionLoop]
    rw [ih _ _ hg.tail]
    simp only [List.map_cons, UInt64.toNat_div, UInt64.toNat_mod, (hg d (by simp)).2.2.1]

theorem le_prod {x : Nat} {xs : List Nat} (h : ∀ y ∈ xs, 0 < y) (hx : x ∈ xs) : x ≤ prod xs := by
  induction xs with
  | nil => simp at hx
  | cons y ys ih =>
    have hp : 0 < prod ys := prod_pos (fun z hz => h z (by simp [hz]))
    simp only [prod]
    rcases List.mem_cons.1 hx with rfl | hx
    · exact Nat.le_mul_of_pos_right _ hp
    · exact le_trans (ih (fun z hz => h z (by simp [hz])) hx)
        (Nat.le_mul_of_pos_left _ (h y (by simp)))

theorem exactBlocks_of {g : List MDim} (hg : ∀ d ∈ g, 0 < d.bs.toNat ∧ d.bs.toNat ≤ d.size.toNat)
    (h : totalBlocks (g.map MDim.exact) * totalBlockSize (g.map MDim.exact) < 2 ^ 63) :
    ExactBlocks g := by
  intro d hd
  obtain ⟨h0, hle⟩ := hg d hd
  have hpos : ∀ e ∈ g, 0 < e.exact.blocks := by
    intro e he
    obtain ⟨e0, ele⟩ := hg e he
    have := div_lt_blocks (d := e.exact) e0 (i := 0) (by simp only [MDim.exact]; omega)
    exact lt_of_le_of_lt (Nat.zero_le _) this
  have m1 : d.exact.blocks ≤ prod ((g.map MDim.exact).map Dim.blocks) := le_prod (by
    intro y hy; simp only [List.map_map, List.mem_map] at hy; obtain ⟨e, he, rfl⟩ := hy
    exact hpos e he) (List.mem_map_of_mem (List.mem_map_of_mem hd))
  have m2 : d.exact.bs ≤ prod ((g.map MDim.exact).map Dim.bs) := le_prod (by
    intro y hy; simp only [List.map_map, List.mem_map] at hy; obtain ⟨e, he, rfl⟩ := hy
    exact (hg e he).1) (List.mem_map_of_mem (List.mem_map_of_mem hd))
  have m3 : d.size.toNat ≤ d.exact.blocks * d.exact.bs := blocks_mul_ge (d := d.exact) h0
  have m4 := Nat.mul_le_mul m1 m2
  rw [totalBlocks_eq, totalBlockSize_eq] at h
  refine ⟨h0, hle, MDim.blocks_toNat h0 ?_, hpos d hd⟩
  omega

end Asagi
