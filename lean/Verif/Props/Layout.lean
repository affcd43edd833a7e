import Verif.Model.Layout
import Mathlib.Tactic.Ring
/-
Properties of the memory layout: C47.
-/
namespace Asagi.Props
open Asagi

/-- The byte with address `x` belongs to the range. -/
def InRange (r : Range) (x : Nat) : Prop := r.start ≤ x ∧ x < r.start + r.len

/-- No byte belongs to both ranges. -/
def NoOverlap (r s : Range) : Prop := ∀ x, ¬ (InRange r x ∧ InRange s x)

/-- The range lies within the first `n` bytes. -/
def Within (r : Range) (n : Nat) : Prop := r.start + r.len ≤ n

/-- Pieces of equal length at different multiples of the length do not overlap. -/
theorem pieces_noOverlap {len i j : Nat} (h : i ≠ j) :
    NoOverlap ⟨len * i, len⟩ ⟨len * j, len⟩ := by
  rintro x ⟨⟨h1, h2⟩, h3, h4⟩
  simp only at h1 h2 h3 h4
  rcases Nat.lt_or_gt_of_ne h with hlt | hlt
  · have : len * (i + 1) ≤ len * j := Nat.mul_le_mul_left _ hlt
    rw [Nat.mul_add] at this; omega
  · have : len * (j + 1) ≤ len * i := Nat.mul_le_mul_left _ hlt
    rw [Nat.mul_add] at this; omega

theorem pieces_within {len i n : Nat} (h : i < n) : Within ⟨len * i, len⟩ (len * n) := by
  have : len * (i + 1) ≤ len * n := Nat.mul_le_mul_left _ h
  rw [Nat.mul_add] at this
  simp only [Within]; omega

theorem pair_inj {n d i d' i' : Nat} (hi : i < n) (hi' : i' < n)
    (h : n * d + i = n * d' + i') : d = d' ∧ i = i' := by
  have h1 : (n * d + i) / n = d := by
    rw [Nat.mul_add_div (by omega), Nat.div_eq_of_lt hi]; rfl
  have h2 : (n * d' + i') / n = d' := by
    rw [Nat.mul_add_div (by omega), Nat.div_eq_of_lt hi']; rfl
  have : d = d' := by rw [← h1, ← h2, h]
  subst this
  exact ⟨rfl, by omega⟩

theorem pair_lt {n m d i : Nat} (hd : d < m) (hi : i < n) : n * d + i < n * m := by
  have : n * (d + 1) ≤ n * m := Nat.mul_le_mul_left _ hd
  rw [Nat.mul_add] at this; omega

theorem fullBlock_eq (ts be lb d i : Nat) :
    fullBlock ts be lb d i = ⟨ts * be * (lb * d + i), ts * be⟩ := by
  simp only [fullBlock, domainBase, fullSize, Range.mk.injEq, and_true]; ring

theorem cacheSlot_eq (ts be slots d s : Nat) :
    cacheSlot ts be slots d s = ⟨ts * be * (slots * d + s), ts * be⟩ := by
  simp only [cacheSlot, domainBase, cacheBytes, Range.mk.injEq, and_true]; ring

/-- **C47 (FULL).** The memory of local block `i` of domain `d` lies within the allocation, does not
overlap the memory of any other block of any domain of the process, contains the values the block's
lookups read, the values at different offsets do not overlap, and copying from another domain
and through MPI address exactly the same bytes. -/
theorem C47_full_blocks (ts be lb doms d i d' i' : Nat) (hd : d < doms) (hi : i < lb)
    (hi' : i' < lb) :
    Within (fullBlock ts be lb d i) (allocSize (fullSize ts be lb) doms) ∧
    (¬ (d = d' ∧ i = i') → NoOverlap (fullBlock ts be lb d i) (fullBlock ts be lb d' i')) ∧
    (∀ o, o < be → ∀ x, InRange (fullValue ts be lb d i o) x → InRange (fullBlock ts be lb d i) x) ∧
    (∀ o o', o ≠ o' → NoOverlap (fullValue ts be lb d i o) (fullValue ts be lb d i o')) ∧
    numaFullBlock ts be lb d i = fullBlock ts be lb d i ∧
    winFullBlock ts be lb d i = fullBlock ts be lb d i ∧
    threadFullBlock ts be lb d i = fullBlock ts be lb d i ∧
    winFullSize ts be lb doms = allocSize (fullSize ts be lb) doms := by
  refine ⟨?_, ?_, ?_, ?_, ?_, ?_, ?_, ?_⟩
  · rw [fullBlock_eq]
    have := pieces_within (len := ts * be) (pair_lt hd hi)
    simp only [allocSize, fullSize]
    rwa [Nat.mul_assoc (ts * be) lb doms]
  · intro h
    rw [fullBlock_eq, fullBlock_eq]
    exact pieces_noOverlap (fun hh => h (pair_inj hi hi' hh))
  · rintro o ho x ⟨h1, h2⟩
    simp only [fullValue, fullBlock, InRange] at h1 h2 ⊢
    have e1 : ts * (i * be + o) = ts * be * i + ts * o := by ring
    have e2 : ts * (o + 1) ≤ ts * be := Nat.mul_le_mul_left _ ho
    rw [Nat.mul_add] at e2
    rw [e1] at h1 h2
    omega
  · intro o o' h
    have e1 : ∀ o, fullValue ts be lb d i o = ⟨ts * (be * lb * d + i * be + o), ts⟩ := by
      intro o
      simp only [fullValue, domainBase, fullSize, Range.mk.injEq, and_true]; ring
    rw [e1, e1]
    exact pieces_noOverlap (by omega)
  · rw [fullBlock_eq]; simp only [numaFullBlock, Range.mk.injEq]; constructor <;> ring
  · rw [fullBlock_eq]; simp only [winFullBlock, Range.mk.injEq]; constructor <;> ring
  · rw [fullBlock_eq]; simp only [threadFullBlock, Range.mk.injEq]; constructor <;> ring
  · simp only [winFullSize, allocSize, fullSize]; ring

/-- **C47 (CACHE).** The same for the cache slots. -/
theorem C47_cache_slots (ts be slots doms d s d' s' : Nat) (hd : d < doms) (hs : s < slots)
    (hs' : s' < slots) :
    Within (cacheSlot ts be slots d s) (allocSize (cacheBytes ts be slots) doms) ∧
    (¬ (d = d' ∧ s = s') → NoOverlap (cacheSlot ts be slots d s) (cacheSlot ts be slots d' s')) ∧
    winCacheSlot ts be slots d s = cacheSlot ts be slots d s := by
  refine ⟨?_, ?_, ?_⟩
  · rw [cacheSlot_eq]
    have := pieces_within (len := ts * be) (pair_lt hd hs)
    simp only [allocSize, cacheBytes]
    rwa [Nat.mul_assoc (ts * be) slots doms]
  · intro h
    rw [cacheSlot_eq, cacheSlot_eq]
    exact pieces_noOverlap (fun hh => h (pair_inj hs hs' hh))
  · rw [cacheSlot_eq]; simp only [winCacheSlot, Range.mk.injEq]; constructor <;> ring

/-- **C47 (PASS_THROUGH).** The buffers of different threads lie within the allocation (passthrough.h
95-96) and do not overlap. -/
theorem C47_pass_buffers (ts threads t t' : Nat) (ht : t < threads) :
    Within (passBuffer ts t) (ts * threads) ∧
    (t ≠ t' → NoOverlap (passBuffer ts t) (passBuffer ts t')) :=
  ⟨pieces_within ht, fun h => pieces_noOverlap h⟩

/-- Non-trivial case: 8-byte values, blocks of 6 values, 3 blocks in each of 2 domains. -/
example : fullBlock 8 6 3 1 2 = ⟨240, 48⟩ ∧ allocSize (fullSize 8 6 3) 2 = 288 ∧
    fullValue 8 6 3 1 2 5 = ⟨280, 8⟩ := by decide

end Asagi.Props
