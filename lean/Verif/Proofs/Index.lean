import Verif.Spec.Coord
import Mathlib.Tactic.Linarith
import Mathlib.Tactic.FieldSimp
import Mathlib.Tactic.Ring
/- Coordinates and sample selection. -/
namespace Asagi
open Spec

theorem nearest_aux (t : ℚ) (n : Nat) (hn : 0 < n) (k : Nat)
    (hk : (k : ℤ) = if ⌊t + 1/2⌋ < 0 then 0 else if (n : ℤ) ≤ ⌊t + 1/2⌋ then (n : ℤ) - 1
      else ⌊t + 1/2⌋) :
    k < n ∧ ∀ j : Nat, j < n → |t - k| ≤ |t - j| ∧ (|t - k| = |t - j| → j ≤ k) := by
  have h1 : ((⌊t + 1/2⌋ : ℤ) : ℚ) ≤ t + 1/2 := Int.floor_le _
  have h2 : t + 1/2 < ((⌊t + 1/2⌋ : ℤ) : ℚ) + 1 := Int.lt_floor_add_one _
  generalize ⌊t + 1/2⌋ = x at *
  split at hk
  · rename_i hx
    have hk0 : k = 0 := by omega
    subst hk0
    refine ⟨hn, ?_⟩
    intro j hj
    have hx' : (x : ℚ) ≤ -1 := by exact_mod_cast (by omega : x ≤ -1)
    have ht : t < 0 := by linarith
    have hj0 : (0 : ℚ) ≤ j := by positivity
    rw [abs_of_nonpos (by push_cast; linarith), abs_of_nonpos (by linarith)]
    refine ⟨by push_cast; linarith, ?_⟩
    intro he
    have : (j : ℚ) = 0 := by push_cast at he; linarith
    have : j = 0 := by exact_mod_cast this
    omega
  · split at hk
    · rename_i hx0 hx
      have hkn : k = n - 1 := by omega
      refine ⟨by omega, ?_⟩
      intro j hj
      have hx' : (n : ℚ) ≤ x := by exact_mod_cast hx
      have hk' : (k : ℚ) = n - 1 := by
        rw [hkn]; push_cast [Nat.cast_sub (by omega : 1 ≤ n)]; ring
      have hj' : (j : ℚ) ≤ k := by exact_mod_cast (by omega : j ≤ k)
      rw [abs_of_nonneg (by linarith), abs_of_nonneg (by linarith)]
      exact ⟨by linarith, fun _ => by omega⟩
    · rename_i hx0 hx
      have hkx : (k : ℚ) = x := by exact_mod_cast hk
      refine ⟨by omega, ?_⟩
      intro j hj
      have hle : |t - k| ≤ 1/2 := abs_le.mpr ⟨by linarith, by linarith⟩
      rcases Nat.lt_trichotomy j k with h | h | h
      · have : (j : ℚ) + 1 ≤ k := by exact_mod_cast h
        have h3 : |t - j| = t - j := abs_of_nonneg (by linarith)
        refine ⟨by rw [h3]; linarith, fun _ => by omega⟩
      · subst h; exact ⟨le_refl _, fun _ => le_refl _⟩
      · have : (k : ℚ) + 1 ≤ j := by exact_mod_cast h
        have h3 : |t - j| = j - t := by rw [abs_sub_comm]; exact abs_of_nonneg (by linarith)
        refine ⟨by rw [h3]; linarith, fun he => ?_⟩
        rw [h3] at he
        linarith

/-- The members of `Level` after opening a uniform axis, in exact arithmetic. -/
theorem openAxis_uniform (a : NcAxis) (s : ℚ) (h2 : 2 ≤ a.size)
    (hu : Uniform a s) :
    a.getOffset = .fin (coord a 0) ∧ a.getScaling .exact = .fin s ∧
      getInvScaling .exact (.fin s) = .fin (1 / s) := by
  obtain ⟨hs, hc⟩ := hu
  have hn : ((a.size - 1 : Nat) : ℚ) ≠ 0 := by
    have : a.size - 1 ≠ 0 := by omega
    exact_mod_cast this
  refine ⟨?_, ?_, ?_⟩
  · unfold NcAxis.getOffset coord
    cases a.coords <;> simp
  · have h1 := hc 1 (by omega)
    have hl := hc (a.size - 1) (by omega)
    unfold NcAxis.getScaling
    rw [if_neg (by omega)]
    unfold coord at *
    cases hcc : a.coords with
    | none =>
      simp only [hcc] at h1
      simp only
      congr 1
      push_cast at h1; linarith
    | some c =>
      simp only [hcc] at hl
      simp only [Fp.div, Fp.sub, Fp.add, Fp.ofNat, Fp.exact, Dbl.neg]
      rw [if_neg hn]
      congr 1
      rw [hl]
      field_simp
      ring
  · simp [getInvScaling, Dbl.isInf, hs, Fp.div, Fp.exact]

theorem pos2indexDim_exact (a : Axis) (off inv p : ℚ) (ho : a.offset = .fin off)
    (hi : a.scalingInv = .fin inv) (hs : 0 < a.size) (hs64 : a.size < 2 ^ 64) :
    ∃ k : Nat, pos2indexDim .exact a (.fin p) = some k ∧
      (k : ℤ) = (let x := ⌊(p - off) * inv + 1/2⌋
        if x < 0 then 0 else if (a.size : ℤ) ≤ x then (a.size : ℤ) - 1 else x) := by
  have hx : dblRound .exact (Fp.mul .exact (Fp.sub .exact (.fin p) a.offset) a.scalingInv) =
      .fin ⌊(p - off) * inv + 1/2⌋ := by
    rw [ho, hi]
    simp [dblRound, Fp.mul, Fp.sub, Fp.add, Fp.exact, Dbl.neg, Dbl.floor, sub_eq_add_neg]
  unfold pos2indexDim
  rw [hx]
  generalize ⌊(p - off) * inv + 1/2⌋ = x
  have hcast : ∀ y : ℤ, 0 ≤ y → y < a.size → (Dbl.fin (y : ℚ)).toSizeT = some y.toNat := by
    intro y h0 h1
    simp only [Dbl.toSizeT]
    rw [if_pos]
    · simp
    · constructor
      · have : (0 : ℚ) ≤ y := by exact_mod_cast h0
        linarith
      · have : (y : ℚ) < (2 ^ 64 : ℕ) := by
          have : y < (2 ^ 64 : ℕ) := by omega
          exact_mod_cast this
        push_cast at this; exact this
  simp only [Dbl.lt, Fp.ofNat, Fp.exact]
  by_cases h0 : x < 0
  · have h0' : (x : ℚ) < 0 := by exact_mod_cast h0
    refine ⟨0, ?_, by simp [h0]⟩
    simp only [h0', decide_true, if_true]
    have := hcast 0 (le_refl _) (by omega)
    simpa using this
  · have h0' : ¬ (x : ℚ) < 0 := by
      intro h; exact h0 (by exact_mod_cast h)
    by_cases h1 : (a.size : ℤ) ≤ x
    · have h1' : ¬ (x : ℚ) < a.size := by
        have : (a.size : ℚ) ≤ x := by exact_mod_cast h1
        linarith
      refine ⟨a.size - 1, ?_, by simp only [h0, if_false, h1, if_true]; omega⟩
      simp only [h0', decide_false, Bool.false_eq_true, if_false, h1', not_false_eq_true,
        ne_eq, reduceCtorEq, and_self, if_true]
      have := hcast ((a.size - 1 : ℕ) : ℤ) (by omega) (by omega)
      simpa using this
    · have h1' : (x : ℚ) < a.size := by
        have : x < a.size := by omega
        exact_mod_cast this
      refine ⟨x.toNat, ?_, by simp only [h0, if_false, h1]; omega⟩
      simp only [h0', decide_false, Bool.false_eq_true, if_false, h1', decide_true,
        not_true_eq_false, false_and]
      exact hcast x (by omega) (by omega)

theorem openAxis_members (fp : Fp) (cc : Bool) (a : NcAxis) :
    (openAxis fp cc a).size = a.size ∧ (openAxis fp cc a).offset = a.getOffset ∧
      (openAxis fp cc a).scalingInv = getInvScaling fp (a.getScaling fp) := by
  unfold openAxis
  simp only
  split <;> simp

/-- Selection of the nearest sample in one dimension. -/
theorem pos2indexDim_nearest (cc : Bool) (a : NcAxis) (s p : ℚ) (h2 : 2 ≤ a.size)
    (h64 : a.size < 2 ^ 64) (hu : Uniform a s) :
    ∃ k, pos2indexDim .exact (openAxis .exact cc a) (.fin p) = some k ∧
      IsNearest a p k := by
  obtain ⟨o1, o2, o3⟩ := openAxis_uniform a s h2 hu
  obtain ⟨m1, m2, m3⟩ := openAxis_members .exact cc a
  obtain ⟨k, hk, hkv⟩ := pos2indexDim_exact (openAxis .exact cc a) (coord a 0) (1 / s) p
    (by rw [m2, o1]) (by rw [m3, o2, o3]) (by rw [m1]; omega) (by rw [m1]; omega)
  refine ⟨k, hk, ?_⟩
  rw [m1] at hkv
  obtain ⟨hs, hc⟩ := hu
  have := nearest_aux ((p - coord a 0) * (1 / s)) a.size (by omega) k hkv
  refine ⟨this.1, ?_⟩
  intro j hj
  have hd : ∀ i, i < a.size → |p - coord a i| = |s| * |(p - coord a 0) * (1 / s) - i| := by
    intro i hi
    rw [← abs_mul, hc i hi]
    congr 1
    field_simp
    ring
  obtain ⟨h3, h4⟩ := this.2 j hj
  rw [hd k this.1, hd j hj]
  have hspos : 0 < |s| := abs_pos.mpr hs
  refine ⟨mul_le_mul_of_nonneg_left h3 (le_of_lt hspos), ?_⟩
  intro he
  exact h4 (mul_left_cancel₀ (ne_of_gt hspos) he)

/-- A dimension with a single sample. -/
theorem pos2indexDim_single (cc : Bool) (a : NcAxis) (p : ℚ) (h1 : a.size = 1) :
    pos2indexDim .exact (openAxis .exact cc a) (.fin p) = some 0 := by
  obtain ⟨m1, m2, m3⟩ := openAxis_members .exact cc a
  have hinv : getInvScaling .exact (a.getScaling .exact) = .fin 0 := by
    simp [NcAxis.getScaling, h1, getInvScaling, Dbl.isInf]
  have hoff : ∃ o, a.getOffset = .fin o := by
    unfold NcAxis.getOffset; split <;> exact ⟨_, rfl⟩
  obtain ⟨o, ho⟩ := hoff
  obtain ⟨k, hk, hkv⟩ := pos2indexDim_exact (openAxis .exact cc a) o 0 p
    (by rw [m2, ho]) (by rw [m3, hinv]) (by rw [m1]; omega) (by rw [m1]; omega)
  rw [hk]
  rw [m1, h1] at hkv
  have : ⌊(p - o) * 0 + 1/2⌋ = (0 : ℤ) := by
    rw [mul_zero, zero_add, Int.floor_eq_iff]; norm_num
  simp only [this] at hkv
  congr 1
  simp at hkv
  omega

/-- Half the widening of the range of a cell-centered grid, in units of the spacing. -/
def cellMargin (cc : Bool) : ℚ := if cc then 1/2 - numericPrecision else 0

theorem cellMargin_bounds (cc : Bool) : 0 ≤ cellMargin cc ∧ cellMargin cc < 1/2 := by
  unfold cellMargin numericPrecision; split <;> norm_num

theorem openAxis_range (cc : Bool) (a : NcAxis) (s : ℚ) (h2 : 2 ≤ a.size)
    (hu : Uniform a s) :
    (openAxis .exact cc a).min = .fin (min (coord a 0 - s * cellMargin cc)
        (coord a (a.size - 1) + s * cellMargin cc)) ∧
    (openAxis .exact cc a).max = .fin (max (coord a 0 - s * cellMargin cc)
        (coord a (a.size - 1) + s * cellMargin cc)) ∧
    (openAxis .exact cc a).scaling = .fin |s| := by
  obtain ⟨o1, o2, o3⟩ := openAxis_uniform a s h2 hu
  have hl := hu.2 (a.size - 1) (by omega)
  have hmin : ∀ x y : ℚ, Dbl.min (.fin x) (.fin y) = .fin (min x y) := by
    intro x y
    simp only [Dbl.min, Dbl.lt, decide_eq_true_eq]
    split
    · rw [min_eq_right (by linarith)]
    · rw [min_eq_left (by linarith)]
  have hmax : ∀ x y : ℚ, Dbl.max (.fin x) (.fin y) = .fin (max x y) := by
    intro x y
    simp only [Dbl.max, Dbl.lt, decide_eq_true_eq]
    split
    · rw [max_eq_right (by linarith)]
    · rw [max_eq_left (by linarith)]
  unfold openAxis
  simp only [o1, o2, Dbl.isInf, Bool.false_eq_true, if_false, Dbl.abs, and_true]
  rw [hl]
  cases cc
  · simp only [Bool.false_eq_true, if_false, Fp.add, Fp.mul, Fp.ofNat, Fp.exact, hmin, hmax,
      cellMargin, mul_comm s, zero_mul, sub_zero, add_zero, and_self]
  · simp only [if_true, Fp.sub, Fp.add, Fp.mul, Fp.ofNat, Fp.exact, Dbl.neg, hmin, hmax,
      cellMargin, sub_eq_add_neg, mul_comm s, and_self]

/-- Positions in the reported range are within half a spacing of the selected sample. -/
theorem pos2indexDim_inRange (cc : Bool) (a : NcAxis) (s p : ℚ) (h2 : 2 ≤ a.size)
    (h64 : a.size < 2 ^ 64) (hu : Uniform a s)
    (h1 : min (coord a 0 - s * cellMargin cc) (coord a (a.size - 1) + s * cellMargin cc) ≤ p)
    (h3 : p ≤ max (coord a 0 - s * cellMargin cc) (coord a (a.size - 1) + s * cellMargin cc)) :
    ∃ k, pos2indexDim .exact (openAxis .exact cc a) (.fin p) = some k ∧ k < a.size ∧
      |p - coord a k| ≤ |s| / 2 := by
  obtain ⟨o1, o2, o3⟩ := openAxis_uniform a s h2 hu
  obtain ⟨m1, m2, m3⟩ := openAxis_members .exact cc a
  obtain ⟨k, hk, hkv⟩ := pos2indexDim_exact (openAxis .exact cc a) (coord a 0) (1 / s) p
    (by rw [m2, o1]) (by rw [m3, o2, o3]) (by rw [m1]; omega) (by rw [m1]; omega)
  rw [m1] at hkv
  obtain ⟨hs, hc⟩ := hu
  have hl := hc (a.size - 1) (by omega)
  obtain ⟨c0, c1⟩ := cellMargin_bounds cc
  generalize cellMargin cc = m at *
  have ht : ∃ t, (p - coord a 0) * (1 / s) = t ∧ p - coord a 0 = t * s :=
    ⟨_, rfl, by field_simp⟩
  obtain ⟨t, ht1, ht2⟩ := ht
  simp only [ht1] at hkv
  have hn : ((a.size - 1 : ℕ) : ℚ) = a.size - 1 := by
    push_cast [Nat.cast_sub (by omega : 1 ≤ a.size)]; ring
  rw [hl, hn] at h1 h3
  have hn2 : (2 : ℚ) ≤ a.size := by exact_mod_cast h2
  -- bounds on t
  have hb : -m ≤ t ∧ t ≤ a.size - 1 + m := by
    rcases lt_or_gt_of_ne hs with hneg | hpos
    · have hle : coord a 0 + (a.size - 1) * s + s * m ≤ coord a 0 - s * m := by
        nlinarith [mul_nonneg c0 (le_of_lt (neg_pos.mpr hneg))]
      rw [min_eq_right hle] at h1
      rw [max_eq_left hle] at h3
      constructor
      · by_contra hlt
        push Not at hlt
        nlinarith
      · by_contra hlt
        push Not at hlt
        nlinarith
    · have hle : coord a 0 - s * m ≤ coord a 0 + (a.size - 1) * s + s * m := by
        nlinarith [mul_nonneg c0 (le_of_lt hpos)]
      rw [min_eq_left hle] at h1
      rw [max_eq_right hle] at h3
      constructor
      · by_contra hlt
        push Not at hlt
        nlinarith
      · by_contra hlt
        push Not at hlt
        nlinarith
  have f1 : ((⌊t + 1/2⌋ : ℤ) : ℚ) ≤ t + 1/2 := Int.floor_le _
  have f2 : t + 1/2 < ((⌊t + 1/2⌋ : ℤ) : ℚ) + 1 := Int.lt_floor_add_one _
  have hx0 : ¬ ⌊t + 1/2⌋ < 0 := by
    have : (0 : ℤ) ≤ ⌊t + 1/2⌋ := Int.floor_nonneg.mpr (by linarith [hb.1])
    omega
  have hx1 : ¬ (a.size : ℤ) ≤ ⌊t + 1/2⌋ := by
    intro h
    have : (a.size : ℚ) ≤ ((⌊t + 1/2⌋ : ℤ) : ℚ) := by exact_mod_cast h
    linarith [hb.2]
  rw [if_neg hx0, if_neg hx1] at hkv
  have hkq : (k : ℚ) = ((⌊t + 1/2⌋ : ℤ) : ℚ) := by exact_mod_cast hkv
  have hksz : k < a.size := by omega
  refine ⟨k, hk, hksz, ?_⟩
  rw [hc k hksz]
  have : p - (coord a 0 + k * s) = (t - k) * s := by linarith
  rw [this, abs_mul]
  have h5 : |t - k| ≤ 1/2 := abs_le.mpr ⟨by linarith, by linarith⟩
  have := mul_le_mul_of_nonneg_right h5 (abs_nonneg s)
  linarith

/-- For every rounding mode and every position: either the index is valid, or the
computation produced NaN, which is undefined behaviour. -/
theorem pos2indexDim_valid (fp : Fp) (a : Axis) (p : Dbl) (hs : 0 < a.size)
    (h64 : a.size < 2 ^ 64)
    (hint : fp.ofNat a.size = .fin a.size ∧ fp.ofNat (a.size - 1) = .fin (a.size - 1 : ℕ)) :
    (dblRound fp (fp.mul (fp.sub p a.offset) a.scalingInv) = .nan ∧
        pos2indexDim fp a p = none) ∨
      ∃ k, pos2indexDim fp a p = some k ∧ k < a.size := by
  unfold pos2indexDim
  have hr : ∀ y, ∃ z, dblRound fp y = z ∧ (z = .nan ∨ (∃ s, z = .inf s) ∨
      ∃ i : ℤ, z = .fin i) := by
    intro y
    refine ⟨_, rfl, ?_⟩
    unfold dblRound
    cases fp.add y (.fin (1/2)) with
    | fin q => right; right; exact ⟨⌊q⌋, rfl⟩
    | inf s => right; left; exact ⟨s, rfl⟩
    | nan => left; rfl
  obtain ⟨z, hz, hcase⟩ := hr (fp.mul (fp.sub p a.offset) a.scalingInv)
  rw [hz, hint.1, hint.2]
  have hcast : ∀ y : ℤ, 0 ≤ y → y < a.size → (Dbl.fin (y : ℚ)).toSizeT = some y.toNat := by
    intro y h0 h1
    simp only [Dbl.toSizeT]
    rw [if_pos]
    · simp
    · constructor
      · have : (0 : ℚ) ≤ y := by exact_mod_cast h0
        linarith
      · have : (y : ℚ) < (2 ^ 64 : ℕ) := by
          have : y < (2 ^ 64 : ℕ) := by omega
          exact_mod_cast this
        push_cast at this; exact this
  have c0 := hcast 0 (le_refl _) (by omega)
  have c1 := hcast ((a.size - 1 : ℕ) : ℤ) (by omega) (by omega)
  simp only [Int.cast_zero, Int.cast_natCast] at c0 c1
  rcases hcase with h | ⟨s, h⟩ | ⟨i, h⟩
  · subst h
    left
    simp [Dbl.lt, Dbl.toSizeT]
  · subst h
    right
    cases s
    · refine ⟨a.size - 1, ?_, by omega⟩
      simpa [Dbl.lt] using c1
    · refine ⟨0, ?_, hs⟩
      simpa [Dbl.lt] using c0
  · subst h
    right
    by_cases h0 : i < 0
    · have h0' : (i : ℚ) < 0 := by exact_mod_cast h0
      refine ⟨0, ?_, hs⟩
      simpa [Dbl.lt, h0'] using c0
    · have h0' : ¬ (i : ℚ) < 0 := by
        intro h; exact h0 (by exact_mod_cast h)
      by_cases h1 : (a.size : ℤ) ≤ i
      · have h1' : ¬ (i : ℚ) < a.size := by
          have : (a.size : ℚ) ≤ i := by exact_mod_cast h1
          linarith
        refine ⟨a.size - 1, ?_, by omega⟩
        simp only [Dbl.lt, h0', decide_false, Bool.false_eq_true, if_false, h1',
          not_false_eq_true, ne_eq, reduceCtorEq, and_self, if_true]
        simpa using c1
      · have h1' : (i : ℚ) < a.size := by
          have : i < a.size := by omega
          exact_mod_cast this
        refine ⟨i.toNat, ?_, by omega⟩
        simp only [Dbl.lt, h0', decide_false, Bool.false_eq_true, if_false, h1', decide_true,
          not_true_eq_false, false_and]
        exact hcast i (by omega) (by omega)

end Asagi
