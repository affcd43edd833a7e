import Verif.Proofs.Double
/- Rounding errors of the stored spacing. -/
namespace Asagi
open Spec

/-- Relative error of results in the normal range. -/
theorem Fp.Std.rel' {fp : Fp} (hfp : fp.Std) {q : ℚ} (h1 : 1 / 2 ^ 1000 ≤ |q|) :
    (∃ e, |e| ≤ 2 / 2 ^ 53 ∧ fp.rnd q = .fin (q * (1 + e))) ∨
      (2 ^ 1023 ≤ |q| ∧ fp.rnd q = .inf (decide (q < 0))) := by
  have hq : 0 < |q| := lt_of_lt_of_le (by positivity) h1
  have hq0 : q ≠ 0 := abs_pos.1 hq
  rcases hfp q with ⟨r, hr, he⟩ | h
  · left
    refine ⟨(r - q) / q, ?_, by rw [hr]; congr 1; field_simp; ring⟩
    rw [abs_div, div_le_iff₀ hq]
    have : (1 : ℚ) / 2 ^ 1075 ≤ 1 / 2 ^ 53 * (1 / 2 ^ 1000) := by decide +kernel
    have h3 : (1 : ℚ) / 2 ^ 53 * (1 / 2 ^ 1000) ≤ 1 / 2 ^ 53 * |q| :=
      mul_le_mul_of_nonneg_left h1 (by norm_num)
    rw [show (2 : ℚ) / 2 ^ 53 * |q| = 1 / 2 ^ 53 * |q| + 1 / 2 ^ 53 * |q| by ring]
    exact le_trans he (add_le_add le_rfl (le_trans this h3))
  · exact Or.inr h

theorem Fp.Std.rel {fp : Fp} (hfp : fp.Std) {q : ℚ} (h1 : 1 / 2 ^ 1000 ≤ |q|) (h2 : |q| < 2 ^ 1023) :
    ∃ e, |e| ≤ 2 / 2 ^ 53 ∧ fp.rnd q = .fin (q * (1 + e)) := by
  rcases hfp.rel' h1 with h | ⟨h, _⟩
  · exact h
  · exact absurd h2 (not_lt.2 h)

theorem one_add_bounds {e b : ℚ} (h : |e| ≤ b) (hb : b ≤ 1 / 2) : 1 / 2 ≤ 1 + e ∧ 1 + e ≤ 3 / 2 := by
  have := abs_le.1 h
  constructor <;> linarith

/-- `x (1 + e)` is within a factor two of `x`. -/
theorem abs_mul_bounds {x e b : ℚ} (h : |e| ≤ b) (hb : b ≤ 1 / 2) :
    |x| / 2 ≤ |x * (1 + e)| ∧ |x * (1 + e)| ≤ 2 * |x| := by
  obtain ⟨h1, h2⟩ := one_add_bounds h hb
  rw [abs_mul, abs_of_pos (by linarith : 0 < 1 + e)]
  have := abs_nonneg x
  constructor <;> nlinarith

/-- The computed spacing: accurate up to a few units in the last place. -/
theorem scaling_accurate {fp : Fp} (hfp : fp.Std) (a : NcAxis) (h2 : 2 ≤ a.size)
    (hint : fp.ofNat (a.size - 1) = .fin (a.size - 1 : ℕ)) (hn : a.size ≤ 2 ^ 50)
    (hs1 : 1 / 2 ^ 900 ≤ |meanSpacing a|) (hs2 : |meanSpacing a| ≤ 2 ^ 900) :
    ∃ e, |e| ≤ 5 / 2 ^ 53 ∧ a.getScaling fp = .fin (meanSpacing a * (1 + e)) := by
  have hs : ∃ D, meanSpacing a = D / ((a.size - 1 : ℕ) : ℚ) ∧ coord a (a.size - 1) - coord a 0 = D :=
    ⟨_, rfl, rfl⟩
  generalize meanSpacing a = s at hs1 hs2 hs ⊢
  obtain ⟨D, hs, hD⟩ := hs
  have hm1 : (1 : ℚ) ≤ ((a.size - 1 : ℕ) : ℚ) := by exact_mod_cast (by omega : 1 ≤ a.size - 1)
  have hmB : ((a.size - 1 : ℕ) : ℚ) ≤ 2 ^ 50 := by exact_mod_cast (by omega : a.size - 1 ≤ 2 ^ 50)
  unfold NcAxis.getScaling
  rw [if_neg (by omega), hint]
  unfold coord at hD
  generalize ((a.size - 1 : ℕ) : ℚ) = m at *
  have hm0 : m ≠ 0 := by linarith
  cases hc : a.coords with
  | none =>
    simp only [hc] at hD
    refine ⟨0, by norm_num, ?_⟩
    rw [hs, ← hD]
    simp [hm0]
  | some c =>
    simp only [hc] at hD
    have hDs : D = s * m := by rw [hs]; field_simp
    have hsub : fp.sub (.fin (c (a.size - 1))) (.fin (c 0)) = fp.rnd D := by
      simp [Fp.sub, Dbl.neg, Fp.add, ← hD, sub_eq_add_neg]
    have hDa : |D| = |s| * m := by rw [hDs, abs_mul, abs_of_pos (lt_of_lt_of_le zero_lt_one hm1)]
    have hD1 : |s| ≤ |D| := by
      rw [hDa]; nlinarith [abs_nonneg s]
    have hD2 : |D| < 2 ^ 1023 := by
      rw [hDa]
      refine lt_of_le_of_lt (b := (2 : ℚ) ^ 900 * 2 ^ 50) ?_ (by decide +kernel)
      exact mul_le_mul hs2 hmB (le_trans (by norm_num) hm1) (by positivity)
    have hl : (1 : ℚ) / 2 ^ 1000 ≤ 1 / 2 ^ 900 := by decide +kernel
    have hl' : (1 : ℚ) / 2 ^ 1000 ≤ 1 / 2 ^ 900 / 2 := by decide +kernel
    obtain ⟨e1, he1, hr1⟩ := hfp.rel (le_trans hl (le_trans hs1 hD1)) hD2
    simp only [hsub, hr1, Fp.div, if_neg hm0]
    have hq : D * (1 + e1) / m = s * (1 + e1) := by rw [hDs]; field_simp
    rw [hq]
    obtain ⟨b1, b2⟩ := abs_mul_bounds (x := s) he1 (by norm_num)
    have hu : (2 : ℚ) * 2 ^ 900 < 2 ^ 1023 := by decide +kernel
    have hu2 : 1 / 2 ^ 900 / 2 ≤ |s| / 2 := div_le_div_of_nonneg_right hs1 (by norm_num)
    have hu' : 2 * |s| ≤ 2 * 2 ^ 900 := mul_le_mul_of_nonneg_left hs2 (by norm_num)
    obtain ⟨e2, he2, hr2⟩ := hfp.rel (q := s * (1 + e1))
      (le_trans hl' (le_trans hu2 b1))
      (lt_of_le_of_lt (le_trans b2 hu') hu)
    rw [hr2]
    clear hl hl' hu hu' hu2 hr1 hr2 hs1 hs2 hD2
    refine ⟨e1 + e2 + e1 * e2, ?_, by congr 1; ring⟩
    have h3 := abs_add_le (e1 + e2) (e1 * e2)
    have h4 := abs_add_le e1 e2
    rw [abs_mul] at h3
    have h5 : |e1| * |e2| ≤ 2 / 2 ^ 53 * (2 / 2 ^ 53) :=
      mul_le_mul he1 he2 (abs_nonneg _) (by norm_num)
    linarith

/-- The stored inverse spacing. -/
theorem inv_accurate {fp : Fp} (hfp : fp.Std) (a : NcAxis) (h2 : 2 ≤ a.size)
    (hint : fp.ofNat (a.size - 1) = .fin (a.size - 1 : ℕ)) (hn : a.size ≤ 2 ^ 50)
    (hs1 : 1 / 2 ^ 900 ≤ |meanSpacing a|) (hs2 : |meanSpacing a| ≤ 2 ^ 900) :
    ∃ f, |f| ≤ 8 / 2 ^ 53 ∧
      getInvScaling fp (a.getScaling fp) = .fin (1 / meanSpacing a * (1 + f)) := by
  obtain ⟨e, he, hsc⟩ := scaling_accurate hfp a h2 hint hn hs1 hs2
  rw [hsc]
  generalize meanSpacing a = s at *
  have hs : 0 < |s| := lt_of_lt_of_le (by positivity) hs1
  have hs0 : s ≠ 0 := abs_pos.1 hs
  obtain ⟨p1, p2⟩ := one_add_bounds he (by norm_num)
  have hne : s * (1 + e) ≠ 0 := mul_ne_zero hs0 (by linarith)
  obtain ⟨b1, b2⟩ := abs_mul_bounds (x := s) he (by norm_num)
  have hb0 : 0 < |s * (1 + e)| := abs_pos.2 hne
  unfold getInvScaling
  rw [if_neg (by simp [Dbl.isInf, hne])]
  simp only [Fp.div, if_neg hne]
  have ha : |1 / (s * (1 + e))| = 1 / |s * (1 + e)| := by rw [abs_div, abs_one]
  obtain ⟨e3, he3, hr3⟩ := hfp.rel (q := 1 / (s * (1 + e)))
    (by
      rw [ha]
      apply one_div_le_one_div_of_le hb0
      exact le_trans (le_trans b2 (mul_le_mul_of_nonneg_left hs2 (by norm_num)))
        (by decide +kernel))
    (by
      rw [ha, div_lt_iff₀ hb0]
      have h1 : (1 : ℚ) < 2 ^ 1023 * (1 / 2 ^ 900 / 2) := by decide +kernel
      refine lt_of_lt_of_le h1 (mul_le_mul_of_nonneg_left ?_ (by positivity))
      exact le_trans (div_le_div_of_nonneg_right hs1 (by norm_num)) b1)
  rw [hr3]
  clear hs1 hs2
  refine ⟨(e3 - e) / (1 + e), ?_, ?_⟩
  · rw [abs_div, abs_of_pos (by linarith : 0 < 1 + e), div_le_iff₀ (by linarith)]
    have := abs_le.1 he
    have := abs_le.1 he3
    rw [abs_le]
    constructor <;> linarith
  · congr 1
    have : 1 + e ≠ 0 := by linarith
    field_simp
    ring

end Asagi
