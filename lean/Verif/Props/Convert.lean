import Verif.Model.Convert
import Verif.Spec.Convert
import Verif.Proofs.Double
import Verif.Props.Session
import Mathlib.Tactic.Ring
import Mathlib.Tactic.Linarith
/-
C69: conversions between the types of the file, the grid and the getters.
-/
namespace Asagi.Props
open Asagi Spec

theorem fmt_ulp_pos (f : FloatFmt) (q : ℚ) : 0 < f.ulp q := zpow_pos (by norm_num) _

theorem zpow_split (a b : ℤ) (h : b ≤ a) : ∃ k : ℕ, (2 : ℚ) ^ a = (2 ^ k : ℤ) * 2 ^ b := by
  refine ⟨(a - b).toNat, ?_⟩
  have : a = ((a - b).toNat : ℤ) + b := by omega
  conv_lhs => rw [this]
  rw [zpow_add₀ (by norm_num), zpow_natCast]
  push_cast
  ring

/-- A number of the format is a multiple of each unit that is not larger than its own. -/
theorem multiple_of_le {m e b : ℤ} (h : b ≤ e) : ∃ k : ℤ, (m : ℚ) * 2 ^ e = k * 2 ^ b := by
  obtain ⟨k, hk⟩ := zpow_split e b h
  exact ⟨m * 2 ^ k, by rw [hk]; push_cast; ring⟩

/-- A number with few significant bits is a multiple of its unit. -/
theorem multiple_of_ulp (f : FloatFmt) (q : ℚ) (m e : ℤ) (hm : |m| < 2 ^ f.prec)
    (he : f.emin - (f.prec - 1 : ℤ) ≤ e) (hq : q = m * 2 ^ e) : ∃ k : ℤ, q = k * f.ulp q := by
  by_cases h0 : q = 0
  · exact ⟨0, by rw [h0]; simp⟩
  unfold FloatFmt.ulp
  by_cases hle : max (Int.log 2 |q|) f.emin - (f.prec - 1 : ℤ) ≤ e
  · obtain ⟨k, hk⟩ := multiple_of_le (m := m) hle
    exact ⟨k, by rw [← hk]; exact hq⟩
  · exfalso
    have hlog : max (Int.log 2 |q|) f.emin = Int.log 2 |q| := by
      rcases max_choice (Int.log 2 |q|) f.emin with h | h
      · exact h
      · rw [h] at hle; omega
    rw [hlog] at hle
    have hqpos : 0 < |q| := abs_pos.2 h0
    have h1 : (2 : ℚ) ^ Int.log 2 |q| ≤ |q| := Int.zpow_log_le_self (by norm_num) hqpos
    have h2 : |q| < 2 ^ ((f.prec : ℤ) + e) := by
      rw [hq, abs_mul, abs_of_pos (zpow_pos (by norm_num : (0:ℚ) < 2) e), zpow_add₀ (by norm_num),
        zpow_natCast]
      apply mul_lt_mul_of_pos_right _ (zpow_pos (by norm_num) _)
      exact_mod_cast hm
    have h3 : (2 : ℚ) ^ ((f.prec : ℤ) + e) ≤ 2 ^ Int.log 2 |q| :=
      zpow_le_zpow_right₀ (by norm_num) (by omega)
    linarith

/-- Numbers of the format are not changed by rounding. -/
theorem fmt_rne_exact (f : FloatFmt) (q : ℚ) (m e : ℤ) (hm : |m| < 2 ^ f.prec)
    (he : f.emin - (f.prec - 1 : ℤ) ≤ e) (hq : q = m * 2 ^ e) : f.rne q = q := by
  obtain ⟨k, hk⟩ := multiple_of_ulp f q m e hm he hq
  have hu := (fmt_ulp_pos f q).ne'
  unfold FloatFmt.rne
  have : q / f.ulp q = k := by
    rw [div_eq_iff hu]; exact hk
  rw [this, rneInt_int]
  exact hk.symm

theorem fmt_round_exact (f : FloatFmt) (q : ℚ)
    (h : BinaryFloat f.prec (f.emin - (f.prec - 1 : ℤ)) f.emax q) : f.round q = .fin q := by
  obtain ⟨h1, m, e, hm, he, hq⟩ := h
  unfold FloatFmt.round
  rw [fmt_rne_exact f q m e hm he hq, if_pos h1]

theorem truncRat_int (n : ℤ) : truncRat (n : ℚ) = n := by
  unfold truncRat; split <;> simp

theorem range_values {t : Scalar} {v : Dbl} {lo : Int} {n : Nat} (hr : t.range = some (lo, n))
    (hv : IsValue t v) : ∃ k : ℤ, lo ≤ k ∧ k < lo + n ∧ v = .fin k := by
  cases t <;> simp only [Scalar.range, Option.some.injEq, Prod.mk.injEq, reduceCtorEq] at hr
  all_goals
    obtain ⟨rfl, rfl⟩ := hr
    obtain ⟨k, h1, h2, rfl⟩ := hv
    refine ⟨k, by omega, by omega, rfl⟩

/-- C69: a value that is also a value of the type it is converted to is not changed, whatever the type
it had. -/
theorem C69_exact (src dst : Scalar) (v : Dbl) (hd : IsValue dst v) :
    cConvert src dst v = some v := by
  unfold cConvert
  cases hr : dst.range with
  | none =>
    cases v with
    | fin q =>
      simp only [Option.some.injEq]
      cases dst <;> simp only [Scalar.range, reduceCtorEq] at hr
      · exact fmt_round_exact .single q hd
      · exact fmt_round_exact .binary64 q hd
    | inf s => rfl
    | nan => rfl
  | some p =>
    obtain ⟨lo, n⟩ := p
    obtain ⟨k, h1, h2, rfl⟩ := range_values hr hd
    cases src.range with
    | none => simp only [truncRat_int]; rw [if_pos ⟨h1, h2⟩]
    | some _ =>
      simp only [Int.floor_intCast]
      rw [Int.emod_eq_of_lt (by omega) (by omega)]
      simp

/-- C69: all values of the smaller type are values of the larger one. -/
theorem C69_widening (v : Dbl) :
    (IsValue .byte v → IsValue .int v) ∧ (IsValue .int v → IsValue .long v) ∧
    (IsValue .byte v → IsValue .float v) ∧ (IsValue .int v → IsValue .double v) ∧
    (IsValue .float v → IsValue .double v) := by
  refine ⟨?_, ?_, ?_, ?_, ?_⟩
  · rintro ⟨k, h1, h2, rfl⟩; exact ⟨k, by omega, by omega, rfl⟩
  · rintro ⟨k, h1, h2, rfl⟩; exact ⟨k, by omega, by omega, rfl⟩
  · rintro ⟨k, h1, h2, rfl⟩
    have hk : |k| < 2 ^ 24 := by rw [abs_lt]; constructor <;> omega
    refine ⟨?_, k, 0, hk, by omega, by simp⟩
    have : |(k : ℚ)| < 2 ^ 24 := by exact_mod_cast hk
    exact lt_trans this (by norm_num)
  · rintro ⟨k, h1, h2, rfl⟩
    have hk : |k| < 2 ^ 53 := by rw [abs_lt]; constructor <;> omega
    refine ⟨?_, k, 0, hk, by omega, by simp⟩
    have : |(k : ℚ)| < 2 ^ 53 := by exact_mod_cast hk
    exact lt_trans this (by decide +kernel)
  · intro h
    cases v with
    | fin q =>
      obtain ⟨h1, m, e, hm, he, rfl⟩ := h
      refine ⟨lt_trans h1 (by decide +kernel), m, e, lt_trans hm (by norm_num), by omega, rfl⟩
    | inf s => trivial
    | nan => trivial

/-- C69: a floating point value is truncated towards zero by a getter for integers; the result is defined
exactly if the truncated value is a value of the type of the getter. -/
theorem C69_truncates (src dst : Scalar) (hs : ¬ IsInteger src) (hd : IsInteger dst) (v r : Dbl) :
    cConvert src dst v = some r ↔
      IsValue dst r ∧ ∃ (q : ℚ) (k : ℤ), v = .fin q ∧ r = .fin k ∧ |(k : ℚ)| ≤ |q| ∧
        |q - k| < 1 ∧ 0 ≤ q * k := by
  have hsr : src.range = none := by
    cases src <;> simp [IsInteger] at hs <;> rfl
  have hval : ∀ (lo : Int) (n : Nat), dst.range = some (lo, n) → ∀ k : ℤ,
      (lo ≤ k ∧ k < lo + n ↔ IsValue dst (.fin k)) := by
    intro lo n hr k
    cases dst <;> simp only [Scalar.range, Option.some.injEq, Prod.mk.injEq, reduceCtorEq] at hr
    all_goals
      obtain ⟨rfl, rfl⟩ := hr
      simp only [IsValue, IntegerIn, Dbl.fin.injEq]
      constructor
      · intro ⟨h1, h2⟩; exact ⟨k, by omega, by omega, rfl⟩
      · rintro ⟨k', h1, h2, h3⟩
        have : k = k' := by exact_mod_cast h3
        subst this
        omega
  have htr : ∀ (q : ℚ) (k : ℤ), truncRat q = k ↔ |(k : ℚ)| ≤ |q| ∧ |q - k| < 1 ∧ 0 ≤ q * k := by
    intro q k
    unfold truncRat
    by_cases hq : 0 ≤ q
    · rw [if_pos hq, Int.floor_eq_iff]
      constructor
      · rintro ⟨h1, h2⟩
        have hk : (0 : ℚ) ≤ k := by
          have : (0 : ℤ) < k + 1 := by
            have : (0 : ℚ) < k + 1 := lt_of_le_of_lt hq h2
            exact_mod_cast this
          have : (0 : ℤ) ≤ k := by omega
          exact_mod_cast this
        refine ⟨by rw [abs_of_nonneg hk, abs_of_nonneg hq]; exact h1, ?_, mul_nonneg hq hk⟩
        rw [abs_lt]; constructor <;> linarith
      · rintro ⟨h1, h2, h3⟩
        rw [abs_lt] at h2
        refine ⟨?_, by linarith⟩
        rw [abs_of_nonneg hq] at h1
        exact le_trans (le_abs_self _) h1
    · have hq' : q < 0 := not_le.1 hq
      rw [if_neg hq, Int.ceil_eq_iff]
      constructor
      · rintro ⟨h1, h2⟩
        have hk : (k : ℚ) ≤ 0 := by
          have : (k : ℤ) - 1 < 0 := by
            have : (k : ℚ) - 1 < 0 := lt_trans h1 hq'
            exact_mod_cast this
          have : k ≤ 0 := by omega
          exact_mod_cast this
        refine ⟨by rw [abs_of_nonpos hk, abs_of_neg hq']; linarith, ?_,
          mul_nonneg_of_nonpos_of_nonpos hq'.le hk⟩
        rw [abs_lt]; constructor <;> linarith
      · rintro ⟨h1, h2, h3⟩
        rw [abs_lt] at h2
        refine ⟨by linarith, ?_⟩
        rw [abs_of_neg hq'] at h1
        have := neg_abs_le (k : ℚ)
        linarith
  unfold cConvert
  cases hr : dst.range with
  | none => rcases hd with rfl | rfl | rfl <;> simp [Scalar.range] at hr
  | some p =>
    obtain ⟨lo, n⟩ := p
    have hval := hval lo n hr
    cases v with
    | inf s => simp
    | nan => simp
    | fin q =>
      simp only [hsr]
      constructor
      · intro h
        split at h
        · rename_i hin
          have e := Option.some.inj h
          subst e
          exact ⟨(hval _).1 hin, q, truncRat q, rfl, rfl, (htr q _).1 rfl⟩
        · cases h
      · rintro ⟨h1, q', k, e1, rfl, h2⟩
        cases e1
        have := (htr q k).2 h2
        rw [this, if_pos ((hval k).2 h1)]

/-- C69: an integer that is too large for an integer type is taken modulo the number of its values. -/
theorem C69_wraps (src dst : Scalar) (hs : IsInteger src) (hd : IsInteger dst) (k : ℤ) :
    ∃ j : ℤ, cConvert src dst (.fin k) = some (.fin j) ∧ IsValue dst (.fin j) ∧
      (2 ^ (8 * dst.size) : ℤ) ∣ k - j := by
  rcases hs with rfl | rfl | rfl <;> rcases hd with rfl | rfl | rfl <;>
    simp only [cConvert, Scalar.range, Int.floor_intCast] <;>
    refine ⟨_, rfl, ⟨_, ?_, ?_, rfl⟩, ?_⟩ <;> norm_num [Scalar.size] <;> omega

theorem rneInt_nearest (x : ℚ) (k : ℤ) : |(rneInt x : ℚ) - x| ≤ |(k : ℚ) - x| := by
  have h1 : ((⌊x⌋ : ℤ) : ℚ) ≤ x := Int.floor_le x
  have h2 : x < ⌊x⌋ + 1 := Int.lt_floor_add_one x
  have hk : (k : ℚ) ≤ ⌊x⌋ ∨ ((⌊x⌋ : ℤ) : ℚ) + 1 ≤ k := by
    rcases lt_or_ge ⌊x⌋ k with h | h
    · right; exact_mod_cast h
    · left; exact_mod_cast h
  have hd : (⌊x⌋ : ℚ) - x ≤ 0 := by linarith
  have hlow : |(⌊x⌋ : ℚ) - x| = x - ⌊x⌋ := by rw [abs_of_nonpos hd]; ring
  have hup : |((⌊x⌋ + 1 : ℤ) : ℚ) - x| = ⌊x⌋ + 1 - x := by
    push_cast; rw [abs_of_nonneg (by linarith)]
  have hkx : min (x - ⌊x⌋) (⌊x⌋ + 1 - x) ≤ |(k : ℚ) - x| := by
    rcases hk with h | h
    · refine le_trans (min_le_left _ _) ?_
      rw [abs_of_nonpos (by linarith)]; linarith
    · refine le_trans (min_le_right _ _) ?_
      rw [abs_of_nonneg (by linarith)]; linarith
  refine le_trans ?_ hkx
  unfold rneInt
  rw [le_min_iff]
  split
  · rw [hlow]; constructor <;> linarith
  · split
    · rw [hup]; constructor <;> linarith
    · split
      · rw [hlow]; constructor <;> linarith
      · rw [hup]; constructor <;> linarith

/-- The rounded number has the precision of the format. -/
theorem fmt_rne_float (f : FloatFmt) (hp : 1 ≤ f.prec) (q : ℚ) :
    ∃ m e : ℤ, |m| < 2 ^ f.prec ∧ f.emin - (f.prec - 1 : ℤ) ≤ e ∧ f.rne q = m * 2 ^ e := by
  have hu := fmt_ulp_pos f q
  have hlt : |q / f.ulp q| < 2 ^ f.prec := by
    rw [abs_div, abs_of_pos hu, div_lt_iff₀ hu]
    by_cases h0 : q = 0
    · subst h0; rw [abs_zero]; positivity
    have h1 : |q| < 2 ^ (Int.log 2 |q| + 1) := by
      have := Int.lt_zpow_succ_log_self (b := 2) (by norm_num) |q|
      exact_mod_cast this
    have h2 : (2 : ℚ) ^ (Int.log 2 |q| + 1) ≤ 2 ^ f.prec * f.ulp q := by
      unfold FloatFmt.ulp
      rw [← zpow_natCast, ← zpow_add₀ (by norm_num)]
      apply zpow_le_zpow_right₀ (by norm_num)
      have := le_max_left (Int.log 2 |q|) f.emin
      omega
    linarith
  have hle : |rneInt (q / f.ulp q)| ≤ 2 ^ f.prec := by
    have h1 := abs_lt.1 hlt
    have e1 := rneInt_err (q / f.ulp q)
    rw [abs_le] at e1
    have h2 : (rneInt (q / f.ulp q) : ℚ) < 2 ^ f.prec + 1 := by linarith [e1.2, h1.2]
    have h3 : -(2 ^ f.prec + 1 : ℚ) < rneInt (q / f.ulp q) := by linarith [e1.1, h1.1]
    have h2' : rneInt (q / f.ulp q) < 2 ^ f.prec + 1 := by exact_mod_cast h2
    have h3' : -(2 ^ f.prec + 1) < rneInt (q / f.ulp q) := by exact_mod_cast h3
    rw [abs_le]; constructor <;> omega
  have hmax := le_max_right (Int.log 2 |q|) f.emin
  rcases lt_or_eq_of_le hle with h | h
  · exact ⟨_, _, h, by omega, rfl⟩
  · -- the mantissa 2^prec
    have hpow : (2 : ℤ) ^ f.prec = 2 * 2 ^ (f.prec - 1) := by
      rw [← pow_succ']; congr 1; omega
    have hpp : (0 : ℤ) < 2 ^ (f.prec - 1) := by positivity
    have hstep : f.ulp q * 2 =
        2 ^ (max (Int.log 2 |q|) f.emin - (f.prec - 1 : ℤ) + 1) := by
      unfold FloatFmt.ulp; rw [zpow_add₀ (by norm_num), zpow_one]
    rcases abs_choice (rneInt (q / f.ulp q)) with hc | hc
    · refine ⟨2 ^ (f.prec - 1), max (Int.log 2 |q|) f.emin - (f.prec - 1 : ℤ) + 1, ?_, ?_, ?_⟩
      · rw [abs_of_pos hpp]; omega
      · omega
      · rw [← hstep]
        unfold FloatFmt.rne
        rw [hc, hpow] at h
        rw [h]; push_cast; ring
    · refine ⟨-2 ^ (f.prec - 1), max (Int.log 2 |q|) f.emin - (f.prec - 1 : ℤ) + 1, ?_, ?_, ?_⟩
      · rw [abs_neg, abs_of_pos hpp]; omega
      · omega
      · rw [← hstep]
        unfold FloatFmt.rne
        rw [hc, hpow] at h
        have h' : rneInt (q / f.ulp q) = -(2 * 2 ^ (f.prec - 1)) := by omega
        rw [h']; push_cast; ring

/-- No number of the format is nearer. -/
theorem fmt_rne_nearest (f : FloatFmt) (hp : 1 ≤ f.prec) (q w : ℚ) (m e : ℤ)
    (hm : |m| < 2 ^ f.prec) (he : f.emin - (f.prec - 1 : ℤ) ≤ e) (hw : w = m * 2 ^ e) :
    |f.rne q - q| ≤ |w - q| := by
  have hu := fmt_ulp_pos f q
  -- multiples of the unit
  have hmul : ∀ k : ℤ, |f.rne q - q| ≤ |k * f.ulp q - q| := by
    intro k
    have h := rneInt_nearest (q / f.ulp q) k
    have e1 : f.rne q - q = (rneInt (q / f.ulp q) - q / f.ulp q) * f.ulp q := by
      unfold FloatFmt.rne; field_simp
    have e2 : k * f.ulp q - q = (k - q / f.ulp q) * f.ulp q := by field_simp
    rw [e1, e2, abs_mul, abs_mul]
    exact mul_le_mul_of_nonneg_right h (abs_nonneg _)
  by_cases hle : max (Int.log 2 |q|) f.emin - (f.prec - 1 : ℤ) ≤ e
  · obtain ⟨k, hk⟩ := multiple_of_le (m := m) hle
    rw [hw, hk]
    exact hmul k
  · have hlog : max (Int.log 2 |q|) f.emin = Int.log 2 |q| := by
      rcases max_choice (Int.log 2 |q|) f.emin with h | h
      · exact h
      · rw [h] at hle; omega
    rw [hlog] at hle
    by_cases h0 : q = 0
    · subst h0
      have := hmul 0
      simp only [Int.cast_zero, zero_mul, sub_self, abs_zero] at this
      exact le_trans this (abs_nonneg _)
    have hqpos : 0 < |q| := abs_pos.2 h0
    have h1 : (2 : ℚ) ^ Int.log 2 |q| ≤ |q| := Int.zpow_log_le_self (by norm_num) hqpos
    have h2 : |w| ≤ 2 ^ Int.log 2 |q| := by
      have h2 : |w| < 2 ^ ((f.prec : ℤ) + e) := by
        rw [hw, abs_mul, abs_of_pos (zpow_pos (by norm_num : (0:ℚ) < 2) e),
          zpow_add₀ (by norm_num), zpow_natCast]
        apply mul_lt_mul_of_pos_right _ (zpow_pos (by norm_num) _)
        exact_mod_cast hm
      exact le_trans h2.le (zpow_le_zpow_right₀ (by norm_num) (by omega))
    -- the lower end of the binade is a multiple of the unit
    obtain ⟨j, hj⟩ : ∃ j : ℤ, (2 : ℚ) ^ Int.log 2 |q| = j * f.ulp q := by
      unfold FloatFmt.ulp
      rw [hlog]
      obtain ⟨k, hk⟩ := zpow_split (Int.log 2 |q|) (Int.log 2 |q| - (f.prec - 1 : ℤ)) (by omega)
      exact ⟨2 ^ k, by rw [hk]⟩
    rcases lt_or_gt_of_ne h0 with hneg | hpos
    · have := hmul (-j)
      push_cast at this
      rw [neg_mul, ← hj] at this
      refine le_trans this ?_
      rw [abs_of_neg hneg] at h1 h2 ⊢
      have hw' := abs_le.1 h2
      rw [abs_of_nonneg (by linarith), abs_of_nonneg (by linarith [hw'.1])]
      linarith [hw'.1]
    · have := hmul j
      rw [← hj] at this
      refine le_trans this ?_
      rw [abs_of_pos hpos] at h1 h2 ⊢
      have hw' := abs_le.1 h2
      rw [abs_of_nonpos (by linarith), abs_of_nonpos (by linarith [hw'.2])]
      linarith [hw'.2]

/-- C69: integers and doubles that do not fit are rounded to a nearest value of the floating point
type. -/
theorem C69_nearest (src dst : Scalar) (hd : ¬ IsInteger dst) (q r : ℚ)
    (h : cConvert src dst (.fin q) = some (.fin r)) :
    IsValue dst (.fin r) ∧ ∀ w : ℚ, IsValue dst (.fin w) → |r - q| ≤ |w - q| := by
  have hr : dst.range = none ∧ ((dst = .float) ∨ (dst = .double)) := by
    cases dst <;> simp [IsInteger] at hd <;> simp [Scalar.range]
  simp only [cConvert, hr.1, Option.some.injEq, FloatFmt.round] at h
  split at h
  · rename_i hlt
    cases h
    rcases hr.2 with rfl | rfl
    · refine ⟨⟨hlt, fmt_rne_float .single (by decide) q⟩, ?_⟩
      rintro w ⟨_, m, e, h1, h2, h3⟩
      exact fmt_rne_nearest .single (by decide) q w m e h1 h2 h3
    · refine ⟨⟨hlt, fmt_rne_float .binary64 (by decide) q⟩, ?_⟩
      rintro w ⟨_, m, e, h1, h2, h3⟩
      exact fmt_rne_nearest .binary64 (by decide) q w m e h1 h2 h3
  · cases h

/-- C69: the result is infinite only if the value is larger than all numbers of the type; it keeps the
sign. -/
theorem C69_overflow (src dst : Scalar) (hd : ¬ IsInteger dst) (q : ℚ) (neg : Bool)
    (h : cConvert src dst (.fin q) = some (.inf neg)) :
    (neg = true ↔ q < 0) ∧ ∀ w : ℚ, IsValue dst (.fin w) → |w| < |q| := by
  have key : ∀ f : FloatFmt, 1 ≤ f.prec → f.round q = .inf neg → (neg = true ↔ q < 0) ∧
      ∀ w : ℚ, BinaryFloat f.prec (f.emin - (f.prec - 1 : ℤ)) f.emax w → |w| < |q| := by
    intro f hp h
    unfold FloatFmt.round at h
    split at h
    · cases h
    · rename_i hge
      cases h
      refine ⟨decide_eq_true_iff, ?_⟩
      rintro w ⟨hw, m, e, h1, h2, h3⟩
      by_contra hlt
      push Not at hge hlt
      have n1 := fmt_rne_nearest f hp q w m e h1 h2 h3
      have n2 := fmt_rne_nearest f hp q (-w) (-m) e (by rwa [abs_neg]) h2 (by rw [h3]; push_cast; ring)
      have n3 := abs_sub_abs_le_abs_sub (f.rne q) q
      rcases abs_cases w with ⟨a, a'⟩ | ⟨a, a'⟩ <;> rcases abs_cases q with ⟨b, b'⟩ | ⟨b, b'⟩
      · rw [abs_of_nonneg (show 0 ≤ w - q by linarith)] at n1; linarith
      · rw [abs_of_nonpos (show -w - q ≤ 0 by linarith)] at n2; linarith
      · rw [abs_of_nonneg (show 0 ≤ -w - q by linarith)] at n2; linarith
      · rw [abs_of_nonpos (show w - q ≤ 0 by linarith)] at n1; linarith
  have hr : dst.range = none ∧ ((dst = .float) ∨ (dst = .double)) := by
    cases dst <;> simp [IsInteger] at hd <;> simp [Scalar.range]
  simp only [cConvert, hr.1, Option.some.injEq] at h
  rcases hr.2 with rfl | rfl
  · exact key .single (by decide) h
  · exact key .binary64 (by decide) h

/-- C69: infinities and NaN stay what they are in floating point types. -/
theorem C69_special (src dst : Scalar) (hd : ¬ IsInteger dst) (v : Dbl) (hv : ∀ q, v ≠ .fin q) :
    cConvert src dst v = some v := by
  have hr : dst.range = none := by
    cases dst <;> simp [IsInteger] at hd <;> simp [Scalar.range]
  cases v with
  | fin q => exact absurd rfl (hv q)
  | inf n => simp [cConvert, hr]
  | nan => simp [cConvert, hr]

/-- The rounding of the arithmetic on `double` (`Verif.Model.Double`) is the rounding of this conversion,
so each sum, product and quotient is a nearest double of the exact one (`C69_nearest`). -/
theorem ieeeRnd_eq_round (q : ℚ) : ieeeRnd q = FloatFmt.binary64.round q := by
  have h : (53 : ℤ) - 1 = 52 := by norm_num
  simp [ieeeRnd, rneRat, ulp, binade, FloatFmt.round, FloatFmt.rne, FloatFmt.ulp, FloatFmt.binary64, h]

/-- C69, from the file to the getter: a variable of type `F` is read through a grid of type `G` with the
getter for type `T`. If the value of the nearest sample is a value of the types `G` and `T`, the getter
returns exactly this value, for every configuration and history. -/
theorem C69_typed_value {S : Session (Option Dbl)} {sel : Selection} {c : LevelCfg (Option Dbl)}
    {file : VarFile (Option Dbl)} {nc : List NcAxis} {name : List Char} (F G T : Scalar)
    (raw : List Nat → Dbl) (hp : Possible S sel) (hf : RegularFile nc) (hv : ReadsVariable S name)
    (hfile : file name = some (nc, fun idx => stored F G (raw idx)))
    (ho : S.open .exact file = some (sel, c)) {t : Nat} {pos : List ℚ}
    (hpos : pos.length = nc.length) {v : Option Dbl} (hr : Returns S sel c t (pos.map .fin) v) :
    ∃ idx, Selected nc pos idx ∧
      (IsValue G (raw idx) → IsValue T (raw idx) → typedGet G T v = some (raw idx)) := by
  obtain ⟨idx, h1, rfl⟩ := C65_nearest_value hp hf hv hfile ho hpos hr
  refine ⟨idx, h1, fun hG hT => ?_⟩
  simp [stored, typedGet, C69_exact F G _ hG, C69_exact G T _ hT]

/-- An int variable through a double grid with getInt; a double variable through a float grid with
getDouble. -/
example (v : Dbl) (h : IsValue .int v) : typedGet .double .int (stored .int .double v) = some v := by
  have h2 := (C69_widening v).2.2.2.1 h
  simp [stored, typedGet, C69_exact .int .double v h2, C69_exact .double .int v h]

example : IsValue .float (.fin (-3 / 8)) :=
  ⟨by norm_num, -3, -3, by norm_num, by norm_num, by norm_num⟩

/-- 2^24 + 1 is no float; the getter for long returns 2^24. -/
example : ¬ IsValue .float (.fin 16777217) := by
  intro h
  have h1 := C69_exact .int .float _ h
  have h2 : cConvert .int .float (.fin 16777217) = some (.fin 16777216) := by decide +kernel
  rw [h1] at h2
  exact absurd h2 (by decide +kernel)

/-- -1.5 becomes -1; 300.5 is not a byte; 300 as an int wraps around to 44. -/
example : cConvert .double .int (.fin (-3 / 2)) = some (.fin (-1)) ∧
    cConvert .double .byte (.fin (601 / 2)) = none ∧
    cConvert .int .byte (.fin 300) = some (.fin 44) := by decide +kernel

/-- 1e39 is larger than all floats. -/
example : cConvert .double .float (.fin (-(10 ^ 39))) = some (.inf true) := by decide +kernel

end Asagi.Props
