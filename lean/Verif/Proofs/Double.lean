import Verif.Model.Double
import Verif.Proofs.Index
import Mathlib.Tactic.NormNum
import Mathlib.Tactic.Positivity
/- Rounding errors of binary64 and of the selection of a sample. -/
namespace Asagi
open Spec

theorem rneInt_err (x : ℚ) : |(rneInt x : ℚ) - x| ≤ 1 / 2 := by
  have h1 : ((⌊x⌋ : ℤ) : ℚ) ≤ x := Int.floor_le x
  have h2 : x < ⌊x⌋ + 1 := Int.lt_floor_add_one x
  unfold rneInt
  rw [abs_le]
  split
  · constructor <;> linarith
  · split
    · push_cast; constructor <;> linarith
    · split
      · constructor <;> linarith
      · push_cast; constructor <;> linarith

theorem rneInt_int (n : ℤ) : rneInt (n : ℚ) = n := by
  unfold rneInt; simp

theorem ulp_pos (q : ℚ) : 0 < ulp q := zpow_pos (by norm_num) _

/-- Rounding to nearest changes a number by at most half the distance of neighbouring doubles. -/
theorem rneRat_err (q : ℚ) : |rneRat q - q| ≤ ulp q / 2 := by
  have hu := ulp_pos q
  have h := rneInt_err (q / ulp q)
  have e : rneRat q - q = (rneInt (q / ulp q) - q / ulp q) * ulp q := by
    unfold rneRat; field_simp
  rw [e, abs_mul, abs_of_pos hu]
  nlinarith

theorem half_ulp_le (q : ℚ) (hq0 : q ≠ 0) : ulp q / 2 ≤ 1 / 2 ^ 53 * |q| + 1 / 2 ^ 1075 := by
  have hz : (2 : ℚ) ≠ 0 := by norm_num
  unfold ulp binade
  rcases le_total (Int.log 2 |q|) (-1022) with h | h
  · rw [max_eq_right h]
    have : (2 : ℚ) ^ ((-1022 : ℤ) - 52) / 2 = 1 / 2 ^ 1075 := by
      rw [show ((-1022 : ℤ) - 52) = -(1074 : ℕ) from rfl, zpow_neg, zpow_natCast,
        pow_succ 2 1074]
      field_simp
    rw [this]
    have : (0 : ℚ) ≤ 1 / 2 ^ 53 * |q| := by positivity
    linarith
  · rw [max_eq_left h]
    have hq : 0 < |q| := abs_pos.2 hq0
    have h1 : (2 : ℚ) ^ Int.log 2 |q| ≤ |q| := Int.zpow_log_le_self (by norm_num) hq
    have h2 : (2 : ℚ) ^ (Int.log 2 |q| - 52) / 2 = 1 / 2 ^ 53 * 2 ^ Int.log 2 |q| := by
      rw [zpow_sub₀ hz, show (52 : ℤ) = ((52 : ℕ) : ℤ) from rfl, zpow_natCast]
      norm_num
      ring
    rw [h2]
    have : (0 : ℚ) < 1 / 2 ^ 1075 := by positivity
    nlinarith [mul_le_mul_of_nonneg_left h1 (by positivity : (0 : ℚ) ≤ 1 / 2 ^ 53)]

/-- The rounding is faithful: a finite result has a small relative error (plus half the smallest
subnormal), and only huge numbers become infinite, with their own sign. -/
def Fp.Std (fp : Fp) : Prop :=
  ∀ q, (∃ r, fp.rnd q = .fin r ∧ |r - q| ≤ 1 / 2 ^ 53 * |q| + 1 / 2 ^ 1075) ∨
    (2 ^ 1023 ≤ |q| ∧ fp.rnd q = .inf (decide (q < 0)))

theorem ieee_std : Fp.ieee.Std := by
  intro q
  have he : |rneRat q - q| ≤ 1 / 2 ^ 53 * |q| + 1 / 2 ^ 1075 := by
    by_cases h0 : q = 0
    · subst h0
      have : rneRat 0 = 0 := by
        have := rneInt_int 0
        simp only [Int.cast_zero] at this
        simp [rneRat, this]
      rw [this, sub_self, abs_zero]
      positivity
    · exact le_trans (rneRat_err q) (half_ulp_le q h0)
  by_cases h : |rneRat q| < 2 ^ 1024
  · left
    exact ⟨rneRat q, by simp [Fp.ieee, ieeeRnd, h], he⟩
  · right
    refine ⟨?_, by simp [Fp.ieee, ieeeRnd, h]⟩
    push Not at h
    by_contra hlt
    push Not at hlt
    have h1 : |rneRat q| ≤ |rneRat q - q| + |q| := by
      have := abs_add_le (rneRat q - q) q
      simpa using this
    have : (1 : ℚ) / 2 ^ 53 * |q| ≤ 1 / 2 ^ 53 * 2 ^ 1023 := by
      apply mul_le_mul_of_nonneg_left hlt.le; positivity
    have h2 : (1 : ℚ) / 2 ^ 53 * 2 ^ 1023 + 1 / 2 ^ 1075 + 2 ^ 1023 < 2 ^ 1024 := by decide +kernel
    linarith

/-- Integers of at most 53 bits are exact. -/
theorem ieee_ofNat (n : Nat) (h : n < 2 ^ 53) : Fp.ieee.ofNat n = .fin n := by
  have hz : (2 : ℚ) ≠ 0 := by norm_num
  have hr : rneRat (n : ℚ) = n := by
    have hb : binade (n : ℚ) ≤ 52 := by
      unfold binade
      apply max_le _ (by norm_num)
      rw [Nat.abs_cast, Int.log_natCast]
      have := Nat.log_lt_of_lt_pow' (b := 2) (x := 53) (y := n) (by norm_num) h
      omega
    obtain ⟨k, hk⟩ : ∃ k : ℕ, binade (n : ℚ) - 52 = -(k : ℤ) :=
      ⟨(52 - binade (n : ℚ)).toNat, by omega⟩
    have e : (n : ℚ) / ulp n = ((n * 2 ^ k : ℤ) : ℚ) := by
      unfold ulp; rw [hk, zpow_neg, zpow_natCast]; push_cast; field_simp
    unfold rneRat
    rw [e, rneInt_int, ← e]
    field_simp [(ulp_pos (n : ℚ)).ne']
  unfold Fp.ofNat Fp.ieee ieeeRnd
  simp only [hr]
  rw [if_pos]
  rw [Nat.abs_cast]
  have : (n : ℚ) < 2 ^ 53 := by exact_mod_cast h
  exact lt_trans this (by decide +kernel)

/-! ### The selection of a sample -/

/-- The clamping and the conversion of `pos2index` for a finite rounded number. -/
theorem pos2indexDim_of_fin {fp : Fp} {ax : Axis} {p : Dbl} {q : ℚ} (hs : 0 < ax.size)
    (h64 : ax.size < 2 ^ 64)
    (hint : fp.ofNat ax.size = .fin ax.size ∧ fp.ofNat (ax.size - 1) = .fin (ax.size - 1 : ℕ))
    (h : fp.add (fp.mul (fp.sub p ax.offset) ax.scalingInv) (.fin (1 / 2)) = .fin q) :
    ∃ k : ℕ, pos2indexDim fp ax p = some k ∧
      (k : ℤ) = if ⌊q⌋ < 0 then 0 else if (ax.size : ℤ) ≤ ⌊q⌋ then (ax.size : ℤ) - 1 else ⌊q⌋ := by
  unfold pos2indexDim dblRound
  rw [h, hint.1, hint.2]
  generalize hi : ⌊q⌋ = i
  simp only [Dbl.floor, hi]
  have hcast : ∀ y : ℤ, 0 ≤ y → y < ax.size → (Dbl.fin (y : ℚ)).toSizeT = some y.toNat := by
    intro y h0 h1
    simp only [Dbl.toSizeT]
    rw [if_pos]
    · simp
    · constructor
      · have : (0 : ℚ) ≤ y := by exact_mod_cast h0
        linarith
      · have : (y : ℚ) < (2 ^ 64 : ℕ) := by
          have : y < (2 ^ 64 : ℕ) := by omega
          exact_mod_cast this
        push_cast at this; exact this
  have c0 := hcast 0 (le_refl _) (by omega)
  have c1 := hcast ((ax.size - 1 : ℕ) : ℤ) (by omega) (by omega)
  simp only [Int.cast_zero, Int.cast_natCast] at c0 c1
  by_cases h0 : i < 0
  · have h0' : (i : ℚ) < 0 := by exact_mod_cast h0
    refine ⟨0, ?_, by simp [h0]⟩
    simpa [Dbl.lt, h0'] using c0
  · have h0' : ¬ (i : ℚ) < 0 := by
      intro h; exact h0 (by exact_mod_cast h)
    by_cases h1 : (ax.size : ℤ) ≤ i
    · have h1' : ¬ (i : ℚ) < ax.size := by
        have : (ax.size : ℚ) ≤ i := by exact_mod_cast h1
        linarith
      refine ⟨ax.size - 1, ?_, by rw [if_neg h0, if_pos h1]; omega⟩
      simp only [Dbl.lt, h0', decide_false, Bool.false_eq_true, if_false, h1',
        not_false_eq_true, ne_eq, reduceCtorEq, and_self, if_true]
      simpa using c1
    · have h1' : (i : ℚ) < ax.size := by
        have : i < ax.size := by omega
        exact_mod_cast this
      refine ⟨i.toNat, ?_, by rw [if_neg h0, if_neg h1]; omega⟩
      simp only [Dbl.lt, h0', decide_false, Bool.false_eq_true, if_false, h1', decide_true,
        not_true_eq_false, false_and]
      exact hcast i (by omega) (by omega)

/-- The clamping and the conversion of `pos2index` after an overflow. -/
theorem pos2indexDim_of_inf {fp : Fp} {ax : Axis} {p : Dbl} {b : Bool} (hs : 0 < ax.size)
    (h64 : ax.size < 2 ^ 64)
    (hint : fp.ofNat ax.size = .fin ax.size ∧ fp.ofNat (ax.size - 1) = .fin (ax.size - 1 : ℕ))
    (h : fp.add (fp.mul (fp.sub p ax.offset) ax.scalingInv) (.fin (1 / 2)) = .inf b) :
    pos2indexDim fp ax p = some (if b then 0 else ax.size - 1) := by
  unfold pos2indexDim dblRound
  rw [h, hint.1, hint.2]
  cases b
  · simp only [Dbl.floor, Dbl.lt]
    simp only [Dbl.toSizeT, Bool.false_eq_true, if_false, not_false_eq_true, ne_eq, reduceCtorEq,
      and_self, if_true]
    rw [if_pos]
    · simp
    · constructor
      · have : (0 : ℚ) ≤ (ax.size - 1 : ℕ) := by positivity
        linarith
      · have : ((ax.size - 1 : ℕ) : ℚ) < (2 ^ 64 : ℕ) := by
          exact_mod_cast (by omega : ax.size - 1 < 2 ^ 64)
        push_cast at this ⊢; exact this
  · simp [Dbl.floor, Dbl.lt, Dbl.toSizeT]

/-- The number that `pos2index` rounds is accurate: `t + 1/2` up to a few units in the last place, or
an infinity if `t` is huge. -/
def Accurate (A : Dbl) (t : ℚ) (n : Nat) : Prop :=
  (∃ a, A = .fin a ∧ |a - (t + 1 / 2)| ≤ 14 / 2 ^ 53 * |t| + 1 / 2 ^ 53) ∨
    (A = .inf (decide (t < 0)) ∧ 2 * (n : ℚ) + 2 ≤ |t|)

/-- An accurate number selects an almost nearest sample. -/
theorem almost_nearest {fp : Fp} {ax : Axis} {p : Dbl} {t : ℚ} (hs : 0 < ax.size)
    (h64 : ax.size < 2 ^ 64)
    (hint : fp.ofNat ax.size = .fin ax.size ∧ fp.ofNat (ax.size - 1) = .fin (ax.size - 1 : ℕ))
    (h : Accurate (fp.add (fp.mul (fp.sub p ax.offset) ax.scalingInv) (.fin (1 / 2))) t ax.size) :
    ∃ k, pos2indexDim fp ax p = some k ∧ k < ax.size ∧
      ∀ j : Nat, j < ax.size → |t - k| ≤ |t - j| + ax.size / 2 ^ 47 := by
  have hn : (1 : ℚ) ≤ ax.size := by exact_mod_cast hs
  rcases h with ⟨a, ha, herr⟩ | ⟨ha, hbig⟩
  · obtain ⟨k, hk, hkv⟩ := pos2indexDim_of_fin hs h64 hint ha
    have e : a = (a - 1 / 2) + 1 / 2 := by ring
    rw [e] at hkv
    obtain ⟨hlt, hnear⟩ := nearest_aux (a - 1 / 2) ax.size hs k hkv
    refine ⟨k, hk, hlt, ?_⟩
    intro j hj
    have h1 := (hnear j hj).1
    have hd : |t - (a - 1 / 2)| ≤ 14 / 2 ^ 53 * |t| + 1 / 2 ^ 53 := by
      rw [abs_sub_comm]
      have : a - 1 / 2 - t = a - (t + 1 / 2) := by ring
      rwa [this]
    by_cases hb : |t| ≤ 2 * ax.size
    · have h2 : |t - k| ≤ |t - (a - 1 / 2)| + |a - 1 / 2 - k| := by
        have := abs_add_le (t - (a - 1 / 2)) (a - 1 / 2 - k)
        simpa using this
      have h3 : |a - 1 / 2 - j| ≤ |t - (a - 1 / 2)| + |t - j| := by
        have := abs_add_le (a - 1 / 2 - t) (t - j)
        rw [abs_sub_comm (a - 1 / 2) t] at this
        simpa using this
      nlinarith
    · push Not at hb
      have hj0 : (0 : ℚ) ≤ j := by positivity
      have hj1 : (j : ℚ) + 1 ≤ ax.size := by exact_mod_cast hj
      have hdd := abs_le.1 hd
      have hpos : (0 : ℚ) ≤ ax.size / 2 ^ 47 := by positivity
      rcases le_total 0 t with ht | ht
      · rw [abs_of_nonneg ht] at hb hdd
        have hfl : (ax.size : ℤ) ≤ ⌊a - 1 / 2 + 1 / 2⌋ := by
          rw [Int.le_floor]; push_cast; linarith [hdd.2]
        have hk' : (k : ℤ) = (ax.size : ℤ) - 1 := by
          rw [hkv, if_neg (by omega), if_pos hfl]
        have hkq : (k : ℚ) = ax.size - 1 := by
          have : ((k : ℤ) : ℚ) = ((ax.size : ℤ) - 1 : ℤ) := by rw [hk']
          push_cast at this; exact this
        rw [abs_of_nonneg (by linarith), abs_of_nonneg (by linarith)]
        linarith
      · rw [abs_of_nonpos ht] at hb hdd
        have hfl : ⌊a - 1 / 2 + 1 / 2⌋ < 0 := by
          rw [Int.floor_lt]; push_cast; linarith [hdd.1]
        have hk' : (k : ℤ) = 0 := by rw [hkv, if_pos hfl]
        have hkq : (k : ℚ) = 0 := by exact_mod_cast hk'
        rw [abs_of_nonpos (by linarith), abs_of_nonpos (by linarith)]
        linarith
  · have hk := pos2indexDim_of_inf hs h64 hint ha
    refine ⟨_, hk, by split <;> omega, ?_⟩
    intro j hj
    have hj0 : (0 : ℚ) ≤ j := by positivity
    have hj1 : (j : ℚ) + 1 ≤ ax.size := by exact_mod_cast hj
    have hpos : (0 : ℚ) ≤ ax.size / 2 ^ 47 := by positivity
    by_cases ht : t < 0
    · rw [abs_of_neg ht] at hbig
      rw [if_pos (by simpa using ht)]
      rw [abs_of_nonpos (by push_cast; linarith), abs_of_nonpos (by linarith)]
      push_cast; linarith
    · push Not at ht
      rw [abs_of_nonneg ht] at hbig
      rw [if_neg (by simpa using ht)]
      have hkq : ((ax.size - 1 : ℕ) : ℚ) = ax.size - 1 := by
        push_cast [Nat.cast_sub (by omega : 1 ≤ ax.size)]; ring
      rw [hkq, abs_of_nonneg (by linarith), abs_of_nonneg (by linarith)]
      linarith

theorem scaled_err {d d' s v f u η : ℚ} (hs : s ≠ 0) (hu : 0 < u) (hu' : u ≤ 1 / 1000)
    (hd : |d' - d| ≤ u * |d| + η) (hv : v = 1 / s * (1 + f)) (hf : |f| ≤ 8 * u)
    (hη : η ≤ u / 16 * |s|) : |d' * v - d / s| ≤ 10 * u * |d / s| + u / 8 := by
  have hsp : 0 < |s| := abs_pos.2 hs
  obtain ⟨t, ht⟩ : ∃ t, t = d / s := ⟨_, rfl⟩
  have hdt : d = t * s := by rw [ht]; field_simp
  obtain ⟨e, he⟩ : ∃ e, e = (d' - d) / s := ⟨_, rfl⟩
  have hes : d' - d = e * s := by rw [he]; field_simp
  have h1 : |e| ≤ u * |t| + u / 16 := by
    rw [hes, hdt, abs_mul, abs_mul] at hd
    have : |e| * |s| ≤ (u * |t| + u / 16) * |s| := by nlinarith
    exact le_of_mul_le_mul_right this hsp
  have h2 : d' * v - d / s = t * f + e * (1 + f) := by
    have : d' = e * s + t * s := by rw [← hes, ← hdt]; ring
    rw [this, hv, ← ht]; field_simp; ring
  rw [h2, ← ht]
  have h3 : |t * f| ≤ |t| * (8 * u) := by
    rw [abs_mul]; exact mul_le_mul_of_nonneg_left hf (abs_nonneg _)
  have h4 : |1 + f| ≤ 1.008 := by
    have := abs_add_le 1 f
    rw [abs_one] at this
    linarith
  have h5 : |e * (1 + f)| ≤ (u * |t| + u / 16) * 1.008 := by
    rw [abs_mul]
    exact mul_le_mul h1 h4 (abs_nonneg _) (by positivity)
  have h6 := abs_add_le (t * f) (e * (1 + f))
  have h7 : 0 ≤ u * |t| := by positivity
  nlinarith

theorem sign_of_close {P t E : ℚ} (h : |P - t| ≤ E) (hE : E < |P|) :
    decide (P < 0) = decide (t < 0) := by
  have := abs_le.1 h
  rcases lt_or_ge P 0 with hp | hp
  · rw [abs_of_neg hp] at hE
    have : t < 0 := by linarith
    simp [hp, this]
  · rw [abs_of_nonneg hp] at hE
    have : ¬ t < 0 := by linarith
    simp [this, not_lt.2 hp]

/-- The number rounded by `pos2index` is accurate if the stored inverse spacing is. -/
theorem accurate_of_inv {fp : Fp} (hfp : fp.Std) {p c s f : ℚ} {n : Nat} (hn : n ≤ 2 ^ 50)
    (hs1 : 1 / 2 ^ 900 ≤ |s|) (hs2 : |s| ≤ 2 ^ 900) (hf : |f| ≤ 8 / 2 ^ 53) :
    Accurate (fp.add (fp.mul (fp.sub (.fin p) (.fin c)) (.fin (1 / s * (1 + f)))) (.fin (1 / 2)))
      ((p - c) / s) n := by
  have hs : s ≠ 0 := by
    rintro rfl
    rw [abs_zero] at hs1
    exact absurd hs1 (by decide +kernel)
  obtain ⟨η, hη⟩ : ∃ η : ℚ, η = 1 / 2 ^ 1075 := ⟨_, rfl⟩
  obtain ⟨B, hB⟩ : ∃ B : ℚ, B = 2 ^ 1023 := ⟨_, rfl⟩
  have hη0 : 0 ≤ η := by rw [hη]; positivity
  have hη1 : η ≤ 1 / 2 ^ 53 / 1000 := by rw [hη]; decide +kernel
  have hηs : η ≤ 1 / 2 ^ 53 / 16 * |s| := by
    have h1 : η ≤ 1 / 2 ^ 53 / 16 * (1 / 2 ^ 900) := by rw [hη]; decide +kernel
    exact le_trans h1 (mul_le_mul_of_nonneg_left hs1 (by norm_num))
  have hnq : (n : ℚ) ≤ 2 ^ 50 := by exact_mod_cast hn
  have hBn : 4 * (n : ℚ) + 8 ≤ B := by
    have : (2 : ℚ) ^ 53 ≤ B := by rw [hB]; decide +kernel
    have h2 : (4 : ℚ) * n + 8 ≤ 2 ^ 53 := by clear hs1 hs2 hη hB this; linarith
    exact le_trans h2 this
  have hBs : (4 * (n : ℚ) + 8) * |s| ≤ B := by
    have h1 : (4 * (n : ℚ) + 8) * |s| ≤ (4 * 2 ^ 50 + 8) * 2 ^ 900 :=
      mul_le_mul (by clear hs1 hs2 hη hB; linarith) hs2 (abs_nonneg _) (by positivity)
    exact le_trans h1 (by rw [hB]; decide +kernel)
  unfold Fp.Std at hfp
  rw [← hη, ← hB] at hfp
  clear hη hB hs1 hs2
  obtain ⟨t, ht⟩ : ∃ t, t = (p - c) / s := ⟨_, rfl⟩
  have hts : p - c = t * s := by rw [ht]; field_simp
  have hf1 : 0 < 1 + f := by
    have := (abs_le.1 hf).1
    have h2 : (8 : ℚ) / 2 ^ 53 < 1 := by norm_num
    linarith
  rw [← ht]
  have hsub : fp.sub (.fin p) (.fin c) = fp.rnd (p - c) := by
    simp [Fp.sub, Dbl.neg, Fp.add, sub_eq_add_neg]
  rw [hsub]
  rcases hfp (p - c) with ⟨d', hd', herr⟩ | ⟨hbig, hinf⟩
  · rw [hd']
    have hP := scaled_err (f := f) hs (by norm_num : (0 : ℚ) < 1 / 2 ^ 53) (by norm_num) herr rfl
      (by linarith) hηs
    rw [← ht] at hP
    simp only [Fp.mul]
    generalize d' * (1 / s * (1 + f)) = P at hP ⊢
    have hPt : |P| ≤ |t| + |P - t| := by
      have := abs_add_le t (P - t)
      simpa using this
    have hPt' : |t| ≤ |P| + |P - t| := by
      have := abs_sub_abs_le_abs_sub t P
      rw [abs_sub_comm t P] at this
      linarith
    have hn0 : (0 : ℚ) ≤ n := by positivity
    have ht0 := abs_nonneg t
    rcases hfp P with ⟨T, hT, hTe⟩ | ⟨hPb, hPi⟩
    · rw [hT]
      simp only [Fp.add]
      have hTt : |T - t| ≤ 12 / 2 ^ 53 * |t| + 1 / 2 ^ 53 / 4 := by
        have := abs_add_le (T - P) (P - t)
        rw [show T - P + (P - t) = T - t by ring] at this
        linarith
      have hT1 : |T + 1 / 2| ≤ |t| + |T - t| + 1 / 2 := by
        have h1 := abs_add_le t (T - t)
        have h2 := abs_add_le T (1 / 2)
        rw [show |(1 / 2 : ℚ)| = 1 / 2 by norm_num] at h2
        rw [show t + (T - t) = T by ring] at h1
        linarith
      have hT2 : |t| ≤ |T + 1 / 2| + |T - t| + 1 / 2 := by
        have h1 := abs_add_le (T + 1 / 2) (t - T - 1 / 2)
        have h2 := abs_add_le (t - T) (-(1 / 2))
        rw [show |(-(1 / 2) : ℚ)| = 1 / 2 by norm_num, abs_sub_comm t T] at h2
        rw [show T + 1 / 2 + (t - T - 1 / 2) = t by ring] at h1
        rw [show t - T - 1 / 2 = t - T + -(1 / 2) by ring] at h1
        linarith
      have hTh : |T + 1 / 2 - (t + 1 / 2)| = |T - t| := by congr 1; ring
      rcases hfp (T + 1 / 2) with ⟨A, hA, hAe⟩ | ⟨hAb, hAi⟩
      · left
        refine ⟨A, hA, ?_⟩
        have := abs_add_le (A - (T + 1 / 2)) (T + 1 / 2 - (t + 1 / 2))
        rw [show A - (T + 1 / 2) + (T + 1 / 2 - (t + 1 / 2)) = A - (t + 1 / 2) by ring, hTh] at this
        linarith
      · right
        refine ⟨?_, by linarith⟩
        rw [hAi]
        congr 1
        refine sign_of_close (E := |T - t| + 1 / 2) ?_ (by linarith)
        have := abs_add_le (T - t) (1 / 2)
        rw [show |(1 / 2 : ℚ)| = 1 / 2 by norm_num] at this
        rw [show T + 1 / 2 - t = T - t + 1 / 2 by ring]
        exact this
    · right
      rw [hPi]
      simp only [Fp.add]
      refine ⟨?_, by linarith⟩
      congr 1
      exact sign_of_close hP (by linarith)
  · right
    rw [hinf]
    have hv : ¬ 1 / s * (1 + f) = 0 := by
      apply mul_ne_zero _ hf1.ne'
      simpa using hs
    simp only [Fp.mul, if_neg hv, Fp.add]
    rw [hts, abs_mul] at hbig
    have htb : 4 * (n : ℚ) + 8 ≤ |t| := by
      have : (4 * (n : ℚ) + 8) * |s| ≤ |t| * |s| := le_trans hBs hbig
      exact le_of_mul_le_mul_right this (abs_pos.2 hs)
    refine ⟨?_, by
      have : (0 : ℚ) ≤ n := by positivity
      linarith⟩
    congr 1
    have ht0 : t ≠ 0 := by
      rintro rfl
      rw [abs_zero] at htb
      have : (0 : ℚ) ≤ n := by positivity
      linarith
    rw [hts]
    rcases lt_or_gt_of_ne hs with h | h <;> rcases lt_or_gt_of_ne ht0 with h' | h'
    · have a1 : ¬ t * s < 0 := not_lt.2 (mul_nonneg_of_nonpos_of_nonpos h'.le h.le)
      have a2 : 1 / s * (1 + f) < 0 := mul_neg_of_neg_of_pos (by simpa using h) hf1
      rw [decide_eq_false a1, decide_eq_true a2, decide_eq_true h']; rfl
    · have a1 : t * s < 0 := mul_neg_of_pos_of_neg h' h
      have a2 : 1 / s * (1 + f) < 0 := mul_neg_of_neg_of_pos (by simpa using h) hf1
      rw [decide_eq_true a1, decide_eq_true a2, decide_eq_false (not_lt.2 h'.le)]; rfl
    · have a1 : t * s < 0 := mul_neg_of_neg_of_pos h' h
      have a2 : ¬ 1 / s * (1 + f) < 0 := not_lt.2 (mul_nonneg (by simpa using h.le) hf1.le)
      rw [decide_eq_true a1, decide_eq_false a2, decide_eq_true h']; rfl
    · have a1 : ¬ t * s < 0 := not_lt.2 (mul_nonneg h'.le h.le)
      have a2 : ¬ 1 / s * (1 + f) < 0 := not_lt.2 (mul_nonneg (by simpa using h.le) hf1.le)
      rw [decide_eq_false a1, decide_eq_false a2, decide_eq_false (not_lt.2 h'.le)]; rfl

end Asagi
