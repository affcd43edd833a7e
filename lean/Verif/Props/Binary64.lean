import Verif.Spec.Binary64
import Verif.Proofs.Double
import Mathlib.Tactic.Linarith
import Mathlib.Tactic.Ring
import Mathlib.Tactic.FieldSimp
/-
The rounding of the model is that of IEEE 754: to the nearest double, to the even one on ties, and to
infinity from 2^1024 - 2^970 on.
-/
namespace Asagi.Props
open Asagi Asagi.Spec

theorem rneInt_closest (x : ℚ) (M : ℤ) : |(rneInt x : ℚ) - x| ≤ |(M : ℚ) - x| := by
  have h := rneInt_err x
  by_cases hM : M = rneInt x
  · rw [hM]
  · have h1 : (1 : ℚ) ≤ |(M : ℚ) - rneInt x| := by
      have : 1 ≤ |M - rneInt x| := Int.one_le_abs (sub_ne_zero.2 hM)
      exact_mod_cast this
    have h2 : |(M : ℚ) - rneInt x| ≤ |(M : ℚ) - x| + |(rneInt x : ℚ) - x| := by
      have e : (M : ℚ) - rneInt x = (M - x) - (rneInt x - x) := by ring
      rw [e]; exact abs_sub _ _
    linarith

theorem rneInt_tie (x : ℚ) (M : ℤ) (hM : M ≠ rneInt x) (h : |(M : ℚ) - x| = |(rneInt x : ℚ) - x|) :
    2 ∣ rneInt x := by
  have he := rneInt_err x
  have h1 : (1 : ℚ) ≤ |(M : ℚ) - rneInt x| := by
    have : 1 ≤ |M - rneInt x| := Int.one_le_abs (sub_ne_zero.2 hM)
    exact_mod_cast this
  have h2 : |(M : ℚ) - rneInt x| ≤ |(M : ℚ) - x| + |(rneInt x : ℚ) - x| := by
    have e : (M : ℚ) - rneInt x = (M - x) - (rneInt x - x) := by ring
    rw [e]; exact abs_sub _ _
  have h3 : |(rneInt x : ℚ) - x| = 1 / 2 := by linarith
  have f1 : ((⌊x⌋ : ℤ) : ℚ) ≤ x := Int.floor_le x
  have f2 : x < ⌊x⌋ + 1 := Int.lt_floor_add_one x
  unfold rneInt at h3 ⊢
  split_ifs at h3 ⊢ with c1 c2 c3
  · rw [abs_sub_comm, abs_of_nonneg (by linarith)] at h3; linarith
  · push_cast at h3
    rw [abs_of_nonneg (by linarith)] at h3; linarith
  · omega
  · omega

theorem rneInt_lower (x : ℚ) (k : ℤ) (h : (k : ℚ) ≤ x) : k ≤ rneInt x := by
  have : k ≤ ⌊x⌋ := Int.le_floor.2 h
  unfold rneInt
  split_ifs <;> omega

theorem rneInt_upper (x : ℚ) (k : ℤ) (h : x ≤ k) : rneInt x ≤ k := by
  have f1 : ((⌊x⌋ : ℤ) : ℚ) ≤ x := Int.floor_le x
  have f2 : ⌊x⌋ ≤ k := by
    have : ((⌊x⌋ : ℤ) : ℚ) ≤ k := le_trans f1 h
    exact_mod_cast this
  rcases f2.lt_or_eq with h1 | h1
  · unfold rneInt
    split_ifs <;> omega
  · have hx : x = k := le_antisymm h (by rw [← h1]; exact f1)
    rw [hx, rneInt_int]

theorem rneInt_half_up (x : ℚ) (k : ℤ) (hk : 2 ∣ k) (h : (k : ℚ) - 1 / 2 ≤ x) : k ≤ rneInt x := by
  by_cases h1 : k ≤ ⌊x⌋
  · unfold rneInt
    split_ifs <;> omega
  · have f2 : x < ⌊x⌋ + 1 := Int.lt_floor_add_one x
    have h2 : ⌊x⌋ = k - 1 := by
      have : ((k - 1 : ℤ) : ℚ) ≤ x := by push_cast; linarith
      have := Int.le_floor.2 this
      omega
    have h3 : ¬ x - ⌊x⌋ < 1 / 2 := by
      rw [h2]; push_cast; linarith
    unfold rneInt
    rw [if_neg h3]
    split_ifs <;> omega

theorem rneInt_half_down (x : ℚ) (k : ℤ) (hk : 2 ∣ k) (h : x ≤ (k : ℚ) + 1 / 2) : rneInt x ≤ k := by
  by_cases h1 : x ≤ k
  · exact rneInt_upper x k h1
  · push Not at h1
    have h2 : ⌊x⌋ = k := by
      rw [Int.floor_eq_iff]
      constructor <;> linarith
    unfold rneInt
    rw [h2]
    split_ifs with c1 c2 c3
    · exact le_rfl
    · linarith
    · exact le_rfl
    · omega

/-- The facts about the binade of a number that is not zero. -/
theorem binade_spec {q : ℚ} (hq : q ≠ 0) :
    |q| < 2 ^ (binade q + 1) ∧ (-1022 < binade q → (2 : ℚ) ^ binade q ≤ |q|) ∧ -1022 ≤ binade q := by
  have h0 : 0 < |q| := abs_pos.2 hq
  refine ⟨?_, ?_, le_max_right _ _⟩
  · have h1 : |q| < 2 ^ (Int.log 2 |q| + 1) := Int.lt_zpow_succ_log_self (by norm_num) _
    refine lt_of_lt_of_le h1 (zpow_le_zpow_right₀ (by norm_num) ?_)
    have : Int.log 2 |q| ≤ binade q := le_max_left _ _
    omega
  · intro h
    have : binade q = Int.log 2 |q| := by
      unfold binade at h ⊢
      rcases lt_max_iff.1 h with h | h
      · exact max_eq_left h.le
      · omega
    rw [this]
    exact Int.zpow_log_le_self (by norm_num) h0

theorem two_zpow_pos (e : ℤ) : (0 : ℚ) < 2 ^ e := zpow_pos (by norm_num) _

theorem two_zpow_split (a : ℤ) (n : ℕ) : (2 : ℚ) ^ (a + n) = 2 ^ a * 2 ^ n := by
  rw [zpow_add₀ (by norm_num), zpow_natCast]

theorem rneRat_zero : rneRat 0 = 0 := by
  have := rneInt_int 0
  simp only [Int.cast_zero] at this
  simp [rneRat, this]

/-- The integer significand of the result. -/
theorem rne_bounds {q : ℚ} (hq : q ≠ 0) :
    |rneInt (q / ulp q)| ≤ 2 ^ 53 ∧ (-1022 < binade q → 2 ^ 52 ≤ |rneInt (q / ulp q)|) := by
  obtain ⟨b1, b2, b3⟩ := binade_spec hq
  have hu := ulp_pos q
  have e1 : (2 : ℚ) ^ (binade q + 1) = ulp q * 2 ^ 53 := by
    unfold ulp
    rw [show binade q + 1 = (binade q - 52) + ((53 : ℕ) : ℤ) by push_cast; ring, two_zpow_split]
  have e2 : (2 : ℚ) ^ binade q = ulp q * 2 ^ 52 := by
    unfold ulp
    rw [show (2 : ℚ) ^ binade q = 2 ^ ((binade q - 52) + ((52 : ℕ) : ℤ)) by congr 1; push_cast; ring, two_zpow_split]
  have hx : |q / ulp q| ≤ 2 ^ 53 := by
    rw [abs_div, abs_of_pos hu, div_le_iff₀ hu]
    rw [e1] at b1; linarith
  constructor
  · rw [abs_le] at hx ⊢
    constructor
    · exact rneInt_lower _ _ (by push_cast; exact hx.1)
    · exact rneInt_upper _ _ (by push_cast; exact hx.2)
  · intro h
    have b2 := b2 h
    rw [e2] at b2
    have hx2 : 2 ^ 52 ≤ |q / ulp q| := by
      rw [abs_div, abs_of_pos hu, le_div_iff₀ hu]; linarith
    rw [le_abs] at hx2 ⊢
    rcases hx2 with h | h
    · left; exact rneInt_lower _ _ (by push_cast; exact h)
    · right
      have := rneInt_upper (q / ulp q) (-2 ^ 52) (by push_cast; linarith)
      omega

/-- The result of rounding, if it does not overflow, has an exact representation; it is even if the
rounded significand is. -/
theorem rneRat_double {q : ℚ} (h : |rneRat q| < 2 ^ 1024) :
    IsDouble (rneRat q) ∧ (q ≠ 0 → 2 ∣ rneInt (q / ulp q) → IsEvenDouble (rneRat q)) := by
  by_cases hq : q = 0
  · subst hq
    rw [rneRat_zero]
    exact ⟨⟨0, 0, by norm_num, by norm_num, by norm_num, by norm_num⟩, fun h => absurd rfl h⟩
  obtain ⟨n1, n2⟩ := rne_bounds hq
  obtain ⟨b1, b2, b3⟩ := binade_spec hq
  have hu := ulp_pos q
  set N := rneInt (q / ulp q) with hN
  have hy : rneRat q = N * 2 ^ (binade q - 52) := rfl
  have habs : |rneRat q| = |(N : ℚ)| * 2 ^ (binade q - 52) := by
    rw [hy, abs_mul, abs_of_pos (two_zpow_pos _)]
  -- the exponent is bounded
  have hexp : ∀ k : ℕ, 2 ^ k ≤ |N| → binade q - 52 + k < 1024 := by
    intro k hk
    have hk' : (2 : ℚ) ^ k ≤ |(N : ℚ)| := by exact_mod_cast hk
    have : (2 : ℚ) ^ (binade q - 52 + k) < 2 ^ (1024 : ℤ) := by
      rw [two_zpow_split]
      calc (2 : ℚ) ^ (binade q - 52) * 2 ^ k ≤ |(N : ℚ)| * 2 ^ (binade q - 52) := by
            nlinarith [two_zpow_pos (binade q - 52)]
        _ < 2 ^ 1024 := by rw [← habs]; exact h
        _ = 2 ^ (1024 : ℤ) := by rw [show (1024 : ℤ) = ((1024 : ℕ) : ℤ) from rfl, zpow_natCast]
    exact (zpow_lt_zpow_iff_right₀ (by norm_num)).1 this
  rcases n1.lt_or_eq with hlt | heq
  · have hle : binade q - 52 ≤ 971 := by
      by_cases hb : -1022 < binade q
      · have := hexp 52 (n2 hb)
        push_cast at this; omega
      · omega
    refine ⟨⟨N, _, hlt, by omega, hle, hy⟩, fun _ h2 => ⟨N, _, hlt, by omega, hle, hy, ?_, h2⟩⟩
    by_cases hb : -1022 < binade q
    · exact .inl (n2 hb)
    · right; omega
  · have hle : binade q - 52 + 1 ≤ 971 := by
      have := hexp 53 (by rw [heq])
      push_cast at this; omega
    obtain ⟨N', hN', habsN⟩ : ∃ N' : ℤ, N = 2 * N' ∧ |N'| = 2 ^ 52 := by
      rcases abs_eq (by norm_num : (0 : ℤ) ≤ 2 ^ 53) |>.1 heq with h | h
      · exact ⟨2 ^ 52, by omega, by norm_num⟩
      · exact ⟨-2 ^ 52, by omega, by norm_num⟩
    have hy' : rneRat q = N' * 2 ^ (binade q - 52 + 1) := by
      rw [hy, hN', show (2 : ℚ) ^ (binade q - 52 + 1) = 2 ^ (binade q - 52 + ((1 : ℕ) : ℤ)) from rfl,
        two_zpow_split]
      push_cast; ring
    have h53 : |N'| < 2 ^ 53 := by rw [habsN]; norm_num
    refine ⟨⟨N', _, h53, by omega, hle, hy'⟩, fun _ _ => ⟨N', _, h53, by omega, hle, hy', .inl habsN.ge, ?_⟩⟩
    rw [abs_eq (by norm_num)] at habsN
    rcases habsN with h | h <;> rw [h] <;> norm_num

/-- No double is nearer, and another one at the same distance means that the significand is even. -/
theorem rneRat_nearest (q z : ℚ) (hz : IsDouble z) :
    |rneRat q - q| ≤ |z - q| ∧
    (z ≠ rneRat q → |z - q| = |rneRat q - q| → q ≠ 0 ∧ 2 ∣ rneInt (q / ulp q)) := by
  by_cases hq : q = 0
  · subst hq
    rw [rneRat_zero]
    simp
  obtain ⟨b1, b2, b3⟩ := binade_spec hq
  have hu := ulp_pos q
  have habs : ∀ M : ℤ, |(M : ℚ) * ulp q - q| = |(M : ℚ) - q / ulp q| * ulp q := by
    intro M
    have : (M : ℚ) * ulp q - q = (M - q / ulp q) * ulp q := by field_simp
    rw [this, abs_mul, abs_of_pos hu]
  have hy : rneRat q = rneInt (q / ulp q) * ulp q := rfl
  have hmul : ∀ M : ℤ, |rneRat q - q| ≤ |(M : ℚ) * ulp q - q| := by
    intro M
    rw [hy, habs, habs]
    exact mul_le_mul_of_nonneg_right (rneInt_closest _ _) hu.le
  obtain ⟨m, e, hm, he1, he2, rfl⟩ := hz
  by_cases he : binade q - 52 ≤ e
  · -- a multiple of the ulp
    obtain ⟨k, hk⟩ : ∃ k : ℕ, e = binade q - 52 + k := ⟨(e - (binade q - 52)).toNat, by omega⟩
    have hM : (m : ℚ) * 2 ^ e = ((m * 2 ^ k : ℤ) : ℚ) * ulp q := by
      rw [hk, two_zpow_split]; unfold ulp; push_cast; ring
    rw [hM]
    refine ⟨hmul _, ?_⟩
    intro hne heq
    refine ⟨hq, rneInt_tie _ (m * 2 ^ k) ?_ ?_⟩
    · intro h
      exact hne (by rw [hy, h])
    · rw [habs, hy, habs] at heq
      exact mul_right_cancel₀ hu.ne' heq
  · -- below the binade of q
    have hb : -1022 < binade q := by omega
    have b2 := b2 hb
    have e2 : (2 : ℚ) ^ binade q = 2 ^ 52 * ulp q := by
      unfold ulp
      rw [show (2 : ℚ) ^ binade q = 2 ^ ((binade q - 52) + ((52 : ℕ) : ℤ)) by congr 1; push_cast; ring,
        two_zpow_split]
      ring
    have hz : |(m : ℚ) * 2 ^ e| < 2 ^ binade q := by
      rw [abs_mul, abs_of_pos (two_zpow_pos _)]
      have h1 : |(m : ℚ)| < 2 ^ 53 := by exact_mod_cast hm
      have h2 : (2 : ℚ) ^ (e + ((53 : ℕ) : ℤ)) ≤ 2 ^ binade q :=
        zpow_le_zpow_right₀ (by norm_num) (by push_cast; omega)
      rw [two_zpow_split] at h2
      nlinarith [two_zpow_pos e]
    have hlt : |rneRat q - q| < |(m : ℚ) * 2 ^ e - q| := by
      have h1 : |q| - |(m : ℚ) * 2 ^ e| ≤ |(m : ℚ) * 2 ^ e - q| := by
        rw [abs_sub_comm]; exact abs_sub_abs_le_abs_sub _ _
      have h2 : |rneRat q - q| ≤ |q| - 2 ^ binade q := by
        rcases lt_or_gt_of_ne hq with hneg | hpos
        · have := hmul (-2 ^ 52)
          refine le_trans this ?_
          rw [abs_of_neg hneg] at b2 ⊢
          push_cast
          rw [e2] at b2 ⊢
          rw [abs_of_nonneg (by linarith)]
          linarith
        · have := hmul (2 ^ 52)
          refine le_trans this ?_
          rw [abs_of_pos hpos] at b2 ⊢
          push_cast
          rw [e2] at b2 ⊢
          rw [abs_of_nonpos (by linarith)]
          linarith
      linarith
    exact ⟨hlt.le, fun _ h => absurd h hlt.ne'⟩

/-- Where rounding overflows. -/
theorem rneRat_overflow (q : ℚ) : 2 ^ 1024 ≤ |rneRat q| ↔ 2 ^ 1024 - 2 ^ 970 ≤ |q| := by
  by_cases hq : q = 0
  · subst hq
    rw [rneRat_zero, abs_zero]
    constructor
    · intro h
      exact absurd h (by decide +kernel)
    · intro h
      exact absurd h (by decide +kernel)
  obtain ⟨n1, n2⟩ := rne_bounds hq
  obtain ⟨b1, b2, b3⟩ := binade_spec hq
  have hu := ulp_pos q
  have habs : |rneRat q| = |(rneInt (q / ulp q) : ℚ)| * ulp q := by
    show |(rneInt (q / ulp q) : ℚ) * ulp q| = _
    rw [abs_mul, abs_of_pos hu]
  have c970 : (2 : ℚ) ^ (970 : ℕ) = 2 ^ (970 : ℤ) := (zpow_natCast 2 970).symm
  have c1024 : (2 : ℚ) ^ (1024 : ℕ) = 2 ^ (1024 : ℤ) := (zpow_natCast 2 1024).symm
  constructor
  · intro h
    by_contra hlt
    push Not at hlt
    have hb : binade q ≤ 1023 := by
      by_contra hgt
      push Not at hgt
      have h1 := b2 (by omega)
      have h2 : (2 : ℚ) ^ (1024 : ℤ) ≤ 2 ^ binade q := zpow_le_zpow_right₀ (by norm_num) (by omega)
      rw [← c1024] at h2
      exact absurd (lt_of_le_of_lt (h2.trans h1) hlt) (by decide +kernel)
    have hu2 : ulp q ≤ 2 ^ (971 : ℤ) := zpow_le_zpow_right₀ (by norm_num) (by omega)
    have h971 : (2 : ℚ) ^ (971 : ℤ) = 2 * 2 ^ 970 := by
      rw [show (971 : ℤ) = (970 : ℤ) + ((1 : ℕ) : ℤ) from rfl, two_zpow_split, c970]; ring
    have herr := rneRat_err q
    have h1 : |rneRat q| ≤ |rneRat q - q| + |q| := by
      have := abs_add_le (rneRat q - q) q
      simpa using this
    rw [h971] at hu2
    linarith
  · intro h
    rw [habs]
    have hbig : (2 : ℚ) ^ (1023 : ℤ) ≤ |q| := by
      refine le_trans ?_ h
      rw [show (1023 : ℤ) = ((1023 : ℕ) : ℤ) from rfl, zpow_natCast]
      decide +kernel
    have hbin : 1023 ≤ binade q := by
      by_contra hlt
      push Not at hlt
      have : (2 : ℚ) ^ (binade q + 1) ≤ 2 ^ (1023 : ℤ) := zpow_le_zpow_right₀ (by norm_num) (by omega)
      exact absurd (lt_of_lt_of_le b1 (this.trans hbig)) (lt_irrefl _)
    rcases hbin.lt_or_eq with hgt | heq
    · have h52 := n2 (by omega)
      have h52' : (2 : ℚ) ^ 52 ≤ |(rneInt (q / ulp q) : ℚ)| := by exact_mod_cast h52
      have : (2 : ℚ) ^ (1024 : ℤ) ≤ 2 ^ (binade q - 52 + ((52 : ℕ) : ℤ)) :=
        zpow_le_zpow_right₀ (by norm_num) (by push_cast; omega)
      rw [two_zpow_split, ← c1024] at this
      calc (2 : ℚ) ^ 1024 ≤ 2 ^ (binade q - 52) * 2 ^ 52 := this
        _ ≤ |(rneInt (q / ulp q) : ℚ)| * ulp q := by
          show ulp q * 2 ^ 52 ≤ _
          rw [mul_comm]
          exact mul_le_mul_of_nonneg_right h52' hu.le
    · have hulp : ulp q = 2 ^ 971 := by
        unfold ulp
        rw [← heq, show ((1023 : ℤ) - 52) = ((971 : ℕ) : ℤ) from rfl, zpow_natCast]
      have hx : (2 : ℚ) ^ 53 - 1 / 2 ≤ |q / ulp q| := by
        rw [abs_div, abs_of_pos hu, le_div_iff₀ hu, hulp]
        refine le_trans ?_ h
        decide +kernel
      have h53 : (2 : ℤ) ^ 53 ≤ |rneInt (q / ulp q)| := by
        rw [le_abs] at hx ⊢
        rcases hx with h | h
        · left; exact rneInt_half_up _ (2 ^ 53) (by norm_num) (by push_cast; exact h)
        · right
          have := rneInt_half_down (q / ulp q) (-2 ^ 53) (by norm_num) (by push_cast; linarith)
          omega
      have h53' : (2 : ℚ) ^ 53 ≤ |(rneInt (q / ulp q) : ℚ)| := by exact_mod_cast h53
      calc (2 : ℚ) ^ 1024 = 2 ^ 53 * ulp q := by rw [hulp]; decide +kernel
        _ ≤ _ := mul_le_mul_of_nonneg_right h53' hu.le

/-- **Model fidelity (used in C59, C60, C65, C75, C77).** Rounding to binary64 as IEEE 754 requires it: a finite result is a double,
no double is nearer, and if another double is equally near the result is the even one; the result is
infinite, with the sign of the number, exactly from 2^1024 - 2^970 on. -/
theorem C59_rounding_correct (q : ℚ) :
    (∀ y, Fp.ieee.rnd q = .fin y → IsDouble y ∧ (∀ z, IsDouble z → |y - q| ≤ |z - q|) ∧
      (∀ z, IsDouble z → z ≠ y → |z - q| = |y - q| → IsEvenDouble y)) ∧
    (∀ b, Fp.ieee.rnd q = .inf b ↔ 2 ^ 1024 - 2 ^ 970 ≤ |q| ∧ b = decide (q < 0)) ∧
    Fp.ieee.rnd q ≠ .nan := by
  unfold Fp.ieee ieeeRnd
  dsimp only
  refine ⟨?_, ?_, ?_⟩
  · intro y hy
    split_ifs at hy with h
    cases hy
    obtain ⟨d1, d2⟩ := rneRat_double h
    refine ⟨d1, fun z hz => (rneRat_nearest q z hz).1, ?_⟩
    intro z hz hne heq
    obtain ⟨e1, e2⟩ := (rneRat_nearest q z hz).2 hne heq
    exact d2 e1 e2
  · intro b
    rw [← rneRat_overflow]
    split_ifs with h
    · simp [not_le.2 h]
    · push Not at h
      simp only [Dbl.inf.injEq, h, true_and]
      exact eq_comm
  · split_ifs <;> simp

/-- 2^53 + 1 is not a double: it lies between 2^53 and 2^53 + 2, and the even one is 2^53. -/
example : Fp.ieee.rnd (2 ^ 53 + 1) = .fin (2 ^ 53) ∧ Fp.ieee.rnd (2 ^ 53 + 3) = .fin (2 ^ 53 + 4) := by
  decide +kernel

end Asagi.Props
