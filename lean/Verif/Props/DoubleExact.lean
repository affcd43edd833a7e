import Verif.Props.Double
import Verif.Spec.Binary64
import Verif.Spec.DoubleExact
/-
C60: exactly when the conversion of a position to an index is undefined in double precision.
-/
namespace Asagi.Props
open Asagi.Spec

theorem rneInt_neg (x : ℚ) : rneInt (-x) = -rneInt x := by
  by_cases hx : x - ⌊x⌋ = 0
  · have e : x = ⌊x⌋ := by linarith
    rw [e, ← Int.cast_neg, rneInt_int, rneInt_int]
  · have h1 := Int.floor_le x
    have h2 := Int.lt_floor_add_one x
    have hlt : (0 : ℚ) < x - ⌊x⌋ := lt_of_le_of_ne (by linarith) (Ne.symm hx)
    have hf : ⌊-x⌋ = -⌊x⌋ - 1 := by
      rw [Int.floor_eq_iff]
      push_cast
      constructor <;> linarith
    unfold rneInt
    rw [hf]
    push_cast
    generalize ⌊x⌋ = i at *
    rcases lt_trichotomy (x - (i : ℚ)) (1 / 2) with h | h | h
    · rw [if_neg (by linarith), if_pos (by linarith), if_pos h]; ring
    · split_ifs <;> first | omega | (exfalso; linarith)
    · rw [if_pos (by linarith), if_neg (by linarith), if_pos h]; ring

theorem rneRat_neg (q : ℚ) : rneRat (-q) = -rneRat q := by
  unfold rneRat
  have e : ulp (-q) = ulp q := by unfold ulp binade; rw [abs_neg]
  rw [e, neg_div, rneInt_neg]
  push_cast; ring

theorem overflows_neg (q : ℚ) : Overflows (-q) ↔ Overflows q := by
  unfold Overflows ieeeRnd
  rw [rneRat_neg, abs_neg]
  split <;> simp [Dbl.isInf]

theorem ieeeRnd_cases (q : ℚ) : (∃ r, ieeeRnd q = .fin r ∧ |r| < 2 ^ 1024 ∧ ¬ Overflows q ∧ r = rneRat q) ∨
    (∃ b, ieeeRnd q = .inf b ∧ Overflows q) := by
  unfold Overflows ieeeRnd
  split
  · rename_i h
    exact .inl ⟨_, rfl, h, by simp [Dbl.isInf], rfl⟩
  · exact .inr ⟨_, rfl, rfl⟩

/-- Numbers that are not tiny are not rounded to zero. -/
theorem rneRat_ne_zero {q : ℚ} (h : 1 / 2 ^ 1074 ≤ |q|) : rneRat q ≠ 0 := by
  intro hc
  have h1 := rneRat_err q
  rw [hc, zero_sub, abs_neg] at h1
  have hq0 : q ≠ 0 := by
    rintro rfl
    rw [abs_zero] at h
    have : (0 : ℚ) < 1 / 2 ^ 1074 := by positivity
    linarith
  have h2 := half_ulp_le q hq0
  have h3 : (1 : ℚ) / 2 ^ 1075 = 1 / 2 * (1 / 2 ^ 1074) := by rw [pow_succ]; ring
  rw [h3] at h2
  have h4 : (0 : ℚ) < |q| := abs_pos.2 hq0
  have h5 : (1 : ℚ) / 2 ^ 53 ≤ 1 / 4 := by norm_num
  nlinarith

/-- The doubles are multiples of the smallest one. -/
theorem double_multiple {q : ℚ} (h : IsDouble q) : ∃ m : ℤ, q = m * (1 / 2 ^ 1074) := by
  obtain ⟨m, e, -, he, -, rfl⟩ := h
  obtain ⟨j, hj⟩ : ∃ j : ℕ, e = (j : ℤ) + -1074 := ⟨(e + 1074).toNat, by omega⟩
  refine ⟨m * 2 ^ j, ?_⟩
  rw [hj, zpow_add₀ (by norm_num), zpow_natCast, zpow_neg]
  have e1 : ((2 : ℚ) ^ (1074 : ℤ))⁻¹ = 1 / 2 ^ 1074 := by rw [one_div]; rfl
  rw [e1, Int.cast_mul, mul_assoc]
  norm_cast

/-- The difference of two doubles is rounded to zero only if they are equal. -/
theorem diff_zero {p c : ℚ} (hp : IsDouble p) (hc : IsDouble c) : ieeeRnd (p - c) = .fin 0 ↔ p = c := by
  constructor
  · intro h
    by_contra hne
    obtain ⟨m, rfl⟩ := double_multiple hp
    obtain ⟨k, rfl⟩ := double_multiple hc
    have hmk : m ≠ k := by rintro rfl; exact hne rfl
    have hr : rneRat ((m : ℚ) * (1 / 2 ^ 1074) - k * (1 / 2 ^ 1074)) = 0 := by
      unfold ieeeRnd at h
      split at h
      · exact Dbl.fin.inj h
      · cases h
    refine rneRat_ne_zero ?_ hr
    rw [← sub_mul, abs_mul, abs_of_pos (show (0 : ℚ) < 1 / 2 ^ 1074 by positivity)]
    have : (1 : ℚ) ≤ |(m : ℚ) - k| := by
      have : 1 ≤ |m - k| := Int.one_le_abs (sub_ne_zero.2 hmk)
      exact_mod_cast this
    have h0 : (0 : ℚ) < 1 / 2 ^ 1074 := by positivity
    nlinarith
  · rintro rfl
    rw [sub_self]
    decide +kernel

/-- What the library has as spacing and inverse spacing of a dimension. -/
theorem scaling_inv_cases (cc : Bool) (a : NcAxis) (h0 : 0 < a.size) (h1 : a.size ≤ 2 ^ 50) :
    ((openAxis .ieee cc a).scaling = .fin 0 ∨ (openAxis .ieee cc a).scaling.isInf = true) ∧
      (openAxis .ieee cc a).scalingInv = .fin 0 ∨
    ∃ s, (openAxis .ieee cc a).scaling = .fin s ∧ s ≠ 0 ∧
      (Overflows (1 / s) ∧ (∃ b, (openAxis .ieee cc a).scalingInv = .inf b) ∨
      ¬ Overflows (1 / s) ∧ ∃ v, v ≠ 0 ∧ (openAxis .ieee cc a).scalingInv = .fin v) := by
  have hsc : (∃ b, a.getScaling .ieee = .inf b) ∨ ∃ s, a.getScaling .ieee = .fin s ∧ |s| < 2 ^ 1024 := by
    unfold NcAxis.getScaling
    split
    · exact .inl ⟨_, rfl⟩
    · rename_i hne
      cases hc : a.coords with
      | none => exact .inr ⟨1, rfl, by decide +kernel⟩
      | some c =>
        simp only
        rw [(ieee_sizes h1).2]
        have hm : ((a.size - 1 : ℕ) : ℚ) ≠ 0 := by
          have : a.size - 1 ≠ 0 := by omega
          exact_mod_cast this
        have hsub : Fp.ieee.sub (.fin (c (a.size - 1))) (.fin (c 0)) = ieeeRnd (c (a.size - 1) - c 0) := by
          simp [Fp.sub, Dbl.neg, Fp.add, sub_eq_add_neg, Fp.ieee]
        rw [hsub]
        rcases ieeeRnd_cases (c (a.size - 1) - c 0) with ⟨r, hr, -⟩ | ⟨b, hb, -⟩
        · rw [hr]
          simp only [Fp.div, if_neg hm]
          rcases ieeeRnd_cases (r / ((a.size - 1 : ℕ) : ℚ)) with ⟨r', hr', hl, -⟩ | ⟨b, hb, -⟩
          · exact .inr ⟨r', hr', hl⟩
          · exact .inl ⟨b, hb⟩
        · rw [hb]
          simp only [Fp.div, if_neg hm]
          exact .inl ⟨_, rfl⟩
  rcases hsc with ⟨b, hb⟩ | ⟨s, hs, hl⟩
  · left
    simp [openAxis, hb, getInvScaling, Dbl.isInf]
  · have hscal : (openAxis .ieee cc a).scaling = .fin |s| := by
      simp [openAxis, hs, Dbl.isInf, Dbl.abs]
    have hinv : (openAxis .ieee cc a).scalingInv = getInvScaling .ieee (.fin s) := by
      simp [openAxis, hs, Dbl.isInf]
    rw [hscal, hinv]
    by_cases hs0 : s = 0
    · left
      simp [hs0, getInvScaling]
    · right
      refine ⟨|s|, rfl, abs_ne_zero.2 hs0, ?_⟩
      have hov : Overflows (1 / |s|) ↔ Overflows (1 / s) := by
        rcases abs_choice s with h | h <;> rw [h]
        rw [div_neg, overflows_neg]
      have hg : getInvScaling .ieee (.fin s) = ieeeRnd (1 / s) := by
        simp [getInvScaling, hs0, Dbl.isInf, Fp.div, Fp.ieee]
      rw [hov, hg]
      rcases ieeeRnd_cases (1 / s) with ⟨r, hr, -, hno, rfl⟩ | ⟨b, hb, ho⟩
      · refine .inr ⟨hno, _, rneRat_ne_zero ?_, hr⟩
        rw [abs_div, abs_one]
        have hsp : 0 < |s| := abs_pos.2 hs0
        apply one_div_le_one_div_of_le hsp
        refine le_trans hl.le ?_
        exact pow_le_pow_right₀ (by norm_num) (by norm_num)
      · exact .inl ⟨ho, b, hb⟩

/-- **C60**, exactly when it holds: for every file and position made of doubles, the conversion of the position to an
index is undefined if and only if the difference of the position and the first coordinate overflows and getDelta
delivers zero or infinity, or the position is the first coordinate and the reciprocal of getDelta overflows. If the
conversion is defined, the index is valid. -/
theorem C60_exact_partial (cellCentered : Bool) (a : NcAxis) (p : ℚ) (d : Dbl) (h0 : 0 < a.size)
    (h1 : a.size ≤ 2 ^ 50) (hp : IsDouble p) (hc : IsDouble (coord a 0))
    (hd : getDelta [openAxis .ieee cellCentered a] 0 = some d) :
    (pos2indexDim .ieee (openAxis .ieee cellCentered a) (.fin p) = none ↔
      (Overflows (p - coord a 0) ∧ (d = .fin 0 ∨ d.isInf = true)) ∨
      (p = coord a 0 ∧ ∃ s, d = .fin s ∧ s ≠ 0 ∧ Overflows (1 / s))) ∧
    ∀ k, pos2indexDim .ieee (openAxis .ieee cellCentered a) (.fin p) = some k → k < a.size := by
  have hd : (openAxis .ieee cellCentered a).scaling = d := by simpa [getDelta] using hd
  have hsi := scaling_inv_cases cellCentered a h0 h1
  rw [hd] at hsi
  have h50 : 2 ^ 50 < 2 ^ 64 := by norm_num
  obtain ⟨m1, m2, -⟩ := openAxis_members .ieee cellCentered a
  have hb : 0 < (openAxis .ieee cellCentered a).size ∧ (openAxis .ieee cellCentered a).size < 2 ^ 64 := by
    rw [m1]; exact ⟨h0, by omega⟩
  have hint := ieee_sizes h1
  rw [← m1] at hint
  generalize hax : openAxis .ieee cellCentered a = ax at *
  have hsub : Fp.ieee.sub (.fin p) ax.offset = ieeeRnd (p - coord a 0) := by
    rw [m2, getOffset_coord]
    simp [Fp.sub, Dbl.neg, Fp.add, sub_eq_add_neg, Fp.ieee]
  have hdz := diff_zero hp hc
  -- whenever the number that is rounded is not NaN, everything is fine
  have good : ∀ A, Fp.ieee.add (Fp.ieee.mul (Fp.ieee.sub (.fin p) ax.offset) ax.scalingInv) (.fin (1 / 2)) = A →
      A ≠ .nan → ∃ k, pos2indexDim .ieee ax (.fin p) = some k ∧ k < a.size := by
    intro A hA hne
    cases A with
    | nan => exact absurd rfl hne
    | fin q =>
      obtain ⟨k, hk, hkv⟩ := pos2indexDim_of_fin hb.1 hb.2 hint hA
      refine ⟨k, hk, ?_⟩
      rw [m1] at hkv
      split at hkv
      · omega
      · split at hkv <;> omega
    | inf b =>
      have := pos2indexDim_of_inf hb.1 hb.2 hint hA
      refine ⟨_, this, ?_⟩
      rw [m1]
      split <;> omega
  have bad : Fp.ieee.mul (Fp.ieee.sub (.fin p) ax.offset) ax.scalingInv = .nan →
      pos2indexDim .ieee ax (.fin p) = none := by
    intro h
    unfold pos2indexDim dblRound
    rw [h]
    simp [Fp.add, Dbl.floor, Dbl.lt, Dbl.toSizeT]
  have goodMul : ∀ x, Fp.ieee.mul (Fp.ieee.sub (.fin p) ax.offset) ax.scalingInv = x → x ≠ .nan →
      ∃ k, pos2indexDim .ieee ax (.fin p) = some k ∧ k < a.size := by
    intro x hx hne
    refine good _ rfl ?_
    rw [hx]
    cases x with
    | nan => exact absurd rfl hne
    | fin q =>
      show ieeeRnd _ ≠ _
      rcases ieeeRnd_cases (q + 1 / 2) with ⟨r, hr, -⟩ | ⟨b, hb, -⟩
      · rw [hr]; exact nofun
      · rw [hb]; exact nofun
    | inf b => exact nofun
  have fin : ∀ x y : ℚ, ieeeRnd (x * y) ≠ .nan := by
    intro x y
    rcases ieeeRnd_cases (x * y) with ⟨r, hr, -⟩ | ⟨b, hb, -⟩
    · rw [hr]; exact nofun
    · rw [hb]; exact nofun
  have close : ∀ (C : Prop), C → Fp.ieee.mul (Fp.ieee.sub (.fin p) ax.offset) ax.scalingInv = .nan →
      (pos2indexDim .ieee ax (.fin p) = none ↔ C) ∧ ∀ k, pos2indexDim .ieee ax (.fin p) = some k → k < a.size := by
    intro C hC h
    have := bad h
    exact ⟨⟨fun _ => hC, fun _ => this⟩, fun k hk => by rw [this] at hk; cases hk⟩
  have open' : ∀ (C : Prop), ¬ C → Fp.ieee.mul (Fp.ieee.sub (.fin p) ax.offset) ax.scalingInv ≠ .nan →
      (pos2indexDim .ieee ax (.fin p) = none ↔ C) ∧ ∀ k, pos2indexDim .ieee ax (.fin p) = some k → k < a.size := by
    intro C hC h
    obtain ⟨k, hk, hlt⟩ := goodMul _ rfl h
    exact ⟨⟨fun h => (by rw [hk] at h; cases h), fun h => absurd h hC⟩, fun k' hk' => by
      rw [hk] at hk'; cases hk'; exact hlt⟩
  rw [hsub] at close open'
  rcases ieeeRnd_cases (p - coord a 0) with ⟨r, hr, -, hno, -⟩ | ⟨b, hbb, ho⟩
  · rw [hr] at close open' hdz
    rcases hsi with ⟨hz, hv⟩ | ⟨s, rfl, hs0, ⟨hov, b, hv⟩ | ⟨hov, v, hv0, hv⟩⟩
    · refine open' _ ?_ (by rw [hv]; exact fin _ _)
      rintro (⟨h, -⟩ | ⟨-, s, h, hs0, -⟩)
      · exact hno h
      · rcases hz with hz | hz
        · rw [h] at hz; exact hs0 (Dbl.fin.inj hz)
        · rw [h] at hz; cases hz
    · by_cases hr0 : r = 0
      · refine close _ (.inr ⟨hdz.1 (by rw [hr0]), s, rfl, hs0, hov⟩) ?_
        rw [hv, hr0]
        simp [Fp.mul]
      · refine open' _ ?_ ?_
        · rintro (⟨h, -⟩ | ⟨h, -⟩)
          · exact hno h
          · exact hr0 (Dbl.fin.inj (hdz.2 h))
        · rw [hv]
          simp [Fp.mul, hr0]
    · refine open' _ ?_ (by rw [hv]; exact fin _ _)
      rintro (⟨h, -⟩ | ⟨-, s', h, -, h'⟩)
      · exact hno h
      · cases h; exact hov h'
  · rw [hbb] at close open' hdz
    have hpc : p ≠ coord a 0 := fun h => by cases hdz.2 h
    rcases hsi with ⟨hz, hv⟩ | ⟨s, rfl, hs0, ⟨hov, b', hv⟩ | ⟨hov, v, hv0, hv⟩⟩
    · refine close _ (.inl ⟨ho, hz⟩) ?_
      rw [hv]
      simp [Fp.mul]
    · refine open' _ ?_ (by rw [hv]; simp [Fp.mul])
      rintro (⟨-, h | h⟩ | ⟨h, -⟩)
      · exact hs0 (Dbl.fin.inj h)
      · cases h
      · exact hpc h
    · refine open' _ ?_ (by rw [hv]; simp [Fp.mul, hv0])
      rintro (⟨-, h | h⟩ | ⟨h, -⟩)
      · exact hs0 (Dbl.fin.inj h)
      · cases h
      · exact hpc h

/-- An extreme but harmless case: the samples are -2^1023 and -2^1022, the position 2^1023; the difference overflows,
but the spacing is finite and not zero, so the index is defined. -/
example : IsDouble (2 ^ 1023) ∧ IsDouble (coord ⟨2, some fun i => if i = 0 then -2 ^ 1023 else -2 ^ 1022⟩ 0) ∧
    Overflows (2 ^ 1023 - coord ⟨2, some fun i => if i = 0 then -2 ^ 1023 else -2 ^ 1022⟩ 0) ∧
    pos2indexDim .ieee (openAxis .ieee false
      ⟨2, some fun i => if i = 0 then -2 ^ 1023 else -2 ^ 1022⟩) (.fin (2 ^ 1023)) = some 1 := by
  refine ⟨?_, ?_, ?_, ?_⟩
  · exact ⟨2 ^ 52, 971, by decide +kernel, by decide, by decide, by decide +kernel⟩
  · exact ⟨-2 ^ 52, 971, by decide +kernel, by decide, by decide, by simp only [coord]; decide +kernel⟩
  · unfold Overflows; simp only [coord]; decide +kernel
  · decide +kernel

/-- Both undefined cases occur, see `C60_overflow_violated` and `C60_tiny_violated`. -/
example : (Overflows (2 ^ 1023 - -2 ^ 1023) ∧ (openAxis .ieee false ⟨1, some fun _ => -2 ^ 1023⟩).scaling.isInf = true) ∧
    Overflows (1 / (1 / 2 ^ 1030)) ∧
    (openAxis .ieee false ⟨2, some fun i => i / 2 ^ 1030⟩).scaling = .fin (1 / 2 ^ 1030) := by
  refine ⟨⟨?_, by decide +kernel⟩, ?_, by decide +kernel⟩
  · unfold Overflows; decide +kernel
  · unfold Overflows; decide +kernel

end Asagi.Props
