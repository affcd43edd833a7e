import Verif.Proofs.DoubleAxis
import Verif.Props.Index
/-
Properties of the selection of samples in binary64 arithmetic: C59, C60.
-/
namespace Asagi.Props
open Asagi Asagi.Spec

/-- A dimension with `1 ≤ size ≤ 2^50` samples and a mean spacing that is neither tiny nor huge, and
a position for which the subtraction of the first coordinate does not overflow if the dimension has a
single sample. -/
def DoubleRange (a : NcAxis) (p : ℚ) : Prop :=
  a.size ≤ 2 ^ 50 ∧
    (a.size = 1 ∧ |p - coord a 0| < 2 ^ 1023 ∨
      2 ≤ a.size ∧ 1 / 2 ^ 900 ≤ |meanSpacing a| ∧ |meanSpacing a| ≤ 2 ^ 900)

theorem ieee_sizes {n : Nat} (h : n ≤ 2 ^ 50) :
    Fp.ieee.ofNat n = .fin n ∧ Fp.ieee.ofNat (n - 1) = .fin (n - 1 : ℕ) := by
  have : 2 ^ 50 < 2 ^ 53 := by norm_num
  exact ⟨ieee_ofNat _ (by omega), ieee_ofNat _ (by omega)⟩

theorem getOffset_coord (a : NcAxis) : a.getOffset = .fin (coord a 0) := by
  unfold NcAxis.getOffset coord
  cases a.coords <;> simp

/-- If the inverse spacing is finite and the position minus the first coordinate does not overflow,
the index is defined and valid. -/
theorem defined_of_finite (cc : Bool) (a : NcAxis) (p v : ℚ) (h0 : 0 < a.size)
    (h1 : a.size ≤ 2 ^ 50) (hp : |p - coord a 0| < 2 ^ 1023)
    (hv : getInvScaling .ieee (a.getScaling .ieee) = .fin v) :
    ∃ k, pos2indexDim .ieee (openAxis .ieee cc a) (.fin p) = some k ∧ k < a.size := by
  have h50 : 2 ^ 50 < 2 ^ 64 := by norm_num
  obtain ⟨m1, m2, m3⟩ := openAxis_members .ieee cc a
  have hb : 0 < (openAxis .ieee cc a).size ∧ (openAxis .ieee cc a).size < 2 ^ 64 := by
    rw [m1]; exact ⟨h0, by omega⟩
  have hint := ieee_sizes h1
  rw [← m1] at hint
  have hx : ∃ A, Fp.ieee.add (Fp.ieee.mul (Fp.ieee.sub (.fin p) (openAxis .ieee cc a).offset)
      (openAxis .ieee cc a).scalingInv) (.fin (1 / 2)) = A ∧ A ≠ .nan := by
    rw [m2, m3, hv, getOffset_coord]
    have hsub : Fp.ieee.sub (.fin p) (.fin (coord a 0)) = Fp.ieee.rnd (p - coord a 0) := by
      simp [Fp.sub, Dbl.neg, Fp.add, sub_eq_add_neg]
    rw [hsub]
    rcases ieee_std (p - coord a 0) with ⟨d, hd, _⟩ | ⟨h, _⟩
    · rw [hd]
      simp only [Fp.mul]
      rcases ieee_std (d * v) with ⟨T, hT, _⟩ | ⟨_, hT⟩
      · rw [hT]
        simp only [Fp.add]
        rcases ieee_std (T + 1 / 2) with ⟨A, hA, _⟩ | ⟨_, hA⟩ <;> rw [hA]
        · exact ⟨_, rfl, nofun⟩
        · exact ⟨_, rfl, nofun⟩
      · rw [hT]
        exact ⟨_, rfl, nofun⟩
    · exact absurd hp (not_lt.2 h)
  obtain ⟨A, hA, hne⟩ := hx
  cases A with
  | nan => exact absurd rfl hne
  | fin q =>
    obtain ⟨k, hk, hkv⟩ := pos2indexDim_of_fin hb.1 hb.2 hint hA
    refine ⟨k, hk, ?_⟩
    rw [m1] at hkv
    split at hkv
    · omega
    · split at hkv <;> omega
  | inf b =>
    have := pos2indexDim_of_inf hb.1 hb.2 hint hA
    refine ⟨_, this, ?_⟩
    rw [m1]
    split <;> omega

theorem double_dim (cc : Bool) (a : NcAxis) (p δ : ℚ) (h0 : 0 < a.size) (hr : DoubleRange a p)
    (hδ : 0 ≤ δ) (hu : AlmostUniform a δ) :
    ∃ k, pos2indexDim .ieee (openAxis .ieee cc a) (.fin p) = some k ∧
      NearestUpTo a ((2 * δ + a.size / 2 ^ 47) * |meanSpacing a|) p k := by
  obtain ⟨hn, h1 | ⟨h2, hs1, hs2⟩⟩ := hr
  · have hsc : getInvScaling .ieee (a.getScaling .ieee) = .fin 0 := by
      simp [NcAxis.getScaling, h1.1, getInvScaling, Dbl.isInf]
    obtain ⟨k, hk, hlt⟩ := defined_of_finite cc a p 0 h0 hn h1.2 hsc
    refine ⟨k, hk, hlt, ?_⟩
    intro j hj
    obtain rfl : j = 0 := by omega
    obtain rfl : k = 0 := by omega
    have : 0 ≤ (2 * δ + a.size / 2 ^ 47) * |meanSpacing a| := by positivity
    linarith
  · have hint := ieee_sizes hn
    obtain ⟨f, hf, hinv⟩ := inv_accurate ieee_std a h2 hint.2 hn hs1 hs2
    obtain ⟨m1, m2, m3⟩ := openAxis_members .ieee cc a
    have hacc := accurate_of_inv ieee_std (p := p) (c := coord a 0) hn hs1 hs2 hf
    have h64 : a.size < 2 ^ 64 := lt_of_le_of_lt hn (by norm_num)
    obtain ⟨k, hk, hlt, hnear⟩ := almost_nearest (fp := .ieee) (ax := openAxis .ieee cc a)
      (p := .fin p) (t := (p - coord a 0) / meanSpacing a) (by rw [m1]; exact h0)
      (by rw [m1]; exact h64) (by rw [m1]; exact hint)
      (by rw [m1, m2, m3, hinv, getOffset_coord]; exact hacc)
    rw [m1] at hlt hnear
    refine ⟨k, hk, hlt, ?_⟩
    intro j hj
    have hs0 : meanSpacing a ≠ 0 := by
      intro h
      rw [h, abs_zero] at hs1
      exact absurd hs1 (by decide +kernel)
    have hkj := hnear j hj
    have huk := hu k hlt
    have huj := hu j hj
    clear hs1 hs2 hacc hinv hnear
    generalize meanSpacing a = s at *
    obtain ⟨t, ht⟩ : ∃ t, t = (p - coord a 0) / s := ⟨_, rfl⟩
    rw [← ht] at hkj
    have hpt : p = coord a 0 + t * s := by rw [ht]; field_simp; ring
    have e1 : |p - (coord a 0 + k * s)| = |t - k| * |s| := by
      rw [← abs_mul, hpt]; congr 1; ring
    have e2 : |p - (coord a 0 + j * s)| = |t - j| * |s| := by
      rw [← abs_mul, hpt]; congr 1; ring
    have e3 : |t - k| * |s| ≤ (|t - j| + a.size / 2 ^ 47) * |s| :=
      mul_le_mul_of_nonneg_right hkj (abs_nonneg _)
    have t1 := abs_add_le (p - (coord a 0 + k * s)) (coord a 0 + k * s - coord a k)
    have t2 := abs_add_le (p - coord a j) (coord a j - (coord a 0 + j * s))
    rw [show p - (coord a 0 + k * s) + (coord a 0 + k * s - coord a k) = p - coord a k by ring,
      abs_sub_comm (coord a 0 + k * s) (coord a k), e1] at t1
    rw [show p - coord a j + (coord a j - (coord a 0 + j * s)) = p - (coord a 0 + j * s) by ring,
      e2] at t2
    linarith

/-- **C59.** In binary64 arithmetic, for every file whose dimensions deviate by at most `δ` spacings
from equidistant ones and every finite position: the getters select in each dimension a valid index,
and no other sample is closer to the position by more than `2 δ + size / 2^47` spacings. -/
theorem C59_double_nearest (cellCentered : Bool) (nc : List NcAxis) (δ : ℚ) (hδ : 0 ≤ δ)
    (pos : List ℚ) (hp : pos.length = nc.length)
    (hf : ∀ a ∈ nc, 0 < a.size ∧ AlmostUniform a δ)
    (hr : ∀ n a p, n < nc.length → nc[nc.length - 1 - n]? = some a → pos[n]? = some p →
      DoubleRange a p) :
    ∃ idx, pos2index .ieee (openAxes .ieee cellCentered nc) (pos.map .fin) = some idx ∧
      InBox (nc.map NcAxis.size) idx ∧
      ∀ n, n < nc.length → ∃ a p k,
        nc[nc.length - 1 - n]? = some a ∧ pos[n]? = some p ∧ idx[nc.length - 1 - n]? = some k ∧
        NearestUpTo a ((2 * δ + a.size / 2 ^ 47) * |meanSpacing a|) p k := by
  have hlen : (openAxes .ieee cellCentered nc).length = nc.length := by simp [openAxes]
  have key : ∀ n (hn : n < nc.length), ∃ k,
      pos2indexDim .ieee (openAxis .ieee cellCentered nc[nc.length - 1 - n])
        (.fin (pos[n]'(by omega))) = some k ∧
      NearestUpTo nc[nc.length - 1 - n]
        ((2 * δ + nc[nc.length - 1 - n].size / 2 ^ 47) * |meanSpacing nc[nc.length - 1 - n]|)
        (pos[n]'(by omega)) k := by
    intro n hn
    have hm := hf nc[nc.length - 1 - n] (List.getElem_mem _)
    exact double_dim cellCentered _ _ δ hm.1 (hr n _ _ hn (by simp) (by simp)) hδ hm.2
  obtain ⟨idx, hidx⟩ : ∃ idx, pos2index .ieee (openAxes .ieee cellCentered nc)
      (pos.map .fin) = some idx := by
    unfold pos2index
    apply mapM_option_some
    intro i hi
    rw [hlen] at hi
    have hi' : i < nc.length := by simpa using hi
    obtain ⟨k, hk, _⟩ := key (nc.length - 1 - i) (by omega)
    refine ⟨k, ?_⟩
    rw [hlen]
    have e1 : (openAxes .ieee cellCentered nc)[i]? = some (openAxis .ieee cellCentered nc[i]) := by
      simp [openAxes, hi']
    have e2 : (pos.map Dbl.fin)[nc.length - i - 1]? =
        some (.fin (pos[nc.length - 1 - i]'(by omega))) := by
      rw [List.getElem?_map, show nc.length - i - 1 = nc.length - 1 - i by omega,
        List.getElem?_eq_getElem (by omega)]; rfl
    rw [e1, e2]
    have e3 : nc.length - 1 - (nc.length - 1 - i) = i := by omega
    simp only [e3] at hk
    exact hk
  obtain ⟨hl, hc⟩ := pos2index_component hidx
  rw [hlen] at hl hc
  have hel : ∀ n, n < nc.length → ∃ a p k,
        nc[nc.length - 1 - n]? = some a ∧ pos[n]? = some p ∧ idx[nc.length - 1 - n]? = some k ∧
        NearestUpTo a ((2 * δ + a.size / 2 ^ 47) * |meanSpacing a|) p k := by
    intro n hn
    obtain ⟨a, p, k, e1, e2, e3, e4⟩ := hc n hn
    obtain ⟨k', hk', hnear⟩ := key n hn
    have ea : a = openAxis .ieee cellCentered nc[nc.length - 1 - n] := by
      simp [openAxes] at e1
      obtain ⟨x, hx, rfl⟩ := e1
      rw [List.getElem?_eq_getElem (by omega)] at hx
      cases hx; rfl
    have ep : p = .fin (pos[n]'(by omega)) := by
      rw [List.getElem?_map, List.getElem?_eq_getElem (by omega)] at e2
      cases e2; rfl
    rw [ea, ep, hk'] at e4
    cases e4
    exact ⟨_, _, _, by simp, by simp, e3, hnear⟩
  refine ⟨idx, hidx, ?_, hel⟩
  apply inBox_of_getElem? (by simp [hl])
  intro i s k hs hk
  have hi : i < nc.length := by
    have := (List.getElem?_eq_some_iff.1 hs).1; simpa using this
  obtain ⟨a, p, k', e1, e2, e3, e4⟩ := hel (nc.length - 1 - i) (by omega)
  have : nc.length - 1 - (nc.length - 1 - i) = i := by omega
  rw [this] at e1 e3
  rw [hk] at e3; cases e3
  rw [List.getElem?_map, e1] at hs
  cases hs
  exact e4.1

/-- The example file meets the hypotheses of C59 with `δ = 0`; the position (3.6, 8.9) is selected as
in exact arithmetic. -/
example : (∀ a ∈ exFile, 0 < a.size ∧ AlmostUniform a 0) ∧
    (∀ n a p, n < exFile.length → exFile[exFile.length - 1 - n]? = some a →
      ([3.6, 8.9] : List ℚ)[n]? = some p → DoubleRange a p) ∧
    pos2index .ieee (openAxes .ieee false exFile) [.fin 3.6, .fin 8.9] = some [1, 4] := by
  have m1 : meanSpacing ⟨3, some fun i => 10 - 2 * i⟩ = -2 := by norm_num [meanSpacing, coord]
  have m2 : meanSpacing ⟨5, none⟩ = 1 := by norm_num [meanSpacing, coord]
  refine ⟨?_, ?_, by decide +kernel⟩
  · intro a ha
    simp only [exFile, List.mem_cons, List.not_mem_nil, or_false] at ha
    rcases ha with rfl | rfl
    · refine ⟨by decide, ?_⟩
      intro i _
      rw [m1]; simp [coord]; ring_nf
    · refine ⟨by decide, ?_⟩
      intro i _
      rw [m2]; simp [coord]
  · intro n a p hn ha _
    have : n = 0 ∨ n = 1 := by simp [exFile] at hn; omega
    rcases this with rfl | rfl
    · simp [exFile] at ha
      subst ha
      exact ⟨by norm_num, Or.inr ⟨by norm_num, by rw [m2]; decide +kernel, by rw [m2]; decide +kernel⟩⟩
    · simp [exFile] at ha
      subst ha
      exact ⟨by norm_num, Or.inr ⟨by norm_num, by rw [m1]; decide +kernel, by rw [m1]; decide +kernel⟩⟩

/-- The tolerance of C59 is needed: in binary64 arithmetic a getter may return a sample that is not the
nearest one. The position is the largest double below 1/2; adding 1/2 (`round`, level.h 409-412) rounds
up to 1, so sample 1 is selected although sample 0 is closer. -/
theorem C59_tolerance_needed :
    pos2index .ieee (openAxes .ieee false [⟨2, none⟩]) [.fin (1 / 2 - 1 / 2 ^ 54)] = some [1] ∧
      ieeeRnd (1 / 2 - 1 / 2 ^ 54) = .fin (1 / 2 - 1 / 2 ^ 54) ∧
      ¬ IsNearest ⟨2, none⟩ (1 / 2 - 1 / 2 ^ 54) 1 := by
  refine ⟨by decide +kernel, by decide +kernel, ?_⟩
  intro h
  have := (h.2 0 (by decide)).1
  simp only [coord] at this
  exact absurd this (by decide +kernel)

/-- **C60 (partial).** In binary64 arithmetic, for every file - also with constant or irregular
coordinates - and every finite position: if subtracting the first coordinate from the position does not
overflow and the mean spacing is zero or not below 2^-990, then the conversion to an integer is defined
and the index is valid. What is missing are overflowing differences and tiny spacings, for which the
claim is false (`C60_overflow_violated`, `C60_tiny_violated`). -/
theorem C60_defined_partial (cellCentered : Bool) (a : NcAxis) (p : ℚ) (h0 : 0 < a.size)
    (h1 : a.size ≤ 2 ^ 50) (hp : |p - coord a 0| < 2 ^ 1023)
    (hs : 2 ≤ a.size → meanSpacing a = 0 ∨ 1 / 2 ^ 990 ≤ |meanSpacing a|) :
    ∃ k, pos2indexDim .ieee (openAxis .ieee cellCentered a) (.fin p) = some k ∧ k < a.size := by
  suffices h : ∃ v, getInvScaling .ieee (a.getScaling .ieee) = .fin v by
    obtain ⟨v, hv⟩ := h
    exact defined_of_finite cellCentered a p v h0 h1 hp hv
  by_cases hone : a.size = 1
  · exact ⟨0, by simp [NcAxis.getScaling, hone, getInvScaling, Dbl.isInf]⟩
  have h2 : 2 ≤ a.size := by omega
  replace hs := hs h2
  have hint := (ieee_sizes h1).2
  have hsD : ∃ D, meanSpacing a = D / ((a.size - 1 : ℕ) : ℚ) ∧
      coord a (a.size - 1) - coord a 0 = D := ⟨_, rfl, rfl⟩
  obtain ⟨D, hsD, hD⟩ := hsD
  have hm1 : (1 : ℚ) ≤ ((a.size - 1 : ℕ) : ℚ) := by exact_mod_cast (by omega : 1 ≤ a.size - 1)
  unfold NcAxis.getScaling
  rw [if_neg hone, hint]
  unfold coord at hD
  rw [hsD] at hs
  generalize ((a.size - 1 : ℕ) : ℚ) = m at *
  have hm0 : m ≠ 0 := by linarith
  cases hc : a.coords with
  | none => exact ⟨1, show getInvScaling .ieee (.fin 1) = .fin 1 by decide +kernel⟩
  | some c =>
    simp only [hc] at hD
    have hsub : Fp.ieee.sub (.fin (c (a.size - 1))) (.fin (c 0)) = Fp.ieee.rnd D := by
      simp [Fp.sub, Dbl.neg, Fp.add, ← hD, sub_eq_add_neg]
    simp only [hsub]
    have hz : Fp.ieee.rnd 0 = .fin 0 := by decide +kernel
    rcases hs with hs | hs
    · have hD0 : D = 0 := by
        rcases div_eq_zero_iff.1 hs with h | h
        · exact h
        · exact absurd h hm0
      rw [hD0, hz]
      simp only [Fp.div, if_neg hm0, zero_div, hz]
      exact ⟨0, by simp [getInvScaling]⟩
    · have hD1 : |D / m| ≤ |D| := by
        rw [abs_div, abs_of_pos (lt_of_lt_of_le zero_lt_one hm1)]
        exact div_le_self (abs_nonneg _) hm1
      have hl : (1 : ℚ) / 2 ^ 1000 ≤ 1 / 2 ^ 990 := by decide +kernel
      have hl' : (1 : ℚ) / 2 ^ 1000 ≤ 1 / 2 ^ 990 / 2 := by decide +kernel
      rcases ieee_std.rel' (le_trans hl (le_trans hs hD1)) with ⟨e, he, hr⟩ | ⟨_, hr⟩
      · rw [hr]
        simp only [Fp.div, if_neg hm0]
        have hq : D * (1 + e) / m = D / m * (1 + e) := by ring
        rw [hq]
        obtain ⟨b1, b2⟩ := abs_mul_bounds (x := D / m) he (by norm_num)
        have hu2 : 1 / 2 ^ 990 / 2 ≤ |D / m| / 2 := div_le_div_of_nonneg_right hs (by norm_num)
        have hlow := le_trans hu2 b1
        rcases ieee_std.rel' (le_trans hl' hlow) with ⟨e', he', hr'⟩ | ⟨_, hr'⟩
        · rw [hr']
          obtain ⟨b1', _⟩ := abs_mul_bounds (x := D / m * (1 + e)) he' (by norm_num)
          have hu3 : 1 / 2 ^ 990 / 2 / 2 ≤ |D / m * (1 + e)| / 2 :=
            div_le_div_of_nonneg_right hlow (by norm_num)
          have hlow' := le_trans hu3 b1'
          generalize D / m * (1 + e) * (1 + e') = s at hlow' ⊢
          have hspos : 0 < |s| := lt_of_lt_of_le (by decide +kernel) hlow'
          have hs0 : s ≠ 0 := abs_pos.1 hspos
          unfold getInvScaling
          rw [if_neg (by simp [Dbl.isInf, hs0])]
          simp only [Fp.div, if_neg hs0]
          rcases ieee_std (1 / s) with ⟨v, hv, _⟩ | ⟨hb, _⟩
          · exact ⟨v, hv⟩
          · rw [abs_div, abs_one, le_div_iff₀ hspos] at hb
            have h3 : (1 : ℚ) < 2 ^ 1023 * (1 / 2 ^ 990 / 2 / 2) := by decide +kernel
            have h4 : (2 : ℚ) ^ 1023 * (1 / 2 ^ 990 / 2 / 2) ≤ 2 ^ 1023 * |s| :=
              mul_le_mul_of_nonneg_left hlow' (by positivity)
            exact absurd hb (not_le.2 (lt_of_lt_of_le h3 h4))
        · rw [hr']
          exact ⟨0, by simp [getInvScaling, Dbl.isInf]⟩
      · rw [hr]
        simp only [Fp.div, if_neg hm0]
        exact ⟨0, by simp [getInvScaling, Dbl.isInf]⟩

/-- The hypotheses of C60 hold for constant coordinates, e.g. three samples at 7: every position selects
sample 0. -/
example : meanSpacing ⟨3, some fun _ => 7⟩ = 0 ∧ |(100 : ℚ) - coord ⟨3, some fun _ => 7⟩ 0| < 2 ^ 1023 ∧
    pos2indexDim .ieee (openAxis .ieee true ⟨3, some fun _ => 7⟩) (.fin 100) = some 0 := by
  refine ⟨by norm_num [meanSpacing, coord], by simp only [coord]; decide +kernel, by decide +kernel⟩

/-- **C60 (violated).** A dimension with a single sample at -2^1023 and the finite position 2^1023 (both
are doubles): the difference overflows to infinity, infinity times zero is NaN, and the conversion of NaN
to an integer is undefined. -/
theorem C60_overflow_violated :
    pos2index .ieee (openAxes .ieee false [⟨1, some fun _ => -2 ^ 1023⟩]) [.fin (2 ^ 1023)] = none ∧
      ieeeRnd (2 ^ 1023) = .fin (2 ^ 1023) ∧ ieeeRnd (-2 ^ 1023) = .fin (-2 ^ 1023) := by
  refine ⟨by decide +kernel, by decide +kernel, by decide +kernel⟩

/-- **C60 (violated).** Two samples at 0 and 2^-1030 (a double): the inverse spacing overflows, and the
position 0, a sample of the file, gives zero times infinity, NaN. -/
theorem C60_tiny_violated :
    pos2index .ieee (openAxes .ieee false [⟨2, some fun i => i / 2 ^ 1030⟩]) [.fin 0] = none ∧
      ieeeRnd (1 / 2 ^ 1030) = .fin (1 / 2 ^ 1030) := by
  refine ⟨by decide +kernel, by decide +kernel⟩

end Asagi.Props
