import Verif.Props.SampleDouble
import Mathlib.Algebra.Order.Group.MinMax
/-
C77: positions computed from getMin and getDelta visit the samples one after the other.
-/
namespace Asagi.Props
open Asagi Asagi.Spec

theorem kthSample_lt {a : NcAxis} {k : Nat} (hk : k < a.size) : kthSample a k < a.size := by
  unfold kthSample; split <;> omega

theorem getMin_openAxes (fp : Fp) (cc : Bool) (nc : List NcAxis) {n : Nat} {a : NcAxis}
    (hn : n < nc.length) (ha : nc[nc.length - 1 - n]? = some a) :
    getMin (openAxes fp cc nc) n = some (openAxis fp cc a).min ∧
    getMax (openAxes fp cc nc) n = some (openAxis fp cc a).max ∧
    getDelta (openAxes fp cc nc) n = some (openAxis fp cc a).scaling := by
  have : nc.length - n - 1 = nc.length - 1 - n := by omega
  simp [getMin, getMax, getDelta, openAxes, hn, this, ha]

/-! ### Exact arithmetic -/

theorem isNearest_of_close {a : NcAxis} {s p : ℚ} {i k : Nat} (hu : Uniform a s) (hi : i < a.size)
    (hc : |p - coord a i| < |s| / 2) (hk : IsNearest a p k) : k = i := by
  by_contra hne
  have h1 := (hk.2 i hi).1
  have h2 := hu.2 i hi
  have h3 := hu.2 k hk.1
  have hki : (1 : ℚ) ≤ |(k : ℚ) - i| := by
    have : (1 : ℤ) ≤ |(k : ℤ) - i| := Int.one_le_abs (by omega)
    exact_mod_cast this
  have e1 : ((k : ℚ) - i) * s = (coord a k - p) + (p - coord a i) := by rw [h2, h3]; ring
  have e2 : |(k : ℚ) - i| * |s| ≤ |coord a k - p| + |p - coord a i| := by
    rw [← abs_mul, e1]; exact abs_add_le _ _
  rw [abs_sub_comm (coord a k) p] at e2
  have e3 : |s| ≤ |(k : ℚ) - i| * |s| := le_mul_of_one_le_left (abs_nonneg _) hki
  linarith

theorem uniform_meanSpacing {a : NcAxis} {s : ℚ} (h2 : 2 ≤ a.size) (hu : Uniform a s) :
    meanSpacing a = s := by
  have hm : (1 : ℚ) ≤ ((a.size - 1 : ℕ) : ℚ) := by exact_mod_cast (by omega : 1 ≤ a.size - 1)
  unfold meanSpacing
  rw [hu.2 (a.size - 1) (by omega)]
  field_simp; ring

/-- The `k`-th smallest coordinate of equidistant samples. -/
theorem coord_kthSample {a : NcAxis} {s : ℚ} (h2 : 2 ≤ a.size) (hu : Uniform a s) {k : Nat}
    (hk : k < a.size) :
    coord a (kthSample a k) = min (coord a 0) (coord a (a.size - 1)) + k * |s| := by
  have hm : (1 : ℚ) ≤ ((a.size - 1 : ℕ) : ℚ) := by exact_mod_cast (by omega : 1 ≤ a.size - 1)
  have hl := hu.2 (a.size - 1) (by omega)
  unfold kthSample
  split
  · rename_i h
    have hs : 0 < s := by
      rcases lt_or_gt_of_ne hu.1 with h' | h'
      · nlinarith
      · exact h'
    rw [hu.2 k hk, min_eq_left h, abs_of_pos hs]
  · rename_i h
    have hs : s < 0 := by
      rcases lt_or_gt_of_ne hu.1 with h' | h'
      · exact h'
      · nlinarith
    have hsub : ((a.size - 1 - k : ℕ) : ℚ) = ((a.size - 1 : ℕ) : ℚ) - k :=
      Nat.cast_sub (by omega)
    rw [hu.2 (a.size - 1 - k) (by omega), min_eq_right (le_of_lt (not_le.1 h)), abs_of_neg hs, hl, hsub]
    ring

theorem walk_exact_dim (cc : Bool) (nc : List NcAxis) (n : Nat) (a : NcAxis) (hn : n < nc.length)
    (ha : nc[nc.length - 1 - n]? = some a) (h2 : 2 ≤ a.size) (h64 : a.size < 2 ^ 64) (hr : Regular a)
    (k : Nat) (hk : k < a.size) :
    ∃ p, walkPos .exact cc (openAxis .exact cc a).min (openAxis .exact cc a).scaling k = .fin p ∧
      pos2indexDim .exact (openAxis .exact cc a) (.fin p) = some (kthSample a k) := by
  obtain ⟨s, hu⟩ := hr
  obtain ⟨mn, mx, dl, e1, -, e3, -, h0, hd, hmn, -⟩ := C02_range_not_clamped cc nc n a s hn ha h2 h64 hu
  obtain ⟨g1, -, g3⟩ := getMin_openAxes .exact cc nc hn ha
  rw [g1] at e1; rw [g3] at e3
  injection e1 with e1; injection e3 with e3
  rw [e1, e3]
  have hdl : dl = |s| := by
    rw [← hd 0 (by omega), hu.2 1 (by omega)]; simp
  refine ⟨mn + (k + if cc then 1 / 2 else 0) * dl, ?_, ?_⟩
  · cases cc <;> simp [walkPos, Fp.add, Fp.mul, Fp.ofNat, Fp.exact]
  · obtain ⟨k', hk', hn'⟩ := pos2indexDim_nearest cc a s (mn + (k + if cc then 1 / 2 else 0) * dl) h2 h64 hu
    rw [hk', isNearest_of_close hu (kthSample_lt hk) ?_ hn']
    have hs : 0 < |s| := abs_pos.2 hu.1
    rw [coord_kthSample h2 hu hk, hmn, hdl]
    cases cc
    · simp; exact hu.1
    · rw [show min (coord a 0) (coord a (a.size - 1)) - (if true then |s| * (1 / 2 - 1 / 10 ^ 10) else 0) +
        (k + if true then 1 / 2 else 0) * |s| - (min (coord a 0) (coord a (a.size - 1)) + k * |s|) =
        |s| * (1 / 10 ^ 10) by simp; ring]
      rw [abs_of_pos (by positivity)]
      nlinarith

theorem pos2index_of_components {fp : Fp} {axes : List Axis} {pos : List Dbl} {idx : List Nat}
    (hl : idx.length = axes.length)
    (h : ∀ n, n < axes.length → ∃ a p k, axes[axes.length - 1 - n]? = some a ∧ pos[n]? = some p ∧
      idx[axes.length - 1 - n]? = some k ∧ pos2indexDim fp a p = some k) :
    pos2index fp axes pos = some idx := by
  have key : ∀ i, i < axes.length → ((do
      let a ← axes[i]?
      let p ← pos[axes.length - i - 1]?
      pos2indexDim fp a p) : Option Nat) = idx[i]? := by
    intro i hi
    obtain ⟨a, p, k, h1, h2, h3, h4⟩ := h (axes.length - i - 1) (by omega)
    have : axes.length - 1 - (axes.length - i - 1) = i := by omega
    rw [this] at h1 h3
    simp [h1, h2, h3, h4]
  obtain ⟨idx', hidx⟩ : ∃ idx', pos2index fp axes pos = some idx' := by
    unfold pos2index
    apply mapM_option_some
    intro i hi
    have hi : i < axes.length := by simpa using hi
    rw [key i hi]
    exact ⟨idx[i], by simp⟩
  rw [hidx]
  have hs := mapM_option_spec _ _ _ hidx
  congr 1
  apply List.ext_getElem?
  intro i
  by_cases hi : i < axes.length
  · obtain ⟨k', hk', hn'⟩ := hs.2 i i (by simp [hi])
    rw [hn', ← hk', key i hi]
  · rw [List.getElem?_eq_none (by rw [hs.1]; simp; omega), List.getElem?_eq_none (by omega)]

/-- An application walks through the grid: in each dimension with several samples it takes the position
for the `k`-th sample, computed from `getMin` and `getDelta`; in the others any number. -/
def WalkPosition (fp : Fp) (cellCentered : Bool) (nc : List NcAxis) (ks : List Nat) (pos : List Dbl) : Prop :=
  ks.length = nc.length ∧ pos.length = nc.length ∧
  ∀ n a k, n < nc.length → nc[nc.length - 1 - n]? = some a → ks[n]? = some k → k < a.size ∧
    if a.size = 1 then ∃ q : ℚ, pos[n]? = some (.fin q) ∧ |q - coord a 0| < 2 ^ 1023
    else ∃ mn dl, getMin (openAxes fp cellCentered nc) n = some mn ∧
      getDelta (openAxes fp cellCentered nc) n = some dl ∧
      pos[n]? = some (walkPos fp cellCentered mn dl k)

/-- The index of the sample that the application wants to read: in dimension `n` of the API, the one with
the `ks[n]`-th smallest coordinate. -/
def WalkSelects (nc : List NcAxis) (ks idx : List Nat) : Prop :=
  idx.length = nc.length ∧ ∀ n a k, n < nc.length → nc[nc.length - 1 - n]? = some a → ks[n]? = some k →
    idx[nc.length - 1 - n]? = some (kthSample a k)

theorem walk_lift (fp : Fp) (cc : Bool) (nc : List NcAxis) (ks : List Nat) (pos : List Dbl)
    (hw : WalkPosition fp cc nc ks pos)
    (h1 : ∀ n a q, n < nc.length → nc[nc.length - 1 - n]? = some a → a.size = 1 → |q - coord a 0| < 2 ^ 1023 →
      pos2indexDim fp (openAxis fp cc a) (.fin q) = some 0)
    (h2 : ∀ n a k, n < nc.length → nc[nc.length - 1 - n]? = some a → k < a.size → a.size ≠ 1 →
      ∃ p, walkPos fp cc (openAxis fp cc a).min (openAxis fp cc a).scaling k = .fin p ∧
      pos2indexDim fp (openAxis fp cc a) (.fin p) = some (kthSample a k)) :
    ∃ idx, pos2index fp (openAxes fp cc nc) pos = some idx ∧ WalkSelects nc ks idx := by
  obtain ⟨hk, hp, hw⟩ := hw
  have hlen : (openAxes fp cc nc).length = nc.length := by simp [openAxes]
  refine ⟨List.zipWith kthSample nc ks.reverse, ?_, by simp [hk], ?_⟩
  · apply pos2index_of_components (by simp [hk, hlen])
    rw [hlen]
    intro n hn
    obtain ⟨a, ha⟩ : ∃ a, nc[nc.length - 1 - n]? = some a := ⟨nc[nc.length - 1 - n], by simp⟩
    obtain ⟨k, hkn⟩ : ∃ k, ks[n]? = some k := ⟨ks[n], by simp⟩
    have hkr : ks.reverse[nc.length - 1 - n]? = some k := by
      rw [List.getElem?_reverse (by omega), hk, ← hkn]; congr 1; omega
    obtain ⟨q1, q2⟩ := hw n a k hn ha hkn
    have ea : (openAxes fp cc nc)[nc.length - 1 - n]? = some (openAxis fp cc a) := by
      simp [openAxes, ha]
    have ei : (List.zipWith kthSample nc ks.reverse)[nc.length - 1 - n]? = some (kthSample a k) := by
      simp [List.getElem?_zipWith, ha, hkr]
    split at q2
    · rename_i hone
      obtain ⟨q, hq, hb⟩ := q2
      refine ⟨_, _, _, ea, hq, ei, ?_⟩
      rw [h1 n a q hn ha hone hb]
      have := kthSample_lt q1
      congr 1; omega
    · rename_i hone
      obtain ⟨mn, dl, g1, g3, hpn⟩ := q2
      obtain ⟨e1, -, e3⟩ := getMin_openAxes fp cc nc hn ha
      rw [e1] at g1; rw [e3] at g3
      cases g1; cases g3
      obtain ⟨p, w1, w2⟩ := h2 n a k hn ha q1 hone
      exact ⟨_, _, _, ea, hpn, ei, by rw [w1]; exact w2⟩
  · intro n a k hn ha hkn
    have hkr : ks.reverse[nc.length - 1 - n]? = some k := by
      rw [List.getElem?_reverse (by omega), hk, ← hkn]; congr 1; omega
    simp [List.getElem?_zipWith, ha, hkr]

/-- **C77.** In exact arithmetic, for every file with equidistant samples: the positions
`getMin(n) + k * getDelta(n)` (in cell-centered grids `getMin(n) + (k + 0.5) * getDelta(n)`) select the
sample with the `k`-th smallest coordinate, in every dimension. -/
theorem C77_walk (cellCentered : Bool) (nc : List NcAxis) (hf : RegularFile nc) (ks : List Nat)
    (pos : List Dbl) (hw : WalkPosition .exact cellCentered nc ks pos) :
    ∃ idx, pos2index .exact (openAxes .exact cellCentered nc) pos = some idx ∧ WalkSelects nc ks idx := by
  apply walk_lift _ _ _ _ _ hw
  · intro n a q _ _ h1 _
    exact pos2indexDim_single _ a q h1
  · intro n a k hn ha hk h1
    obtain ⟨f1, f2, f3⟩ := hf.2 a (List.mem_of_getElem? ha)
    exact walk_exact_dim cellCentered nc n a hn ha (by omega) f2 f3 k hk

/-! ### Double arithmetic -/

/-- Rounding error relative to a unit `S`. -/
theorem rnd_near {fp : Fp} (hfp : fp.Std) {S B q : ℚ} (hS1 : 1 / 2 ^ 900 ≤ S) (hS2 : S ≤ 2 ^ 900)
    (hB1 : 1 ≤ B) (hB2 : B ≤ 2 ^ 60) (hq : |q| ≤ B * S) :
    ∃ r, fp.rnd q = .fin r ∧ |r - q| ≤ B / 2 ^ 52 * S := by
  rcases hfp q with ⟨r, hr, he⟩ | ⟨h, _⟩
  · refine ⟨r, hr, le_trans he ?_⟩
    have h1 : (1 : ℚ) / 2 ^ 53 * |q| ≤ 1 / 2 ^ 53 * (B * S) := mul_le_mul_of_nonneg_left hq (by positivity)
    have h2 : (1 : ℚ) / 2 ^ 1075 ≤ 1 / 2 ^ 53 * (1 / 2 ^ 900) := by decide +kernel
    have h3 : (1 : ℚ) / 2 ^ 53 * (1 / 2 ^ 900) ≤ 1 / 2 ^ 53 * S := mul_le_mul_of_nonneg_left hS1 (by positivity)
    have hS0 : 0 ≤ S := le_trans (by positivity) hS1
    have h4 : (1 : ℚ) / 2 ^ 53 * S ≤ 1 / 2 ^ 53 * (B * S) :=
      mul_le_mul_of_nonneg_left (le_mul_of_one_le_left hS0 hB1) (by positivity)
    have h5 : B / 2 ^ 52 * S = 1 / 2 ^ 53 * (B * S) + 1 / 2 ^ 53 * (B * S) := by ring
    rw [h5]
    exact add_le_add h1 (le_trans h2 (le_trans h3 h4))
  · exfalso
    have : B * S ≤ 2 ^ 60 * 2 ^ 900 := mul_le_mul hB2 hS2 (le_trans (by positivity) hS1) (by positivity)
    have h6 : (2 : ℚ) ^ 60 * 2 ^ 900 < 2 ^ 1023 := by decide +kernel
    exact absurd (le_trans h (le_trans hq this)) (not_le.2 h6)

theorem dbl_min_fin (x y : ℚ) : Dbl.min (.fin x) (.fin y) = .fin (min x y) := by
  simp only [Dbl.min, Dbl.lt, decide_eq_true_eq, min_def]
  split_ifs <;> first | rfl | (congr 1; linarith)

theorem dbl_max_fin (x y : ℚ) : Dbl.max (.fin x) (.fin y) = .fin (max x y) := by
  simp only [Dbl.max, Dbl.lt, decide_eq_true_eq, max_def]
  split_ifs <;> first | rfl | (congr 1; linarith)

theorem fp_sub_fin (fp : Fp) (x y : ℚ) : fp.sub (.fin x) (.fin y) = fp.rnd (x - y) := by
  simp [Fp.sub, Dbl.neg, Fp.add, sub_eq_add_neg]

theorem half_near : ∃ v : ℚ, Fp.ieee.sub (.fin (1 / 2)) (Fp.ieee.rnd numericPrecision) = .fin v ∧
    |v - 1 / 2| ≤ 1 / 2 ^ 30 := by
  obtain ⟨r, hr, he⟩ := rnd_near ieee_std (S := 1) (B := 1) (q := numericPrecision) (by decide +kernel)
    (by decide +kernel) le_rfl (by norm_num) (by unfold numericPrecision; norm_num)
  rw [hr, fp_sub_fin]
  unfold numericPrecision at he
  have h1 := abs_le.1 he
  norm_num at h1
  obtain ⟨v, hv, he2⟩ := rnd_near ieee_std (S := 1) (B := 1) (q := 1 / 2 - r) (by decide +kernel)
    (by decide +kernel) le_rfl (by norm_num) (by rw [abs_le]; constructor <;> linarith)
  refine ⟨v, hv, ?_⟩
  have h2 := abs_le.1 he2
  norm_num at h2
  rw [abs_le]
  constructor <;> norm_num <;> linarith

/-- The two candidates for the outermost coordinate, in either order. -/
theorem edges_min {c s m : ℚ} (hm : 0 ≤ m) :
    min (c - s / 2) (c + m * s + s / 2) = min c (c + m * s) - |s| / 2 ∧
    max (c - s / 2) (c + m * s + s / 2) = max c (c + m * s) + |s| / 2 := by
  rcases le_total 0 s with h | h
  · have : 0 ≤ m * s := mul_nonneg hm h
    rw [abs_of_nonneg h, min_eq_left (by linarith), min_eq_left (by linarith), max_eq_right (by linarith),
      max_eq_right (by linarith)]
    exact ⟨rfl, rfl⟩
  · have : m * s ≤ 0 := mul_nonpos_of_nonneg_of_nonpos hm h
    rw [abs_of_nonpos h, min_eq_right (by linarith), min_eq_right (by linarith), max_eq_left (by linarith),
      max_eq_left (by linarith)]
    constructor <;> ring

/-- The range and the spacing that the library reports in binary64 arithmetic. -/
theorem openAxis_accurate (cc : Bool) (a : NcAxis) (h2 : 2 ≤ a.size) (hn : a.size ≤ 2 ^ 45)
    (hs1 : 1 / 2 ^ 900 ≤ |meanSpacing a|) (hs2 : |meanSpacing a| ≤ 2 ^ 900) (hm : ModestCoords a) :
    ∃ mn mx dl : ℚ, (openAxis .ieee cc a).min = .fin mn ∧ (openAxis .ieee cc a).max = .fin mx ∧
      (openAxis .ieee cc a).scaling = .fin dl ∧
      |mn - lowerEdge cc a| ≤ |meanSpacing a| / 2 ^ 7 ∧ |mx - upperEdge cc a| ≤ |meanSpacing a| / 2 ^ 7 ∧
      abs (dl - |meanSpacing a|) ≤ 5 / 2 ^ 53 * |meanSpacing a| := by
  have hn' : a.size ≤ 2 ^ 50 := le_trans hn (by norm_num)
  obtain ⟨e, he, hsc⟩ := scaling_accurate ieee_std a h2 (ieee_sizes hn').2 hn' hs1 hs2
  have hlast : coord a (a.size - 1) = coord a 0 + ((a.size - 1 : ℕ) : ℚ) * meanSpacing a := by
    have hm : (1 : ℚ) ≤ ((a.size - 1 : ℕ) : ℚ) := by exact_mod_cast (by omega : 1 ≤ a.size - 1)
    unfold meanSpacing; field_simp; ring
  have hm1 : (1 : ℚ) ≤ ((a.size - 1 : ℕ) : ℚ) := by exact_mod_cast (by omega : 1 ≤ a.size - 1)
  obtain ⟨v, hv, hv2⟩ := half_near
  unfold openAxis
  simp only [hsc, Dbl.isInf, Bool.false_eq_true, if_false, getOffset_coord, (ieee_sizes hn').2, Dbl.abs, hv]
  unfold lowerEdge upperEdge
  unfold ModestCoords at hm
  rw [hlast] at hm ⊢
  generalize ((a.size - 1 : ℕ) : ℚ) = m at *
  generalize meanSpacing a = s at *
  generalize coord a 0 = c at *
  obtain ⟨S, hS⟩ : ∃ S, S = |s| := ⟨_, rfl⟩
  rw [← hS] at hs1 hs2 hm ⊢
  have hS0 : 0 < S := lt_of_lt_of_le (by positivity) hs1
  have hms : |m * s| ≤ 2 ^ 41 * S := by
    have := abs_sub (c + m * s) c
    rw [show c + m * s - c = m * s by ring] at this
    linarith [hm.1, hm.2]
  obtain ⟨p1, p2⟩ := one_add_bounds he (by norm_num)
  have heS : |s * e| ≤ 5 / 2 ^ 53 * S := by
    rw [abs_mul, ← hS, mul_comm]; exact mul_le_mul_of_nonneg_right he hS0.le
  have hems : |m * s * e| ≤ 5 / 2 ^ 12 * S := by
    rw [abs_mul]
    have := mul_le_mul hms he (abs_nonneg _) (by positivity)
    linarith
  -- the product
  obtain ⟨r1, hr1, he1⟩ := rnd_near ieee_std hs1 hs2 (B := 2 ^ 42) (q := s * (1 + e) * m) (by norm_num)
    (by norm_num) (by
      rw [show s * (1 + e) * m = m * s + m * s * e by ring]
      have := abs_add_le (m * s) (m * s * e)
      linarith)
  have he1' : |r1 - m * s| ≤ 3 / 2 ^ 10 * S := by
    rw [show r1 - m * s = (r1 - s * (1 + e) * m) + m * s * e by ring]
    have := abs_add_le (r1 - s * (1 + e) * m) (m * s * e)
    linarith
  obtain ⟨r2, hr2, he2⟩ := rnd_near ieee_std hs1 hs2 (B := 2 ^ 41) (q := c + r1) (by norm_num)
    (by norm_num) (by
      rw [show c + r1 = (c + m * s) + (r1 - m * s) by ring]
      have := abs_add_le (c + m * s) (r1 - m * s)
      linarith [hm.2])
  have he2' : |r2 - (c + m * s)| ≤ 4 / 2 ^ 10 * S := by
    rw [show r2 - (c + m * s) = (r2 - (c + r1)) + (r1 - m * s) by ring]
    have := abs_add_le (r2 - (c + r1)) (r1 - m * s)
    linarith
  have hmax : Fp.ieee.add (.fin c) (Fp.ieee.mul (.fin (s * (1 + e))) (.fin m)) = .fin r2 := by
    simp only [Fp.mul, hr1, Fp.add, hr2]
  rw [hmax]
  have hdl : |s * (1 + e)| = S * (1 + e) := by
    rw [abs_mul, hS, abs_of_pos (by linarith : 0 < 1 + e)]
  have hdd : abs (|s * (1 + e)| - S) ≤ 5 / 2 ^ 53 * S := by
    rw [hdl, show S * (1 + e) - S = S * e by ring, abs_mul, abs_of_pos hS0, mul_comm]
    exact mul_le_mul_of_nonneg_right he hS0.le
  cases cc with
  | false =>
    simp only [Bool.false_eq_true, if_false, dbl_min_fin, dbl_max_fin, sub_zero, add_zero]
    refine ⟨_, _, _, rfl, rfl, rfl, ?_, ?_, hdd⟩
    · have h := abs_min_sub_min_le_max c r2 c (c + m * s)
      refine le_trans h (max_le ?_ ?_)
      · rw [sub_self, abs_zero]; positivity
      · linarith
    · have h := abs_max_sub_max_le_max c r2 c (c + m * s)
      refine le_trans h (max_le ?_ ?_)
      · rw [sub_self, abs_zero]; positivity
      · linarith
  | true =>
    have hsv : |s * v - s / 2| ≤ 1 / 2 ^ 30 * S := by
      rw [show s * v - s / 2 = s * (v - 1 / 2) by ring, abs_mul, ← hS, mul_comm]
      exact mul_le_mul_of_nonneg_right hv2 hS0.le
    have hv3 : |v| ≤ 1 := by
      have := abs_le.1 hv2
      norm_num at this
      rw [abs_le]; constructor <;> linarith
    have hsev : |s * e * v| ≤ 5 / 2 ^ 53 * S := by
      rw [abs_mul]
      have := mul_le_mul heS hv3 (abs_nonneg _) (by positivity)
      linarith
    have hq : |s * (1 + e) * v - s / 2| ≤ 1 / 2 ^ 29 * S := by
      rw [show s * (1 + e) * v - s / 2 = (s * v - s / 2) + s * e * v by ring]
      have := abs_add_le (s * v - s / 2) (s * e * v)
      linarith
    have hs2' : |s / 2| = S / 2 := by rw [abs_div, ← hS]; norm_num
    obtain ⟨h, hh, heh⟩ := rnd_near ieee_std hs1 hs2 (B := 1) (q := s * (1 + e) * v) le_rfl
      (by norm_num) (by
        have := abs_add_le (s * (1 + e) * v - s / 2) (s / 2)
        rw [show s * (1 + e) * v - s / 2 + s / 2 = s * (1 + e) * v by ring] at this
        linarith)
    have heh' : |h - s / 2| ≤ 1 / 2 ^ 28 * S := by
      rw [show h - s / 2 = (h - s * (1 + e) * v) + (s * (1 + e) * v - s / 2) by ring]
      have := abs_add_le (h - s * (1 + e) * v) (s * (1 + e) * v - s / 2)
      linarith
    obtain ⟨lo, hlo, helo⟩ := rnd_near ieee_std hs1 hs2 (B := 2 ^ 41) (q := c - h) (by norm_num)
      (by norm_num) (by
        have h1 := abs_sub c h
        have h2 := abs_add_le (h - s / 2) (s / 2)
        rw [show h - s / 2 + s / 2 = h by ring] at h2
        linarith [hm.1])
    obtain ⟨hi, hhi, hehi⟩ := rnd_near ieee_std hs1 hs2 (B := 2 ^ 41) (q := r2 + h) (by norm_num)
      (by norm_num) (by
        have h1 := abs_add_le r2 h
        have h2 := abs_add_le (h - s / 2) (s / 2)
        rw [show h - s / 2 + s / 2 = h by ring] at h2
        have h3 := abs_add_le (r2 - (c + m * s)) (c + m * s)
        rw [show r2 - (c + m * s) + (c + m * s) = r2 by ring] at h3
        linarith [hm.2])
    have a1 : |lo - (c - s / 2)| ≤ S / 2 ^ 7 := by
      rw [show lo - (c - s / 2) = (lo - (c - h)) - (h - s / 2) by ring]
      have := abs_sub (lo - (c - h)) (h - s / 2)
      linarith
    have a2 : |hi - (c + m * s + s / 2)| ≤ S / 2 ^ 7 := by
      rw [show hi - (c + m * s + s / 2) = (hi - (r2 + h)) + ((r2 - (c + m * s)) + (h - s / 2)) by ring]
      have h1 := abs_add_le (hi - (r2 + h)) ((r2 - (c + m * s)) + (h - s / 2))
      have h2 := abs_add_le (r2 - (c + m * s)) (h - s / 2)
      linarith
    have hmul : Fp.ieee.mul (.fin (s * (1 + e))) (.fin v) = .fin h := by simp only [Fp.mul, hh]
    have hadd : Fp.ieee.add (.fin r2) (.fin h) = .fin hi := by simp only [Fp.add, hhi]
    simp only [if_true, hmul, fp_sub_fin, hlo, hadd, dbl_min_fin, dbl_max_fin]
    obtain ⟨em1, em2⟩ := edges_min (c := c) (s := s) (m := m) (by linarith)
    rw [hS, ← em1, ← em2, ← hS]
    refine ⟨_, _, _, rfl, rfl, rfl, ?_, ?_, hdd⟩
    · exact le_trans (abs_min_sub_min_le_max _ _ _ _) (max_le a1 a2)
    · exact le_trans (abs_max_sub_max_le_max _ _ _ _) (max_le a1 a2)

theorem coord_kthSample_almost {a : NcAxis} {δ : ℚ} (h2 : 2 ≤ a.size) (hu : AlmostUniform a δ)
    (hs0 : meanSpacing a ≠ 0) {k : Nat} (hk : k < a.size) :
    |coord a (kthSample a k) - (min (coord a 0) (coord a (a.size - 1)) + k * |meanSpacing a|)| ≤
      δ * |meanSpacing a| := by
  have hm : (1 : ℚ) ≤ ((a.size - 1 : ℕ) : ℚ) := by exact_mod_cast (by omega : 1 ≤ a.size - 1)
  have hl : coord a (a.size - 1) = coord a 0 + ((a.size - 1 : ℕ) : ℚ) * meanSpacing a := by
    unfold meanSpacing; field_simp; ring
  unfold kthSample
  split
  · rename_i h
    have hs : 0 < meanSpacing a := by
      rcases lt_or_gt_of_ne hs0 with h' | h'
      · nlinarith
      · exact h'
    have := hu k hk
    rw [min_eq_left h]
    rwa [abs_of_pos hs] at this ⊢
  · rename_i h
    have hs : meanSpacing a < 0 := by
      rcases lt_or_gt_of_ne hs0 with h' | h'
      · exact h'
      · nlinarith
    have hsub : ((a.size - 1 - k : ℕ) : ℚ) = ((a.size - 1 : ℕ) : ℚ) - k :=
      Nat.cast_sub (by omega)
    have := hu (a.size - 1 - k) (by omega)
    rw [hsub] at this
    rw [min_eq_right (le_of_lt (not_le.1 h)), hl]
    rw [abs_of_neg hs] at this ⊢
    rwa [show coord a 0 + ((a.size - 1 : ℕ) : ℚ) * meanSpacing a + k * -meanSpacing a =
      coord a 0 + (((a.size - 1 : ℕ) : ℚ) - k) * meanSpacing a by ring]

theorem walk_double_dim (cc : Bool) (a : NcAxis) (h2 : 2 ≤ a.size) (hn : a.size ≤ 2 ^ 45)
    (hu : AlmostUniform a (1 / 8)) (hs1 : 1 / 2 ^ 900 ≤ |meanSpacing a|) (hs2 : |meanSpacing a| ≤ 2 ^ 900)
    (hm : ModestCoords a) (k : Nat) (hk : k < a.size) :
    ∃ p, walkPos .ieee cc (openAxis .ieee cc a).min (openAxis .ieee cc a).scaling k = .fin p ∧
      pos2indexDim .ieee (openAxis .ieee cc a) (.fin p) = some (kthSample a k) := by
  obtain ⟨mn, mx, dl, e1, -, e3, d1, -, d3⟩ := openAxis_accurate cc a h2 hn hs1 hs2 hm
  rw [e1, e3]
  obtain ⟨S, hS⟩ : ∃ S, S = |meanSpacing a| := ⟨_, rfl⟩
  have hk45 : k < 2 ^ 53 := by have : (2 : ℕ) ^ 45 < 2 ^ 53 := by norm_num
                               omega
  have hS0 : 0 < S := by rw [hS]; exact lt_of_lt_of_le (by positivity) hs1
  have hs0 : meanSpacing a ≠ 0 := by rw [hS] at hS0; exact abs_pos.1 hS0
  have hm1 : (1 : ℚ) ≤ ((a.size - 1 : ℕ) : ℚ) := by exact_mod_cast (by omega : 1 ≤ a.size - 1)
  have hl : coord a (a.size - 1) = coord a 0 + ((a.size - 1 : ℕ) : ℚ) * meanSpacing a := by
    unfold meanSpacing; field_simp; ring
  have hsize : ((a.size - 1 : ℕ) : ℚ) ≤ 2 ^ 41 := by
    have h3 := abs_sub (coord a (a.size - 1)) (coord a 0)
    rw [hl, show coord a 0 + ((a.size - 1 : ℕ) : ℚ) * meanSpacing a - coord a 0 =
      ((a.size - 1 : ℕ) : ℚ) * meanSpacing a by ring, abs_mul, ← hl, ← hS,
      abs_of_nonneg (by linarith : (0 : ℚ) ≤ ((a.size - 1 : ℕ) : ℚ))] at h3
    have h4 := hm.1; have h5 := hm.2
    rw [← hS] at h4 h5
    have : ((a.size - 1 : ℕ) : ℚ) * S ≤ 2 ^ 41 * S := by linarith
    exact le_of_mul_le_mul_right this hS0
  have hkq : (k : ℚ) ≤ ((a.size - 1 : ℕ) : ℚ) := by exact_mod_cast (by omega : k ≤ a.size - 1)
  have hk0 : (0 : ℚ) ≤ k := Nat.cast_nonneg k
  have hsz : (a.size : ℚ) ≤ 2 ^ 41 + 1 := by
    have : (a.size : ℚ) = ((a.size - 1 : ℕ) : ℚ) + 1 := by exact_mod_cast (by omega : a.size = a.size - 1 + 1)
    linarith
  -- the factor
  obtain ⟨h, hh⟩ : ∃ h : ℚ, h = if cc then 1 / 2 else 0 := ⟨_, rfl⟩
  have hh01 : 0 ≤ h ∧ h ≤ 1 / 2 := by rw [hh]; split <;> norm_num
  obtain ⟨kk, hkk, hke⟩ : ∃ kk, (if cc then Fp.ieee.add (Fp.ieee.ofNat k) (.fin (1 / 2)) else Fp.ieee.ofNat k) =
      .fin kk ∧ |kk - (k + h)| ≤ 1 / 2 ^ 10 := by
    rw [ieee_ofNat k hk45]
    cases cc with
    | false => exact ⟨k, rfl, by simp [hh]⟩
    | true =>
      simp only [if_true] at hh ⊢
      obtain ⟨r, hr, he⟩ := rnd_near ieee_std (S := 1) (B := 2 ^ 42) (q := k + 1 / 2) (by decide +kernel)
        (by decide +kernel) (by norm_num) (by norm_num) (by
          rw [abs_of_nonneg (by linarith)]; linarith)
      refine ⟨r, by simp only [Fp.add, hr], ?_⟩
      rw [hh]
      norm_num at he ⊢
      exact he
  unfold walkPos
  rw [hkk]
  have hlow : lowerEdge cc a = min (coord a 0) (coord a (a.size - 1)) - h * S := by
    unfold lowerEdge; rw [hh, ← hS]; cases cc <;> (simp; try ring)
  rw [hlow, ← hS] at d1
  rw [← hS] at d3
  have hmin : |min (coord a 0) (coord a (a.size - 1))| ≤ 2 ^ 40 * S := by
    have h4 := hm.1; have h5 := hm.2
    rw [← hS] at h4 h5
    rcases min_choice (coord a 0) (coord a (a.size - 1)) with h | h <;> rw [h] <;> assumption
  have hcl := coord_kthSample_almost h2 hu hs0 hk
  rw [← hS] at hcl
  have hs1' : 1 / 2 ^ 900 ≤ S := by rw [hS]; exact hs1
  have hs2' : S ≤ 2 ^ 900 := by rw [hS]; exact hs2
  have hkS : (k : ℚ) * S ≤ 2 ^ 41 * S := mul_le_mul_of_nonneg_right (le_trans hkq hsize) hS0.le
  have hkS0 : 0 ≤ (k : ℚ) * S := mul_nonneg hk0 hS0.le
  have hhS : h * S ≤ 1 / 2 * S := mul_le_mul_of_nonneg_right hh01.2 hS0.le
  have hhS0 : 0 ≤ h * S := mul_nonneg hh01.1 hS0.le
  have hKS : (k + h) * S = k * S + h * S := add_mul _ _ _
  -- the product
  have hprod : |kk * dl - (k + h) * S| ≤ 4 / 2 ^ 10 * S := by
    rw [show kk * dl - (k + h) * S = (kk - (k + h)) * dl + (k + h) * (dl - S) by ring]
    have t1 := abs_add_le ((kk - (k + h)) * dl) ((k + h) * (dl - S))
    rw [abs_mul, abs_mul] at t1
    have t2 : |dl| ≤ 2 * S := by
      have := abs_add_le (dl - S) S
      rw [show dl - S + S = dl by ring, abs_of_pos hS0] at this
      linarith
    have t3 := mul_le_mul hke t2 (abs_nonneg _) (by norm_num)
    have t4 : |(k : ℚ) + h| ≤ 2 ^ 41 + 1 := by
      rw [abs_of_nonneg (by linarith [hh01.1])]; linarith [hh01.2]
    have t5 := mul_le_mul t4 d3 (abs_nonneg _) (by positivity)
    linarith
  obtain ⟨r, hr, her⟩ := rnd_near ieee_std hs1' hs2' (B := 2 ^ 42) (q := kk * dl) (by norm_num)
    (by norm_num) (by
      have := abs_add_le (kk * dl - (k + h) * S) ((k + h) * S)
      rw [show kk * dl - (k + h) * S + (k + h) * S = kk * dl by ring,
        abs_of_nonneg (by linarith : 0 ≤ (k + h) * S)] at this
      linarith)
  have hmnb : |mn| ≤ 2 ^ 41 * S := by
    have t1 := abs_add_le (mn - (min (coord a 0) (coord a (a.size - 1)) - h * S))
      (min (coord a 0) (coord a (a.size - 1)) - h * S)
    rw [sub_add_cancel] at t1
    have t2 := abs_sub (min (coord a 0) (coord a (a.size - 1))) (h * S)
    rw [abs_of_nonneg hhS0] at t2
    linarith
  have hrb : |r| ≤ 2 ^ 41 * S + 1 * S := by
    have t1 := abs_add_le (r - kk * dl) ((kk * dl - (k + h) * S) + (k + h) * S)
    rw [show r - kk * dl + (kk * dl - (k + h) * S + (k + h) * S) = r by ring] at t1
    have t2 := abs_add_le (kk * dl - (k + h) * S) ((k + h) * S)
    rw [abs_of_nonneg (by linarith : 0 ≤ (k + h) * S)] at t2
    linarith
  obtain ⟨p, hp, hep⟩ := rnd_near ieee_std hs1' hs2' (B := 2 ^ 43) (q := mn + r) (by norm_num)
    (by norm_num) (by
      have := abs_add_le mn r
      linarith)
  refine ⟨p, by simp only [Fp.mul, hr, Fp.add, hp], ?_⟩
  obtain ⟨k', hk', hnear⟩ := double_dim cc a p (1 / 8) (by omega)
    ⟨le_trans hn (by norm_num), .inr ⟨h2, hs1, hs2⟩⟩ (by norm_num) hu
  rw [hk', clearlyNearest_unique hu ⟨kthSample_lt hk, .inr ?_⟩ hnear]
  rw [← hS]
  generalize min (coord a 0) (coord a (a.size - 1)) = M at *
  generalize coord a (kthSample a k) = x at *
  have hpx : |p - (M + k * S)| ≤ 1 / 2 ^ 5 * S := by
    rw [show p - (M + k * S) = (p - (mn + r)) + ((mn - (M - h * S)) + ((r - kk * dl) + (kk * dl - (k + h) * S)))
      by ring]
    have t1 := abs_add_le (p - (mn + r)) ((mn - (M - h * S)) + ((r - kk * dl) + (kk * dl - (k + h) * S)))
    have t2 := abs_add_le (mn - (M - h * S)) ((r - kk * dl) + (kk * dl - (k + h) * S))
    have t3 := abs_add_le (r - kk * dl) (kk * dl - (k + h) * S)
    linarith
  have h7 := abs_sub_le p (M + k * S) x
  rw [abs_sub_comm (M + k * S)] at h7
  have h8 : (a.size : ℚ) / 2 ^ 48 ≤ 1 / 2 ^ 6 := by
    rw [div_le_iff₀ (by positivity)]; norm_num at hsz ⊢; linarith
  have h9 : (1 / 2 - 2 * (1 / 8) - 1 / 2 ^ 6 : ℚ) * S ≤ (1 / 2 - 2 * (1 / 8) - a.size / 2 ^ 48) * S :=
    mul_le_mul_of_nonneg_right (by linarith) hS0.le
  refine lt_of_lt_of_le ?_ h9
  linarith

/-- **C77**, in binary64 arithmetic: `getMin`, `getMax` and `getDelta` are accurate up to 1/128 of the
spacing (and `getDelta` up to a few units in the last place), if the coordinates are below 2^40 spacings. -/
theorem C77_double_range (cellCentered : Bool) (nc : List NcAxis) (hf : ReadableFile nc) {n : Nat}
    {a : NcAxis} (hn : n < nc.length) (ha : nc[nc.length - 1 - n]? = some a) (h2 : 2 ≤ a.size)
    (hm : ModestCoords a) :
    ∃ mn mx dl : ℚ, getMin (openAxes .ieee cellCentered nc) n = some (.fin mn) ∧
      getMax (openAxes .ieee cellCentered nc) n = some (.fin mx) ∧
      getDelta (openAxes .ieee cellCentered nc) n = some (.fin dl) ∧
      |mn - lowerEdge cellCentered a| ≤ |meanSpacing a| / 2 ^ 7 ∧
      |mx - upperEdge cellCentered a| ≤ |meanSpacing a| / 2 ^ 7 ∧
      abs (dl - |meanSpacing a|) ≤ 5 / 2 ^ 53 * |meanSpacing a| := by
  obtain ⟨f1, f2, f3, f4⟩ := hf.2 a (List.mem_of_getElem? ha)
  obtain ⟨s1, s2⟩ := f4.resolve_left (by omega)
  obtain ⟨mn, mx, dl, e1, e2, e3, d⟩ := openAxis_accurate cellCentered a h2 f2 s1 s2 hm
  obtain ⟨g1, g2, g3⟩ := getMin_openAxes .ieee cellCentered nc hn ha
  exact ⟨mn, mx, dl, by rw [g1, e1], by rw [g2, e2], by rw [g3, e3], d⟩

/-- **C77**, in binary64 arithmetic, in the library and in the application: the positions
`getMin(n) + k * getDelta(n)` (in cell-centered grids `getMin(n) + (k + 0.5) * getDelta(n)`) select the
sample with the `k`-th smallest coordinate, in every dimension, if the coordinates are below 2^40 spacings. -/
theorem C77_double_walk (cellCentered : Bool) (nc : List NcAxis) (hf : ReadableFile nc)
    (hm : ∀ a ∈ nc, a.size = 1 ∨ ModestCoords a) (ks : List Nat)
    (pos : List Dbl) (hw : WalkPosition .ieee cellCentered nc ks pos) :
    ∃ idx, pos2index .ieee (openAxes .ieee cellCentered nc) pos = some idx ∧ WalkSelects nc ks idx := by
  apply walk_lift _ _ _ _ _ hw
  · intro n a q _ ha h1 hq
    obtain ⟨k, hk, hl⟩ := defined_of_finite cellCentered a q 0 (by omega) (by rw [h1]; norm_num) hq
      (by simp [NcAxis.getScaling, h1, getInvScaling, Dbl.isInf])
    rw [hk]; congr 1; omega
  · intro n a k hn ha hk h1
    obtain ⟨f1, f2, f3, f4⟩ := hf.2 a (List.mem_of_getElem? ha)
    obtain ⟨s1, s2⟩ := f4.resolve_left h1
    exact walk_double_dim cellCentered a (by omega) f2 f3 s1 s2
      ((hm a (List.mem_of_getElem? ha)).resolve_left h1) k hk

/-- Example: position (0 + 3.5 * 1 - 0.5, 5 + 0.5 * 2), up to the library's 10⁻¹⁰, of a cell-centered grid
is a walk position; it selects sample 3 in the fast dimension and the last one in the descending slow
dimension. -/
example : ∃ pos, WalkPosition .ieee true exFile [3, 0] pos ∧ (∀ a ∈ exFile, a.size = 1 ∨ ModestCoords a) ∧
    ReadableFile exFile ∧ pos2index .ieee (openAxes .ieee true exFile) pos = some [2, 3] := by
  have m1 : meanSpacing ⟨3, some fun i => 10 - 2 * i⟩ = -2 := by norm_num [meanSpacing, coord]
  have m2 : meanSpacing ⟨5, none⟩ = 1 := by norm_num [meanSpacing, coord]
  have hm : ∀ a ∈ exFile, a.size = 1 ∨ ModestCoords a := by
    intro a ha
    simp only [exFile, List.mem_cons, List.not_mem_nil, or_false] at ha
    right
    rcases ha with rfl | rfl
    · rw [ModestCoords, m1]; norm_num [coord]
    · rw [ModestCoords, m2]; norm_num [coord]
  have hw : WalkPosition .ieee true exFile [3, 0]
      [walkPos .ieee true (openAxis .ieee true ⟨5, none⟩).min (openAxis .ieee true ⟨5, none⟩).scaling 3,
       walkPos .ieee true (openAxis .ieee true ⟨3, some fun i => 10 - 2 * i⟩).min
         (openAxis .ieee true ⟨3, some fun i => 10 - 2 * i⟩).scaling 0] := by
    refine ⟨rfl, rfl, ?_⟩
    intro n a k hn ha hk
    obtain ⟨g1, -, g3⟩ := getMin_openAxes .ieee true exFile hn ha
    have : n = 0 ∨ n = 1 := by simp [exFile] at hn; omega
    rcases this with rfl | rfl
    · simp [exFile] at ha hk
      subst ha hk
      exact ⟨by decide, by rw [if_neg (by decide)]; exact ⟨_, _, g1, g3, rfl⟩⟩
    · simp [exFile] at ha hk
      subst ha hk
      exact ⟨by decide, by rw [if_neg (by decide)]; exact ⟨_, _, g1, g3, rfl⟩⟩
  exact ⟨_, hw, hm, exFile_readable, by decide +kernel⟩

/-- The bound on the coordinates is needed: the samples 2^53 + 2 and 2^53 + 4 are doubles, but in a
cell-centered grid the position computed for the first one selects the second one. -/
theorem C77_modest_needed :
    let nc : List NcAxis := [⟨2, some fun i => 2 ^ 53 + 2 + 2 * i⟩]
    ∃ mn dl, getMin (openAxes .ieee true nc) 0 = some mn ∧ getDelta (openAxes .ieee true nc) 0 = some dl ∧
      pos2index .ieee (openAxes .ieee true nc) [walkPos .ieee true mn dl 0] = some [1] := by
  refine ⟨.fin (2 ^ 53 + 2), .fin 2, ?_⟩
  decide +kernel

/-- **C77.** What a getter of any thread returns at such a position, for every grid type, configuration,
build, machine and history: the value of the sample with the `ks[n]`-th smallest coordinate in each
dimension. -/
theorem C77_walk_value {α : Type} {S : Session α} {sel : Selection} {c : LevelCfg α} {file : VarFile α}
    {nc : List NcAxis} {val : List Nat → α} {name : List Char}
    (hp : Possible S sel) (hf : ReadableFile nc) (hm : ∀ a ∈ nc, a.size = 1 ∨ ModestCoords a)
    (hv : ReadsVariable S name) (hfile : file name = some (nc, val)) (ho : S.open .ieee file = some (sel, c))
    {ks : List Nat} {pos : List Dbl} (hw : WalkPosition .ieee (cellCentered S.params) nc ks pos)
    {t : Nat} {v : α} (hret : Returns S sel c t pos v) :
    ∃ idx, WalkSelects nc ks idx ∧ v = val idx := by
  obtain ⟨idx, e1, e2⟩ := C65_value hp hf.1
    (sizesExact_ieee fun a ha => le_trans (hf.2 a ha).2.1 (by norm_num)) hv hfile ho hret
  obtain ⟨idx', e3, e4⟩ := C77_double_walk (cellCentered S.params) nc hf hm ks pos hw
  rw [pos2index_valuePosition .ieee false (cellCentered S.params), e3] at e1
  injection e1 with e1; subst e1
  exact ⟨_, e4, e2⟩

end Asagi.Props
