import Verif.Proofs.Levels
import Mathlib.Tactic.NormNum
/-
Properties of the coordinate handling: C01, C02, C03, C04.
Arithmetic without rounding errors (`Fp.exact`) where distances are compared.
-/
namespace Asagi.Props
open Asagi Asagi.Spec

/-- Example file: dimension 0 (slow) has 3 descending samples 10, 8, 6; dimension 1 has five
samples without coordinate variable. -/
def exFile : List NcAxis :=
  [⟨3, some fun i => 10 - 2 * i⟩, ⟨5, none⟩]

theorem exFile_regular : RegularFile exFile := by
  refine ⟨by simp [exFile], ?_⟩
  intro a ha
  simp only [exFile, List.mem_cons, List.not_mem_nil, or_false] at ha
  rcases ha with rfl | rfl
  · refine ⟨by decide, by decide, -2, by norm_num, ?_⟩
    intro i _; simp [coord]; ring
  · refine ⟨by decide, by decide, 1, by norm_num, ?_⟩
    intro i _; simp [coord]

theorem pos2indexDim_regular (cc : Bool) (a : NcAxis) (p : ℚ) (h1 : 1 ≤ a.size)
    (h64 : a.size < 2 ^ 64) (hr : Regular a) :
    ∃ k, pos2indexDim .exact (openAxis .exact cc a) (.fin p) = some k ∧ IsNearest a p k := by
  obtain ⟨s, hs⟩ := hr
  by_cases h : a.size = 1
  · refine ⟨0, pos2indexDim_single cc a p h, by omega, ?_⟩
    intro j hj
    obtain rfl : j = 0 := by omega
    simp
  · exact pos2indexDim_nearest cc a s p (by omega) h64 hs

/-- **C01.** For every file and every finite position the getters select in each dimension
the nearest sample, on ties the one with the larger index; the selected index is an index
of the file. -/
theorem C01_nearest_sample (cellCentered : Bool) (nc : List NcAxis) (hf : RegularFile nc)
    (pos : List ℚ) (hp : pos.length = nc.length) :
    ∃ idx, pos2index .exact (openAxes .exact cellCentered nc) (pos.map .fin) = some idx ∧
      Selected nc pos idx ∧ InBox (nc.map NcAxis.size) idx := by
  have hlen : (openAxes .exact cellCentered nc).length = nc.length := by simp [openAxes]
  have key : ∀ i (hi : i < nc.length),
      ∃ k, ((do
        let a ← (openAxes .exact cellCentered nc)[i]?
        let p ← (pos.map Dbl.fin)[nc.length - i - 1]?
        pos2indexDim .exact a p) : Option Nat) = some k ∧
        IsNearest nc[i] (pos[nc.length - i - 1]'(by omega)) k := by
    intro i hi
    have hm := hf.2 nc[i] (List.getElem_mem hi)
    obtain ⟨k, h1, h2⟩ := pos2indexDim_regular cellCentered nc[i]
      (pos[nc.length - i - 1]'(by omega)) hm.1 hm.2.1 hm.2.2
    refine ⟨k, ?_, h2⟩
    have e1 : (openAxes .exact cellCentered nc)[i]? = some (openAxis .exact cellCentered nc[i]) := by
      simp [openAxes, hi]
    have e2 : (pos.map Dbl.fin)[nc.length - i - 1]? =
        some (.fin (pos[nc.length - i - 1]'(by omega))) := by
      rw [List.getElem?_map, List.getElem?_eq_getElem (by omega)]; rfl
    rw [e1, e2]
    exact h1
  obtain ⟨idx, hidx⟩ : ∃ idx, pos2index .exact (openAxes .exact cellCentered nc)
      (pos.map .fin) = some idx := by
    unfold pos2index
    apply mapM_option_some
    intro i hi
    rw [hlen] at hi
    obtain ⟨k, hk, _⟩ := key i (by simpa using hi)
    exact ⟨k, by rw [hlen]; exact hk⟩
  have hs := mapM_option_spec _ _ _ hidx
  have hl : idx.length = nc.length := by rw [hs.1, List.length_range, hlen]
  have hel : ∀ i (hi : i < nc.length), ∃ k, idx[i]? = some k ∧
      IsNearest nc[i] (pos[nc.length - i - 1]'(by omega)) k := by
    intro i hi
    obtain ⟨k, hk, hn⟩ := key i hi
    obtain ⟨k', hk', hn'⟩ := hs.2 i i (by simp [hlen, hi])
    rw [hlen] at hk'
    rw [hk] at hk'
    cases hk'
    exact ⟨k, hn', hn⟩
  refine ⟨idx, hidx, ⟨hl, ?_⟩, ?_⟩
  · intro n hn
    obtain ⟨k, hk, hnn⟩ := hel (nc.length - 1 - n) (by omega)
    have : nc.length - (nc.length - 1 - n) - 1 = n := by omega
    simp only [this] at hnn
    exact ⟨nc[nc.length - 1 - n], pos[n]'(by omega), k, by simp, by simp, hk, hnn⟩
  · apply inBox_of_getElem? (by simp [hl])
    intro i a b ha hb
    have hi : i < nc.length := by
      have := (List.getElem?_eq_some_iff.1 ha).1; simpa using this
    obtain ⟨k, hk, hn⟩ := hel i hi
    rw [hk] at hb; cases hb
    simp [hi] at ha
    rw [← ha]; exact hn.1

/-- The example file and position meet the hypotheses of C01; the position (3.6, 8.9)
selects sample 4 of the fast and sample 1 of the slow dimension. -/
example : RegularFile exFile ∧ ([3.6, 8.9] : List ℚ).length = exFile.length ∧
    pos2index .exact (openAxes .exact false exFile) [.fin 3.6, .fin 8.9] = some [1, 4] := by
  refine ⟨exFile_regular, rfl, by decide +kernel⟩

/-- The specification determines the selected index. -/
theorem selected_unique {nc : List NcAxis} {pos : List ℚ} {idx idx' : List Nat}
    (h : Selected nc pos idx) (h' : Selected nc pos idx') : idx = idx' := by
  apply List.ext_getElem?
  intro i
  by_cases hi : i < nc.length
  · have e : nc.length - 1 - (nc.length - 1 - i) = i := by omega
    obtain ⟨a, p, k, h1, h2, h3, hk, h4⟩ := h.2 (nc.length - 1 - i) (by omega)
    obtain ⟨a', p', k', h1', h2', h3', hk', h4'⟩ := h'.2 (nc.length - 1 - i) (by omega)
    rw [e] at h1 h3 h1' h3'
    rw [h1] at h1'; rw [h2] at h2'
    cases h1'; cases h2'
    have a1 := h4 k' hk'
    have a2 := h4' k hk
    have : |p - coord a k| = |p - coord a k'| := le_antisymm a1.1 a2.1
    rw [h3, h3', le_antisymm (a2.2 this.symm) (a1.2 this)]
  · rw [List.getElem?_eq_none (by rw [h.1]; omega), List.getElem?_eq_none (by rw [h'.1]; omega)]

theorem pos2index_component {fp : Fp} {axes : List Axis} {pos : List Dbl} {idx : List Nat}
    (h : pos2index fp axes pos = some idx) :
    idx.length = axes.length ∧ ∀ n, n < axes.length → ∃ a p k,
      axes[axes.length - 1 - n]? = some a ∧ pos[n]? = some p ∧
      idx[axes.length - 1 - n]? = some k ∧ pos2indexDim fp a p = some k := by
  have hs := mapM_option_spec _ _ _ h
  refine ⟨by rw [hs.1, List.length_range], ?_⟩
  intro n hn
  obtain ⟨k, h1, h2⟩ := hs.2 (axes.length - 1 - n) (axes.length - 1 - n)
    (List.getElem?_range (by omega))
  have e : axes.length - (axes.length - 1 - n) - 1 = n := by omega
  rw [e] at h1
  simp only [Option.bind_eq_bind, Option.bind_eq_some_iff] at h1
  obtain ⟨a, ha, p, hp, hk⟩ := h1
  exact ⟨a, p, k, ha, hp, h2, hk⟩

/-- **C02.** For each dimension `n` with at least two samples: `getMin(n) ≤ getMax(n)`,
`getDelta(n)` is the (positive) sample spacing, `getMin`/`getMax` are the outermost samples,
for cell-centered grids moved outwards by half a spacing (less 10⁻¹⁰ of it), and any position
inside this range selects a sample at most half a spacing away. -/
theorem C02_range_not_clamped (cellCentered : Bool) (nc : List NcAxis) (n : Nat) (a : NcAxis)
    (s : ℚ) (hn : n < nc.length) (ha : nc[nc.length - 1 - n]? = some a) (h2 : 2 ≤ a.size)
    (h64 : a.size < 2 ^ 64) (hu : Uniform a s) :
    ∃ mn mx dl : ℚ,
      getMin (openAxes .exact cellCentered nc) n = some (.fin mn) ∧
      getMax (openAxes .exact cellCentered nc) n = some (.fin mx) ∧
      getDelta (openAxes .exact cellCentered nc) n = some (.fin dl) ∧
      mn ≤ mx ∧ 0 < dl ∧
      (∀ i, i + 1 < a.size → |coord a (i + 1) - coord a i| = dl) ∧
      mn = min (coord a 0) (coord a (a.size - 1)) -
        (if cellCentered then dl * (1/2 - 1/10^10) else 0) ∧
      mx = max (coord a 0) (coord a (a.size - 1)) +
        (if cellCentered then dl * (1/2 - 1/10^10) else 0) ∧
      ∀ (pos : List Dbl) (idx : List Nat) (p : ℚ) (k : Nat),
        pos2index .exact (openAxes .exact cellCentered nc) pos = some idx →
        pos[n]? = some (.fin p) → idx[nc.length - 1 - n]? = some k →
        mn ≤ p → p ≤ mx → k < a.size ∧ |p - coord a k| ≤ dl / 2 := by
  have hr := openAxis_range cellCentered a s h2 hu
  have hlen : (openAxes .exact cellCentered nc).length = nc.length := by simp [openAxes]
  have hax : (openAxes .exact cellCentered nc)[nc.length - 1 - n]? =
      some (openAxis .exact cellCentered a) := by simp [openAxes, ha]
  have hax' : (openAxes .exact cellCentered nc)[nc.length - n - 1]? =
      some (openAxis .exact cellCentered a) := by
    rw [← hax]; congr 1; omega
  have hlast := hu.2 (a.size - 1) (by omega)
  have hge : (1 : ℚ) ≤ ((a.size - 1 : ℕ) : ℚ) := by exact_mod_cast (by omega : 1 ≤ a.size - 1)
  refine ⟨min (coord a 0 - s * cellMargin cellCentered)
      (coord a (a.size - 1) + s * cellMargin cellCentered),
    max (coord a 0 - s * cellMargin cellCentered)
      (coord a (a.size - 1) + s * cellMargin cellCentered), |s|, by simp [getMin, hlen, hn, hax', hr.1], by
    simp [getMax, hlen, hn, hax', hr.2.1], by simp [getDelta, hlen, hn, hax', hr.2.2],
    min_le_max, abs_pos.2 hu.1, ?_, ?_, ?_, ?_⟩
  · intro i hi
    rw [hu.2 (i + 1) hi, hu.2 i (by omega)]
    congr 1; push_cast; ring
  · have hm := cellMargin_bounds cellCentered
    have hc : (if cellCentered then |s| * (1/2 - 1/10^10) else 0) = |s| * cellMargin cellCentered := by
      cases cellCentered <;> simp [cellMargin, numericPrecision]
    rw [hc, hlast]
    rcases lt_or_gt_of_ne hu.1 with h | h
    · rw [abs_of_neg h, min_eq_right, min_eq_right] <;> nlinarith
    · rw [abs_of_pos h, min_eq_left, min_eq_left] <;> nlinarith
  · have hm := cellMargin_bounds cellCentered
    have hc : (if cellCentered then |s| * (1/2 - 1/10^10) else 0) = |s| * cellMargin cellCentered := by
      cases cellCentered <;> simp [cellMargin, numericPrecision]
    rw [hc, hlast]
    rcases lt_or_gt_of_ne hu.1 with h | h
    · rw [abs_of_neg h, max_eq_left, max_eq_left] <;> nlinarith
    · rw [abs_of_pos h, max_eq_right, max_eq_right] <;> nlinarith
  · intro pos idx p k hidx hp hk h1 h3
    obtain ⟨_, hcomp⟩ := pos2index_component hidx
    rw [hlen] at hcomp
    obtain ⟨a', p', k', e1, e2, e3, e4⟩ := hcomp n hn
    rw [hax] at e1; rw [hp] at e2; rw [hk] at e3
    cases e1; cases e2; cases e3
    obtain ⟨k', h5, h6, h7⟩ := pos2indexDim_inRange cellCentered a s p h2 h64 hu h1 h3
    rw [h5] at e4; cases e4
    exact ⟨h6, h7⟩

/-- Hypotheses of C02 for dimension 1 of the example (descending coordinates). -/
example : exFile[exFile.length - 1 - 1]? = some ⟨3, some fun i => 10 - 2 * i⟩ ∧
    Uniform ⟨3, some fun i => 10 - 2 * i⟩ (-2) ∧
    getMin (openAxes .exact false exFile) 1 = some (.fin 6) ∧
    getMax (openAxes .exact false exFile) 1 = some (.fin 10) := by
  refine ⟨rfl, ⟨by norm_num, fun i _ => by simp [coord]; ring⟩, by decide +kernel,
    by decide +kernel⟩

/-- **C03.** `pos[n]`, `getMin(n)`, `getMax(n)`, `getDelta(n)` and `BLOCK_SIZE_n` all refer to
dimension `dims - 1 - n` of the file: (1) that component of the selected index depends on
`pos[n]` and the coordinates of that file dimension only; (2) `getMin(n)`, `getMax(n)`,
`getDelta(n)` depend on that file dimension only; (3) if the user sets `BLOCK_SIZE_n` to a
positive number, that is the extent of the blocks in that file dimension, unless the
dimension is smaller. -/
theorem C03_dimension_order (fp : Fp) (cellCentered : Bool) (nc nc' : List NcAxis) (n : Nat)
    (hn : n < nc.length) (hlen : nc'.length = nc.length)
    (hsame : nc[nc.length - 1 - n]? = nc'[nc.length - 1 - n]?) :
    (∀ (pos pos' : List Dbl) (idx idx' : List Nat), pos[n]? = pos'[n]? →
      pos2index fp (openAxes fp cellCentered nc) pos = some idx →
      pos2index fp (openAxes fp cellCentered nc') pos' = some idx' →
      idx.length = nc.length ∧ idx[nc.length - 1 - n]? = idx'[nc.length - 1 - n]?) ∧
    getMin (openAxes fp cellCentered nc) n = getMin (openAxes fp cellCentered nc') n ∧
    getMax (openAxes fp cellCentered nc) n = getMax (openAxes fp cellCentered nc') n ∧
    getDelta (openAxes fp cellCentered nc) n = getDelta (openAxes fp cellCentered nc') n ∧
    (getMin (openAxes fp cellCentered nc) n).isSome ∧
    (∀ (α : Type) (val : List Nat → α) (basic : Bool) (param : List Int) (timeDim : Int)
      (junk : BlockedState) (c : LevelCfg α) (a : NcAxis) (b : Nat), 0 < b →
      nc[nc.length - 1 - n]? = some a → param[n]? = some (b : Int) →
      openLevel fp cellCentered nc val basic param timeDim junk = some c →
      c.geom[nc.length - 1 - n]? = some ⟨a.size, min b a.size⟩) := by
  have hl : (openAxes fp cellCentered nc).length = nc.length := by simp [openAxes]
  have hl' : (openAxes fp cellCentered nc').length = nc.length := by simp [openAxes, hlen]
  have hax : (openAxes fp cellCentered nc)[nc.length - 1 - n]? =
      (openAxes fp cellCentered nc')[nc.length - 1 - n]? := by
    simp only [openAxes, List.getElem?_map]; rw [hsame]
  have e : nc.length - n - 1 = nc.length - 1 - n := by omega
  refine ⟨?_, ?_, ?_, ?_, ?_, ?_⟩
  · intro pos pos' idx idx' hp h1 h2
    obtain ⟨hli, hc⟩ := pos2index_component h1
    obtain ⟨_, hc'⟩ := pos2index_component h2
    rw [hl] at hc hli; rw [hl'] at hc'
    obtain ⟨a, p, k, e1, e2, e3, e4⟩ := hc n hn
    obtain ⟨a', p', k', e1', e2', e3', e4'⟩ := hc' n hn
    rw [← hax, e1] at e1'; rw [← hp, e2] at e2'
    cases e1'; cases e2'
    rw [e4] at e4'; cases e4'
    exact ⟨hli, by rw [e3, e3']⟩
  · simp [getMin, hl, hl', hn, e, hax]
  · simp [getMax, hl, hl', hn, e, hax]
  · simp [getDelta, hl, hl', hn, e, hax]
  · simp [getMin, hn, e, openAxes]; omega
  · intro α val basic param timeDim junk c a b hb ha hp h
    have hne : nc ≠ [] := by rintro rfl; simp at hn
    obtain ⟨_, _, _, _, _, hg, _⟩ := openLevel_spec hne h
    have hpar : (nc.map NcAxis.size).length ≤ param.length := by
      simp only [openLevel, Option.bind_eq_bind, Option.bind_eq_some_iff] at h
      obtain ⟨st, hst, _⟩ := h
      exact (blockedOpen_spec hst).1
    rw [hg, openGeom_getElem? _ _ _ (by simp; omega) hpar]
    have hsz : (nc.map NcAxis.size)[nc.length - 1 - n]'(by simp; omega) = a.size := by
      rw [List.getElem?_eq_some_iff] at ha
      obtain ⟨_, ha⟩ := ha
      simp [ha]
    have hpp : param[(nc.map NcAxis.size).length - (nc.length - 1 - n) - 1]'(by
        simp at hpar ⊢; omega) = (b : Int) := by
      have : (nc.map NcAxis.size).length - (nc.length - 1 - n) - 1 = n := by simp; omega
      simp only [this]
      rw [List.getElem?_eq_some_iff] at hp
      exact hp.2
    rw [hsz, hpp]
    congr 2
    have hb1 : ¬ ((b : Int) = 0) := by omega
    have hb2 : ¬ ((b : Int) < 0) := by omega
    simp only [loopBlockSize, if_neg hb1, if_neg hb2, Int.toNat_natCast]
    split <;> omega

/-- Hypotheses of C03: two files that differ in the other dimension only, and a successful
open. -/
example : (0 : Nat) < exFile.length ∧
    ([⟨7, none⟩, ⟨5, none⟩] : List NcAxis).length = exFile.length ∧
    (openLevel .exact false exFile (fun i => i) true [2, 0, 0, 0] (-1)
      ⟨[0,0,0,0], [0,0,0,0], 0, 0⟩).map (fun c => c.geom) = some [⟨3, 3⟩, ⟨5, 2⟩] := by
  refine ⟨by decide, rfl, by decide +kernel⟩

/-- **C04.** A dimension with exactly one sample: `getMin` is minus infinity, `getMax` and
`getDelta` are plus infinity and every finite coordinate selects the sample; the conversion to
an integer is defined. -/
theorem C04_single_sample (cellCentered : Bool) (nc : List NcAxis) (n : Nat) (a : NcAxis)
    (hn : n < nc.length) (ha : nc[nc.length - 1 - n]? = some a) (h1 : a.size = 1) :
    getMin (openAxes .exact cellCentered nc) n = some (.inf true) ∧
    getMax (openAxes .exact cellCentered nc) n = some (.inf false) ∧
    getDelta (openAxes .exact cellCentered nc) n = some (.inf false) ∧
    ∀ p : ℚ, pos2indexDim .exact (openAxis .exact cellCentered a) (.fin p) = some 0 := by
  have hlen : (openAxes .exact cellCentered nc).length = nc.length := by simp [openAxes]
  have e : nc.length - n - 1 = nc.length - 1 - n := by omega
  have hax : (openAxes .exact cellCentered nc)[nc.length - 1 - n]? =
      some (openAxis .exact cellCentered a) := by simp [openAxes, ha]
  have hs : a.getScaling .exact = .inf false := by simp [NcAxis.getScaling, h1]
  refine ⟨?_, ?_, ?_, fun p => pos2indexDim_single cellCentered a p h1⟩
  · simp [getMin, hlen, hn, e, hax, openAxis, hs, Dbl.isInf]
  · simp [getMax, hlen, hn, e, hax, openAxis, hs, Dbl.isInf]
  · simp [getDelta, hlen, hn, e, hax, openAxis, hs, Dbl.isInf]

example : ([⟨4, none⟩, ⟨1, some fun _ => 17⟩] : List NcAxis)[2 - 1 - 0]? =
    some ⟨1, some fun _ => 17⟩ := rfl

/-- **C04**, the excluded inputs: NaN always, and infinite coordinates in a dimension with one
sample, execute an undefined conversion. -/
theorem C04_nan_is_undefined (fp : Fp) (cellCentered : Bool) (a : NcAxis) :
    pos2indexDim fp (openAxis fp cellCentered a) .nan = none ∧
    (a.size = 1 → ∀ neg, pos2indexDim fp (openAxis fp cellCentered a) (.inf neg) = none) := by
  constructor
  · have h1 : (openAxis fp cellCentered a).offset = a.getOffset := (openAxis_members ..).2.1
    simp only [pos2indexDim, dblRound]
    have : fp.sub .nan (openAxis fp cellCentered a).offset = .nan := by
      cases h : (openAxis fp cellCentered a).offset.neg <;> simp [Fp.sub, Fp.add]
    rw [this]
    have : fp.mul .nan (openAxis fp cellCentered a).scalingInv = .nan := by
      cases h : (openAxis fp cellCentered a).scalingInv <;> simp [Fp.mul]
    simp [this, Fp.add, Dbl.floor, Dbl.lt, Dbl.toSizeT]
  · intro h neg
    obtain ⟨_, h2, h3⟩ := openAxis_members fp cellCentered a
    have hs : a.getScaling fp = .inf false := by simp [NcAxis.getScaling, h]
    have h3' : (openAxis fp cellCentered a).scalingInv = .fin 0 := by
      rw [h3, hs]; simp [getInvScaling, Dbl.isInf]
    have : ∃ q, a.getOffset = .fin q := by
      unfold NcAxis.getOffset; split <;> exact ⟨_, rfl⟩
    obtain ⟨q, hq⟩ := this
    simp [pos2indexDim, dblRound, h2, hq, h3', Fp.sub, Dbl.neg, Fp.add, Fp.mul, Dbl.floor,
      Dbl.lt, Dbl.toSizeT]

end Asagi.Props
