import Verif.Props.Double
import Verif.Props.Session
/-
C75: in double arithmetic, a position that is clearly nearest to one sample - for example the position of
the sample itself - returns the value of this sample, for every grid type and configuration.
C65 and C02 in double arithmetic.
-/
namespace Asagi.Props
open Asagi Asagi.Spec
variable {α : Type} {S : Session α} {sel : Selection} {c : LevelCfg α} {file : VarFile α}
  {nc : List NcAxis} {val : List Nat → α} {name : List Char}

theorem clearlyNearest_unique {a : NcAxis} {δ p : ℚ} {i k : Nat} (hu : AlmostUniform a δ)
    (hc : ClearlyNearest a δ p i)
    (hk : NearestUpTo a ((2 * δ + a.size / 2 ^ 47) * |meanSpacing a|) p k) : k = i := by
  obtain ⟨hi, hc⟩ := hc
  obtain ⟨hk1, hk2⟩ := hk
  rcases hc with h1 | hc
  · omega
  by_contra hne
  have h2 := hk2 i hi
  have ui := hu i hi
  have uk := hu k hk1
  generalize hs : meanSpacing a = s at *
  have hki : (1 : ℚ) ≤ |(k : ℚ) - i| := by
    have : (1 : ℤ) ≤ |(k : ℤ) - i| := Int.one_le_abs (by omega)
    exact_mod_cast this
  have e1 : ((k : ℚ) - i) * s = (coord a 0 + k * s - coord a k) + (coord a k - p) + (p - coord a i)
      + (coord a i - (coord a 0 + i * s)) := by ring
  have e2 : |(k : ℚ) - i| * |s| ≤ |coord a 0 + k * s - coord a k| + |coord a k - p| + |p - coord a i|
      + |coord a i - (coord a 0 + i * s)| := by
    rw [← abs_mul, e1]
    exact le_trans (abs_add_le _ _) (add_le_add (le_trans (abs_add_le _ _)
      (add_le_add (abs_add_le _ _) le_rfl)) le_rfl)
  rw [abs_sub_comm (coord a 0 + k * s), abs_sub_comm (coord a k) p] at e2
  have e3 : |s| ≤ |(k : ℚ) - i| * |s| := le_mul_of_one_le_left (abs_nonneg _) hki
  have e4 : ((a.size : ℚ) / 2 ^ 47) = 2 * (a.size / 2 ^ 48) := by
    rw [pow_succ (2 : ℚ) 47]; field_simp
  rw [e4] at h2
  generalize (a.size : ℚ) / 2 ^ 48 = τ at *
  nlinarith

/-- **C75.** In binary64 arithmetic, for every file with almost equidistant samples: a position that is
clearly nearest to a sample in each dimension selects exactly this sample. -/
theorem C75_clearly_selected (cellCentered : Bool) (nc : List NcAxis) (δ : ℚ) (hδ : 0 ≤ δ)
    (pos : List ℚ) (hp : pos.length = nc.length)
    (hf : ∀ a ∈ nc, 0 < a.size ∧ AlmostUniform a δ)
    (hr : ∀ n a p, n < nc.length → nc[nc.length - 1 - n]? = some a → pos[n]? = some p →
      DoubleRange a p) {idx : List Nat} (hc : ClearlySelected nc δ pos idx) :
    pos2index .ieee (openAxes .ieee cellCentered nc) (pos.map .fin) = some idx := by
  obtain ⟨idx', e1, e2, e3⟩ := C59_double_nearest cellCentered nc δ hδ pos hp hf hr
  rw [e1]
  congr 1
  have hl : idx'.length = nc.length := by
    simpa using e2.length_eq
  apply List.ext_getElem?
  intro i
  by_cases hi : i < nc.length
  · obtain ⟨a, p, k, h1, h2, h3, h4⟩ := e3 (nc.length - 1 - i) (by omega)
    obtain ⟨a', p', k', g1, g2, g3, g4⟩ := hc.2 (nc.length - 1 - i) (by omega)
    have : nc.length - 1 - (nc.length - 1 - i) = i := by omega
    rw [this] at h1 h3 g1 g3
    rw [h1] at g1; cases g1
    rw [h2] at g2; cases g2
    rw [h3, g3, clearlyNearest_unique (hf a (List.mem_of_getElem? h1)).2 g4 h4]
  · rw [List.getElem?_eq_none (by omega), List.getElem?_eq_none (by rw [hc.1]; omega)]

theorem sizesExact_ieee (h : ∀ a ∈ nc, a.size ≤ 2 ^ 50) : SizesExact .ieee (nc.map NcAxis.size) := by
  intro s hs
  obtain ⟨a, ha, rfl⟩ := List.mem_map.1 hs
  exact ⟨lt_of_le_of_lt (h a ha) (by norm_num), ieee_sizes (h a ha)⟩

/-- **C65**, in binary64 arithmetic, for every file whose dimensions deviate by at most `δ` spacings from
equidistant ones: whatever a getter returns, in any thread, for whatever parameters, build, machine and
history, it is the value of a sample of the variable to which, in each dimension, no other sample is
closer by more than `2 δ + size / 2^47` spacings. -/
theorem C65_double_value (hp : Possible S sel) (hne : nc ≠ []) (hv : ReadsVariable S name)
    (hfile : file name = some (nc, val)) (ho : S.open .ieee file = some (sel, c)) (δ : ℚ) (hδ : 0 ≤ δ)
    (hf : ∀ a ∈ nc, 0 < a.size ∧ a.size ≤ 2 ^ 50 ∧ AlmostUniform a δ) {t : Nat}
    {pos : List ℚ} (hpos : pos.length = nc.length)
    (hr : ∀ n a p, n < nc.length → nc[nc.length - 1 - n]? = some a → pos[n]? = some p →
      DoubleRange a p) {v : α} (hret : Returns S sel c t (pos.map .fin) v) :
    ∃ idx, v = val idx ∧ InBox (nc.map NcAxis.size) idx ∧
      ∀ n, n < nc.length → ∃ a p k,
        nc[nc.length - 1 - n]? = some a ∧ pos[n]? = some p ∧ idx[nc.length - 1 - n]? = some k ∧
        NearestUpTo a ((2 * δ + a.size / 2 ^ 47) * |meanSpacing a|) p k := by
  obtain ⟨idx, e1, e2⟩ := C65_value hp hne (sizesExact_ieee fun a ha => (hf a ha).2.1) hv hfile ho hret
  obtain ⟨idx', e3, e4⟩ := C59_double_nearest false nc δ hδ pos hpos
    (fun a ha => ⟨(hf a ha).1, (hf a ha).2.2⟩) hr
  rw [e1] at e3
  injection e3 with e3; subst e3
  exact ⟨idx, e2, e4⟩

theorem samplePos_length {idx : List Nat} (h : idx.length = nc.length) :
    (samplePos nc idx).length = nc.length := by
  simp [samplePos, h]

theorem samplePos_getElem? {idx : List Nat} (h : idx.length = nc.length) {n : Nat} (hn : n < nc.length) :
    (samplePos nc idx)[n]? =
      some (coord (nc[nc.length - 1 - n]'(by omega)) (idx[nc.length - 1 - n]'(by omega))) := by
  unfold samplePos
  rw [List.getElem?_reverse (by simp; omega)]
  simp only [List.length_zipWith, h, Nat.min_self]
  rw [List.getElem?_eq_getElem (by simp; omega)]
  simp

theorem sample_selected (hf : ReadableFile nc) (cellCentered : Bool) {idx : List Nat}
    (hi : InBox (nc.map NcAxis.size) idx) :
    pos2index .ieee (openAxes .ieee cellCentered nc) ((samplePos nc idx).map .fin) = some idx := by
  have hl : idx.length = nc.length := by simpa using hi.length_eq
  refine C75_clearly_selected cellCentered nc (1 / 8) (by norm_num) _ (samplePos_length hl)
    (fun a ha => ⟨(hf.2 a ha).1, (hf.2 a ha).2.2.1⟩) ?_ ⟨hl, ?_⟩
  · intro n a p hn ha hp
    rw [samplePos_getElem? hl hn] at hp
    rw [List.getElem?_eq_getElem (by omega)] at ha
    injection ha with ha
    injection hp with hp
    obtain ⟨h1, h2, h3, h4⟩ := hf.2 a (by rw [← ha]; exact List.getElem_mem _)
    have hk := hi.getElem? (k := nc.length - 1 - n) (a := a.size)
      (b := idx[nc.length - 1 - n]'(by omega)) (by
        rw [List.getElem?_map, List.getElem?_eq_getElem (by omega), ha]; rfl) (by simp)
    refine ⟨le_trans h2 (by norm_num), ?_⟩
    by_cases hone : a.size = 1
    · refine .inl ⟨hone, ?_⟩
      rw [← hp, ha, show idx[nc.length - 1 - n]'(by omega) = 0 by omega, sub_self, abs_zero]
      positivity
    · exact .inr ⟨by omega, h4.resolve_left hone⟩
  · intro n hn
    refine ⟨_, _, _, List.getElem?_eq_getElem (by omega), samplePos_getElem? hl hn,
      List.getElem?_eq_getElem (by omega), ?_⟩
    have hk := hi.getElem? (k := nc.length - 1 - n) (a := (nc[nc.length - 1 - n]'(by omega)).size)
      (b := idx[nc.length - 1 - n]'(by omega)) (by
        rw [List.getElem?_map, List.getElem?_eq_getElem (by omega)]; rfl) (by simp)
    obtain ⟨h1, h2, h3, h4⟩ := hf.2 (nc[nc.length - 1 - n]'(by omega)) (List.getElem_mem _)
    generalize nc[nc.length - 1 - n]'(by omega) = a at *
    refine ⟨hk, ?_⟩
    rcases h4 with h4 | h4
    · exact .inl h4
    · right
      rw [sub_self, abs_zero]
      apply mul_pos
      · have h5 : (a.size : ℚ) ≤ 2 ^ 45 := by exact_mod_cast h2
        have h6 : (a.size : ℚ) / 2 ^ 48 ≤ 2 ^ 45 / 2 ^ 48 := div_le_div_of_nonneg_right h5 (by positivity)
        norm_num at h6 ⊢
        linarith
      · exact lt_of_lt_of_le (by decide +kernel) h4.1

/-- **C75.** Reading back: in binary64 arithmetic, at the position of a sample, a getter of any thread can
return the value of this sample and nothing else, for every grid type, configuration, build, machine and
history. -/
theorem C75_sample_value (hp : Possible S sel) (hf : ReadableFile nc) (hv : ReadsVariable S name)
    (hfile : file name = some (nc, val)) (ho : S.open .ieee file = some (sel, c))
    (hnoop : sel.type.mpi = .thread → S.noop = false) (t : Nat) {idx : List Nat}
    (hi : InBox (nc.map NcAxis.size) idx) (v : α) :
    Returns S sel c t ((samplePos nc idx).map .fin) v ↔ v = val idx := by
  have hx : SizesExact .ieee (nc.map NcAxis.size) :=
    sizesExact_ieee fun a ha => le_trans (hf.2 a ha).2.1 (by norm_num)
  have e1 := sample_selected hf false hi
  have key : ∀ v, Returns S sel c t ((samplePos nc idx).map .fin) v → v = val idx := by
    intro v h
    obtain ⟨idx', e3, rfl⟩ := C65_value hp hf.1 hx hv hfile ho h
    rw [e1] at e3
    injection e3 with e3; subst e3
    rfl
  refine ⟨key v, ?_⟩
  rintro rfl
  obtain ⟨w, hw⟩ := session_returns hp hf.1 hx hv hfile ho hnoop t e1
  rw [← key w hw]
  exact hw

theorem exFile_readable : ReadableFile exFile := by
  have m1 : meanSpacing ⟨3, some fun i => 10 - 2 * i⟩ = -2 := by norm_num [meanSpacing, coord]
  have m2 : meanSpacing ⟨5, none⟩ = 1 := by norm_num [meanSpacing, coord]
  refine ⟨by simp [exFile], ?_⟩
  intro a ha
  simp only [exFile, List.mem_cons, List.not_mem_nil, or_false] at ha
  rcases ha with rfl | rfl
  · refine ⟨by decide, by norm_num, ?_, .inr ⟨by rw [m1]; decide +kernel, by rw [m1]; decide +kernel⟩⟩
    intro i _
    rw [m1]; simp only [coord]; ring_nf; norm_num
  · refine ⟨by decide, by norm_num, ?_, .inr ⟨by rw [m2]; decide +kernel, by rw [m2]; decide +kernel⟩⟩
    intro i _
    rw [m2]; norm_num [coord]

/-- The hypotheses hold for a CACHE grid on four processes; sample (2, 3) has position (3, 6). -/
example : ∃ sel c, exSessionB.open .ieee exHeight = some (sel, c) ∧
    ∀ v, Returns exSessionB sel c 3 [.fin 3, .fin 6] v ↔ v = [2, 3] := by
  have hv : ReadsVariable exSessionB "height".toList := exSessionB_ok.1
  have hfile : exHeight "height".toList = some (exFile, fun i => i) := if_pos rfl
  obtain ⟨sel, c, ho⟩ := C65_open_succeeds (fp := .ieee) _ (by decide)
    (fun a ha => (exFile_regular.2 a ha).1) hv hfile rfl (by decide +kernel) rfl rfl
  have e : initContainers exSessionB.build exSessionB.params exSessionB.commSize exSessionB.domains =
    some ⟨.CACHE_MPITHREAD_NUMA, 4⟩ := by decide +kernel
  have h1 : sel = ⟨.CACHE_MPITHREAD_NUMA, 4⟩ :=
    Option.some.inj ((session_open hv hfile ho).1.symm.trans e)
  subst h1
  refine ⟨_, c, ho, fun v => ?_⟩
  have h := C75_sample_value exSessionB_ok.2.2 exFile_readable hv hfile ho (fun _ => rfl) 3
    (idx := [2, 3]) (by decide) v
  have e : (samplePos exFile [2, 3]).map Dbl.fin = [.fin 3, .fin 6] := by
    simp [samplePos, exFile, coord]; norm_num
  rw [e] at h
  exact h

/-- The hypothesis on the distances of the samples is needed: with samples at 0, 1 and 10, the position 1
of the second sample selects the first one, because the library only looks at the first and the last
coordinate (netcdfreader.cpp 104-128). -/
theorem C75_irregular_needed :
    pos2index .ieee (openAxes .ieee false [⟨3, some fun i => if i = 2 then 10 else i⟩]) [.fin 1] = some [0] := by
  decide +kernel

/-! ### The range of a dimension in double arithmetic -/

/-- **C02**, in binary64 arithmetic: a position between the outermost samples selects a sample that is at
most half a spacing away, up to `3 δ + size / 2^47` spacings. -/
theorem C02_double_half_spacing (cellCentered : Bool) (a : NcAxis) (p δ : ℚ) (h2 : 2 ≤ a.size)
    (hr : DoubleRange a p) (hδ : 0 ≤ δ) (hu : AlmostUniform a δ)
    (hmin : min (coord a 0) (coord a (a.size - 1)) ≤ p)
    (hmax : p ≤ max (coord a 0) (coord a (a.size - 1))) :
    ∃ k, pos2indexDim .ieee (openAxis .ieee cellCentered a) (.fin p) = some k ∧ k < a.size ∧
      |p - coord a k| ≤ (1 / 2 + 3 * δ + a.size / 2 ^ 47) * |meanSpacing a| := by
  obtain ⟨k, hk, hlt, hnear⟩ := double_dim cellCentered a p δ (by omega) hr hδ hu
  refine ⟨k, hk, hlt, ?_⟩
  have hm : (1 : ℚ) ≤ ((a.size - 1 : ℕ) : ℚ) := by exact_mod_cast (by omega : 1 ≤ a.size - 1)
  have hlast : coord a (a.size - 1) = coord a 0 + ((a.size - 1 : ℕ) : ℚ) * meanSpacing a := by
    unfold meanSpacing; field_simp; ring
  have hs0 : meanSpacing a ≠ 0 := by
    obtain ⟨_, ⟨h, _⟩ | ⟨_, h, _⟩⟩ := hr
    · omega
    · intro h0; rw [h0, abs_zero] at h; exact absurd h (by decide +kernel)
  -- the exact position of `p` in units of the spacing
  obtain ⟨t, ht⟩ : ∃ t, t = (p - coord a 0) / meanSpacing a := ⟨_, rfl⟩
  have hpt : p = coord a 0 + t * meanSpacing a := by rw [ht]; field_simp; ring
  have ht0 : 0 ≤ t ∧ t ≤ ((a.size - 1 : ℕ) : ℚ) := by
    rcases lt_or_gt_of_ne hs0 with hs | hs
    · have : coord a (a.size - 1) ≤ coord a 0 := by rw [hlast]; nlinarith
      rw [min_eq_right this] at hmin
      rw [max_eq_left this] at hmax
      constructor <;> nlinarith
    · have : coord a 0 ≤ coord a (a.size - 1) := by rw [hlast]; nlinarith
      rw [min_eq_left this] at hmin
      rw [max_eq_right this] at hmax
      constructor <;> nlinarith
  obtain ⟨j, hj, hjt⟩ : ∃ j : ℕ, j < a.size ∧ |t - j| ≤ 1 / 2 := by
    have f1 := Nat.floor_le (a := t + 1 / 2) (by linarith)
    have f2 := Nat.lt_floor_add_one (t + 1 / 2)
    refine ⟨⌊t + 1 / 2⌋₊, ?_, abs_le.2 ⟨by linarith, by linarith⟩⟩
    have : ⌊t + 1 / 2⌋₊ < a.size - 1 + 1 := by
      rw [Nat.floor_lt (by linarith)]
      push_cast
      linarith
    omega
  have h3 := hnear j hj
  have h4 := hu j hj
  have h5 : |p - (coord a 0 + j * meanSpacing a)| ≤ 1 / 2 * |meanSpacing a| := by
    rw [hpt, show coord a 0 + t * meanSpacing a - (coord a 0 + j * meanSpacing a) =
      (t - j) * meanSpacing a by ring, abs_mul]
    exact mul_le_mul_of_nonneg_right hjt (abs_nonneg _)
  have h6 := abs_sub_le p (coord a 0 + j * meanSpacing a) (coord a j)
  rw [abs_sub_comm (coord a 0 + j * meanSpacing a)] at h6
  generalize (a.size : ℚ) / 2 ^ 47 = τ at *
  nlinarith

/-- The hypotheses hold for the descending dimension of the example at position 8.9. -/
example : DoubleRange ⟨3, some fun i => 10 - 2 * i⟩ 8.9 ∧
    pos2indexDim .ieee (openAxis .ieee true ⟨3, some fun i => 10 - 2 * i⟩) (.fin 8.9) = some 1 := by
  have m1 : meanSpacing ⟨3, some fun i => 10 - 2 * i⟩ = -2 := by norm_num [meanSpacing, coord]
  exact ⟨⟨by norm_num, .inr ⟨by norm_num, by rw [m1]; decide +kernel, by rw [m1]; decide +kernel⟩⟩,
    by decide +kernel⟩

end Asagi.Props
