import Verif.Model.Index
/-
Specification vocabulary for coordinates.
-/
namespace Asagi.Spec

/-- The coordinate of sample `i` of a dimension: the value of the coordinate variable, or `i`
itself if the file has no coordinate variable. -/
def coord (a : NcAxis) (i : Nat) : ℚ :=
  match a.coords with
  | none => i
  | some c => c i

/-- The samples are equidistant with signed distance `s ≠ 0`. -/
def Uniform (a : NcAxis) (s : ℚ) : Prop :=
  s ≠ 0 ∧ ∀ i, i < a.size → coord a i = coord a 0 + i * s

/-- `k` is the sample nearest to `p`; on ties the one with the larger index. -/
def IsNearest (a : NcAxis) (p : ℚ) (k : Nat) : Prop :=
  k < a.size ∧ ∀ j, j < a.size →
    |p - coord a k| ≤ |p - coord a j| ∧ (|p - coord a k| = |p - coord a j| → j ≤ k)

/-- The samples are equidistant (always true for one sample). -/
def Regular (a : NcAxis) : Prop := ∃ s, Uniform a s

/-- `idx` (file order) is the index of the sample that a getter must return for the position
`pos` (API order): component `n` of the position selects the nearest sample of the file's
dimension `dims - 1 - n`. -/
def Selected (nc : List NcAxis) (pos : List ℚ) (idx : List Nat) : Prop :=
  idx.length = nc.length ∧ ∀ n, n < nc.length → ∃ a p k,
    nc[nc.length - 1 - n]? = some a ∧ pos[n]? = some p ∧ idx[nc.length - 1 - n]? = some k ∧
      IsNearest a p k

/-- A file whose dimensions are not empty, fit into 64 bit and have equidistant samples. -/
def RegularFile (nc : List NcAxis) : Prop :=
  nc ≠ [] ∧ ∀ a ∈ nc, 1 ≤ a.size ∧ a.size < 2 ^ 64 ∧ Regular a

/-- The mean distance of neighbouring samples, with sign. -/
def meanSpacing (a : NcAxis) : ℚ := (coord a (a.size - 1) - coord a 0) / (a.size - 1 : ℕ)

/-- The samples deviate by at most `δ` spacings from equidistant ones. -/
def AlmostUniform (a : NcAxis) (δ : ℚ) : Prop :=
  ∀ i, i < a.size → |coord a i - (coord a 0 + i * meanSpacing a)| ≤ δ * |meanSpacing a|

/-- No sample is closer to `p` than sample `k` by more than `tol`. -/
def NearestUpTo (a : NcAxis) (tol p : ℚ) (k : Nat) : Prop :=
  k < a.size ∧ ∀ j, j < a.size → |p - coord a k| ≤ |p - coord a j| + tol

/-- The position `p` is so close to sample `i` that neither rounding errors nor irregular samples (by at
most `δ` spacings) can make another sample the nearest one: the distance is below half a spacing, less
`2 δ + size / 2^48` spacings. -/
def ClearlyNearest (a : NcAxis) (δ p : ℚ) (i : Nat) : Prop :=
  i < a.size ∧ (a.size = 1 ∨ |p - coord a i| < (1 / 2 - 2 * δ - a.size / 2 ^ 48) * |meanSpacing a|)

/-- Component `n` of the position is clearly nearest to the sample with index `idx[dims - 1 - n]`. -/
def ClearlySelected (nc : List NcAxis) (δ : ℚ) (pos : List ℚ) (idx : List Nat) : Prop :=
  idx.length = nc.length ∧ ∀ n, n < nc.length → ∃ a p k,
    nc[nc.length - 1 - n]? = some a ∧ pos[n]? = some p ∧ idx[nc.length - 1 - n]? = some k ∧
      ClearlyNearest a δ p k

/-- The coordinates of the sample `idx`, in the order of the API (the dimensions of the file reversed). -/
def samplePos (nc : List NcAxis) (idx : List Nat) : List ℚ :=
  (List.zipWith coord nc idx).reverse

/-- A file with samples that the library can tell apart in double arithmetic: the samples deviate by at
most 1/8 spacing from equidistant ones, there are at most 2^45 of them in a dimension, and the spacing
is neither tiny nor huge. -/
def ReadableFile (nc : List NcAxis) : Prop :=
  nc ≠ [] ∧ ∀ a ∈ nc, 0 < a.size ∧ a.size ≤ 2 ^ 45 ∧ AlmostUniform a (1 / 8) ∧
    (a.size = 1 ∨ 1 / 2 ^ 900 ≤ |meanSpacing a| ∧ |meanSpacing a| ≤ 2 ^ 900)

/-- The smallest coordinate that belongs to the grid: that of the outermost sample, in cell-centered grids
half a spacing further. -/
def lowerEdge (cellCentered : Bool) (a : NcAxis) : ℚ :=
  min (coord a 0) (coord a (a.size - 1)) - if cellCentered then |meanSpacing a| / 2 else 0

/-- The largest coordinate that belongs to the grid. -/
def upperEdge (cellCentered : Bool) (a : NcAxis) : ℚ :=
  max (coord a 0) (coord a (a.size - 1)) + if cellCentered then |meanSpacing a| / 2 else 0

/-- The sample with the `k`-th smallest coordinate. -/
def kthSample (a : NcAxis) (k : Nat) : Nat :=
  if coord a 0 ≤ coord a (a.size - 1) then k else a.size - 1 - k

/-- The position that an application computes, in its own floating point arithmetic, for the `k`-th sample
of a dimension from the reported minimum and spacing: `min + k * delta`, in cell-centered grids
`min + (k + 0.5) * delta`. -/
def walkPos (fp : Fp) (cellCentered : Bool) (min delta : Dbl) (k : Nat) : Dbl :=
  fp.add min (fp.mul (if cellCentered then fp.add (fp.ofNat k) (.fin (1 / 2)) else fp.ofNat k) delta)

/-- The coordinates are not huge compared to the spacing (otherwise `min + k * delta` cannot be computed
accurately). -/
def ModestCoords (a : NcAxis) : Prop :=
  |coord a 0| ≤ 2 ^ 40 * |meanSpacing a| ∧ |coord a (a.size - 1)| ≤ 2 ^ 40 * |meanSpacing a|

end Asagi.Spec
