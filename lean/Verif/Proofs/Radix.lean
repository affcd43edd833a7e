import Verif.Model.NetCdf
import Verif.Spec.Grid
/- Mixed radix arithmetic used by the block decomposition proofs. -/
namespace Asagi
open Spec

theorem prodLoop_eq (xs : List Nat) (acc : Nat) : prodLoop xs acc = acc * prod xs := by
  induction xs generalizing acc with
  | nil => simp [prodLoop, prod]
  | cons x xs ih => simp [prodLoop, prod, ih, Nat.mul_assoc]

theorem prod_append (xs ys : List Nat) : prod (xs ++ ys) = prod xs * prod ys := by
  induction xs with
  | nil => simp [prod]
  | cons x xs ih => simp [prod, ih, Nat.mul_assoc]

theorem prod_reverse (xs : List Nat) : prod xs.reverse = prod xs := by
  induction xs with
  | nil => rfl
  | cons x xs ih => simp [prod_append, prod, ih, Nat.mul_comm]

theorem prod_pos {xs : List Nat} (h : ∀ x ∈ xs, 0 < x) : 0 < prod xs := by
  induction xs with
  | nil => simp [prod]
  | cons x xs ih =>
    exact Nat.mul_pos (h x (by simp)) (ih fun y hy => h y (by simp [hy]))

theorem Spec.InBox.length_eq {s i : List Nat} (h : InBox s i) : i.length = s.length := by
  induction s generalizing i with
  | nil => cases i <;> simp_all [InBox]
  | cons a s ih => cases i with
    | nil => simp [InBox] at h
    | cons b i => simp [ih h.2]

/-- Horner scheme, the common shape of the loops in blocked.h 217-220 and 301-304. -/
def horner : List Nat → List Nat → Nat → Nat
  | n :: ns, i :: is, acc => horner ns is (acc * n + i)
  | _, _, acc => acc

theorem horner_acc {s i : List Nat} (h : i.length = s.length) (acc : Nat) :
    horner s i acc = acc * prod s + rowMajor s i := by
  induction s generalizing i acc with
  | nil => cases i <;> simp_all [horner, prod, rowMajor]
  | cons n s ih => cases i with
    | nil => simp at h
    | cons x i =>
      simp only [horner, prod, rowMajor]
      rw [ih (by simpa using h)]
      simp [Nat.add_mul, Nat.mul_assoc, Nat.add_assoc]

theorem rowMajor_lt {s i : List Nat} (h : InBox s i) : rowMajor s i < prod s := by
  induction s generalizing i with
  | nil => cases i <;> simp_all [InBox, rowMajor, prod]
  | cons n s ih => cases i with
    | nil => simp [InBox] at h
    | cons x i =>
      have h1 := ih h.2
      have h2 : (x + 1) * prod s ≤ n * prod s := Nat.mul_le_mul_right _ h.1
      simp only [rowMajor, prod]
      rw [Nat.add_mul] at h2; omega

theorem rowMajor_inj {s i j : List Nat} (hi : InBox s i) (hj : InBox s j)
    (h : rowMajor s i = rowMajor s j) : i = j := by
  induction s generalizing i j with
  | nil => cases i <;> cases j <;> simp_all [InBox]
  | cons n s ih =>
    cases i with
    | nil => simp [InBox] at hi
    | cons x i => cases j with
      | nil => simp [InBox] at hj
      | cons y j =>
        simp only [rowMajor] at h
        have l1 := rowMajor_lt hi.2
        have l2 := rowMajor_lt hj.2
        have hxy : x = y := by
          have e1 : (x * prod s + rowMajor s i) / prod s = x := by
            rw [Nat.mul_comm, Nat.mul_add_div (by omega), Nat.div_eq_of_lt l1]; simp
          have e2 : (y * prod s + rowMajor s j) / prod s = y := by
            rw [Nat.mul_comm, Nat.mul_add_div (by omega), Nat.div_eq_of_lt l2]; simp
          rw [← e1, ← e2, h]
        subst hxy
        have := ih hi.2 hj.2 (by omega)
        rw [this]

/-! ### blocked.h loops as Horner schemes -/

theorem blockByCoordsLoop_eq (g : List Dim) (idx : List Nat) (acc : Nat) :
    blockByCoordsLoop g idx acc =
      horner (g.map Dim.blocks) (List.zipWith (fun d i => i / d.bs) g idx) acc := by
  induction g generalizing idx acc with
  | nil => simp [blockByCoordsLoop, horner]
  | cons d g ih => cases idx <;> simp [blockByCoordsLoop, horner, ih]

theorem calcOffsetInBlockLoop_eq (g : List Dim) (idx : List Nat) (acc : Nat) :
    calcOffsetInBlockLoop g idx acc =
      horner (g.map Dim.bs) (List.zipWith (fun d i => i % d.bs) g idx) acc := by
  induction g generalizing idx acc with
  | nil => simp [calcOffsetInBlockLoop, horner]
  | cons d g ih => cases idx <;> simp [calcOffsetInBlockLoop, horner, ih]

/-- Well-formed geometry, established by `Blocked::open` (see `blockedOpen_wf`). -/
def GeomWF (g : List Dim) : Prop := ∀ d ∈ g, 0 < d.bs ∧ d.bs ≤ d.size

instance (g : List Dim) : Decidable (GeomWF g) := by unfold GeomWF; infer_instance

theorem GeomWF.tail {d : Dim} {g : List Dim} (h : GeomWF (d :: g)) : GeomWF g :=
  fun e he => h e (by simp [he])

theorem div_lt_blocks {d : Dim} (h : 0 < d.bs) {i : Nat} (hi : i < d.size) :
    i / d.bs < d.blocks := by
  unfold Dim.blocks
  rw [Nat.div_lt_iff_lt_mul h]
  have := Nat.lt_div_mul_add h (a := d.size + d.bs - 1)
  omega

theorem blocks_mul_ge {d : Dim} (h : 0 < d.bs) : d.size ≤ d.blocks * d.bs := by
  unfold Dim.blocks
  have := Nat.lt_div_mul_add h (a := d.size + d.bs - 1)
  omega

/-- `p` is a block coordinate iff its first value is inside the grid. -/
theorem lt_blocks_iff {d : Dim} (h : 0 < d.bs) (p : Nat) : p < d.blocks ↔ p * d.bs < d.size := by
  unfold Dim.blocks
  rw [Nat.lt_div_iff_mul_lt h]
  have : d.bs * p = p * d.bs := Nat.mul_comm _ _
  omega

theorem inBox_quot {g : List Dim} (hg : GeomWF g) {idx : List Nat}
    (h : InBox (g.map Dim.size) idx) :
    InBox (g.map Dim.blocks) (List.zipWith (fun d i => i / d.bs) g idx) := by
  induction g generalizing idx with
  | nil => cases idx <;> simp_all [InBox]
  | cons d g ih => cases idx with
    | nil => simp [InBox] at h
    | cons x idx =>
      exact ⟨div_lt_blocks (hg d (by simp)).1 h.1, ih hg.tail h.2⟩

theorem inBox_rem {g : List Dim} (hg : GeomWF g) {idx : List Nat}
    (h : InBox (g.map Dim.size) idx) :
    InBox (g.map Dim.bs) (List.zipWith (fun d i => i % d.bs) g idx) := by
  induction g generalizing idx with
  | nil => cases idx <;> simp_all [InBox]
  | cons d g ih => cases idx with
    | nil => simp [InBox] at h
    | cons x idx =>
      exact ⟨Nat.mod_lt _ (hg d (by simp)).1, ih hg.tail h.2⟩

theorem blockByCoords_eq (g : List Dim) {idx : List Nat} (h : idx.length = g.length) :
    blockByCoords g idx =
      rowMajor (g.map Dim.blocks) (List.zipWith (fun d i => i / d.bs) g idx) := by
  unfold blockByCoords
  rw [blockByCoordsLoop_eq, horner_acc (by simp [h])]
  simp

theorem calcOffsetInBlock_eq (g : List Dim) {idx : List Nat} (h : idx.length = g.length) :
    calcOffsetInBlock g idx =
      rowMajor (g.map Dim.bs) (List.zipWith (fun d i => i % d.bs) g idx) := by
  unfold calcOffsetInBlock
  rw [calcOffsetInBlockLoop_eq, horner_acc (by simp [h])]
  simp

theorem totalBlocks_eq (g : List Dim) : totalBlocks g = prod (g.map Dim.blocks) := by
  simp [totalBlocks, prodLoop_eq]

theorem totalBlockSize_eq (g : List Dim) : totalBlockSize g = prod (g.map Dim.bs) := by
  simp [totalBlockSize, prodLoop_eq]

theorem calcBlockPositionLoop_horner (g : List Dim) (rest : List Dim) (ds : List Nat)
    (h : InBox (g.map Dim.blocks) ds) (a : Nat) (pos : List Nat) :
    calcBlockPositionLoop (g.reverse ++ rest) (horner (g.map Dim.blocks) ds a) pos =
      calcBlockPositionLoop rest a (ds ++ pos) := by
  induction g generalizing rest ds a pos with
  | nil => cases ds <;> simp_all [InBox, horner]
  | cons d g ih => cases ds with
    | nil => simp [InBox] at h
    | cons x ds =>
      have hx : x < d.blocks := h.1
      simp only [List.map_cons, horner, List.reverse_cons, List.append_assoc]
      rw [ih _ _ h.2]
      simp only [calcBlockPositionLoop, List.cons_append]
      have e1 : (a * d.blocks + x) / d.blocks = a := by
        rw [Nat.mul_comm, Nat.mul_add_div (by omega), Nat.div_eq_of_lt hx]; simp
      have e2 : (a * d.blocks + x) % d.blocks = x := by
        rw [Nat.mul_comm, Nat.mul_add_mod, Nat.mod_eq_of_lt hx]
      rw [e1, e2, List.nil_append]

theorem calcBlockPosition_rowMajor {g : List Dim} {ds : List Nat}
    (h : InBox (g.map Dim.blocks) ds) :
    calcBlockPosition g (rowMajor (g.map Dim.blocks) ds) = ds := by
  have e := calcBlockPositionLoop_horner g [] ds h 0 []
  rw [horner_acc (by simpa using h.length_eq)] at e
  simpa [calcBlockPosition, calcBlockPositionLoop] using e

/-- Every number below the product is the row-major number of some position. -/
theorem exists_rowMajor {s : List Nat} {n : Nat} (h : n < prod s) :
    ∃ ds, InBox s ds ∧ rowMajor s ds = n := by
  induction s generalizing n with
  | nil => exact ⟨[], trivial, by simp [prod] at h; simp [rowMajor, h]⟩
  | cons x s ih =>
    have hp : 0 < prod s := by
      rcases Nat.eq_zero_or_pos (prod s) with h0 | h0
      · simp [prod, h0] at h
      · exact h0
    obtain ⟨ds, h1, h2⟩ := ih (Nat.mod_lt n hp)
    refine ⟨n / prod s :: ds, ⟨?_, h1⟩, ?_⟩
    · rw [Nat.div_lt_iff_lt_mul hp]; exact h
    · simp only [rowMajor, h2]; exact Nat.div_add_mod' n (prod s)

end Asagi
