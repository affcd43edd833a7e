import Verif.Model.Types
import Mathlib.Data.List.Basic
/-
Properties of the value types: C43, C51, C53, C55.
-/
namespace Asagi.Props
open Asagi

/-! ### C43: size checks -/

theorem scalar_size_pos (s : Scalar) : 0 < s.size := by cases s <;> decide

theorem array_checkAll (s : Scalar) (vs : List Nat) (hpos : ∀ v ∈ vs, 0 < v) (fixed : Nat) :
    let r := (TypeObj.mk (.array s) fixed).checkAll vs
    let first : Option Nat := if fixed = 0 then vs.find? (fun v => v % s.size = 0)
      else some (fixed * s.size)
    r.1.cls = .array s ∧ r.2.length = vs.length ∧ r.1.size = first.getD 0 ∧
    ∀ (i v : Nat), vs[i]? = some v →
      r.2[i]? = some (if v % s.size ≠ 0 then .INVALID_VAR_SIZE
        else if some v = first then .SUCCESS else .WRONG_SIZE) := by
  have hs := scalar_size_pos s
  induction vs generalizing fixed with
  | nil =>
    refine ⟨rfl, rfl, ?_, by simp⟩
    by_cases h : fixed = 0
    · simp [TypeObj.checkAll, TypeObj.size, h]
    · simp [TypeObj.checkAll, TypeObj.size, h]
  | cons v vs ih =>
    have hv := hpos v (by simp)
    have hpos' : ∀ x ∈ vs, 0 < x := fun x hx => hpos x (by simp [hx])
    intro r first
    by_cases hm : v % s.size = 0
    · have hdiv : v / s.size ≠ 0 := by
        intro h0
        have := Nat.div_add_mod v s.size
        rw [h0, hm] at this; simp at this; omega
      have hmul : v / s.size * s.size = v := Nat.div_mul_cancel (Nat.dvd_of_mod_eq_zero hm)
      by_cases h0 : fixed = 0
      · -- first accepted file
        have hr : r = ((TypeObj.mk (.array s) (v / s.size)).checkAll vs |>.1,
            .SUCCESS :: ((TypeObj.mk (.array s) (v / s.size)).checkAll vs).2) := by
          simp [r, TypeObj.checkAll, TypeObj.check, hm, h0]
        have hf : first = some v := by simp [first, h0, hm]
        obtain ⟨i1, i2, i3, i4⟩ := ih hpos' (v / s.size)
        simp only [hdiv, if_false, hmul] at i3 i4
        rw [hr, hf]
        refine ⟨i1, by simp [i2], by simpa using i3, ?_⟩
        intro i w hw
        cases i with
        | zero =>
          simp only [List.getElem?_cons_zero, Option.some.injEq] at hw ⊢
          subst hw
          simp [hm]
        | succ i =>
          simp only [List.getElem?_cons_succ] at hw ⊢
          exact i4 i w hw
      · have hf : first = some (fixed * s.size) := by simp [first, h0]
        have hr : r = ((TypeObj.mk (.array s) fixed).checkAll vs |>.1,
            (if v / s.size ≠ fixed then Error.WRONG_SIZE else .SUCCESS) ::
              ((TypeObj.mk (.array s) fixed).checkAll vs).2) := by
          by_cases he : v / s.size = fixed <;>
            simp [r, TypeObj.checkAll, TypeObj.check, hm, h0, he]
        obtain ⟨i1, i2, i3, i4⟩ := ih hpos' fixed
        simp only [h0, if_false] at i3 i4
        rw [hr, hf]
        refine ⟨i1, by simp [i2], i3, ?_⟩
        intro i w hw
        cases i with
        | zero =>
          simp only [List.getElem?_cons_zero, Option.some.injEq] at hw ⊢
          subst hw
          by_cases he : v / s.size = fixed
          · have : v = fixed * s.size := by rw [← he, hmul]
            simp [this, Nat.mul_div_cancel _ hs]
          · have : ¬ v = fixed * s.size := by
              intro hh; apply he; rw [hh, Nat.mul_div_cancel _ hs]
            simp [hm, he, this]
        | succ i =>
          simp only [List.getElem?_cons_succ] at hw ⊢
          exact i4 i w hw
    · have hr : r = ((TypeObj.mk (.array s) fixed).checkAll vs |>.1,
          .INVALID_VAR_SIZE :: ((TypeObj.mk (.array s) fixed).checkAll vs).2) := by
        simp [r, TypeObj.checkAll, TypeObj.check, hm]
      have hf : first = if fixed = 0 then vs.find? (fun v => v % s.size = 0)
          else some (fixed * s.size) := by simp [first, hm]
      obtain ⟨i1, i2, i3, i4⟩ := ih hpos' fixed
      rw [hr, hf]
      refine ⟨i1, by simp [i2], i3, ?_⟩
      intro i w hw
      cases i with
      | zero =>
        simp only [List.getElem?_cons_zero, Option.some.injEq] at hw ⊢
        subst hw
        simp [hm]
      | succ i =>
        simp only [List.getElem?_cons_succ] at hw ⊢
        exact i4 i w hw

/-- **C43, arrays.** For any sequence of opened levels with variables of the sizes `vs`: a level
is rejected with INVALID_VAR_SIZE exactly if the size is not a multiple of the element size;
otherwise it is accepted exactly if it has the size of the first acceptable variable and rejected
with WRONG_SIZE if not; getVarSize reports the size of the first acceptable variable. -/
theorem C43_array (s : Scalar) (vs : List Nat) (hpos : ∀ v ∈ vs, 0 < v) :
    let r := (TypeObj.new (.array s)).checkAll vs
    let first := vs.find? (fun v => v % s.size = 0)
    r.2.length = vs.length ∧ r.1.size = first.getD 0 ∧
    ∀ (i v : Nat), vs[i]? = some v →
      r.2[i]? = some (if v % s.size ≠ 0 then .INVALID_VAR_SIZE
        else if some v = first then .SUCCESS else .WRONG_SIZE) := by
  have h := array_checkAll s vs hpos 0
  simp only [if_true] at h
  exact ⟨h.2.1, h.2.2.1, h.2.2.2⟩

example : (∀ v ∈ [6, 8, 12, 8, 3], 0 < v) ∧ ((TypeObj.new (.array .float)).checkAll [6, 8, 12, 8, 3]).2 =
    [.INVALID_VAR_SIZE, .SUCCESS, .WRONG_SIZE, .SUCCESS, .INVALID_VAR_SIZE] := by decide

theorem struct_checkAll (s : Scalar) (vs : List Nat) (fixed : Nat) (hf : fixed ≠ 0) :
    let r := (TypeObj.mk (.struct s) fixed).checkAll vs
    r.1 = TypeObj.mk (.struct s) fixed ∧
    r.2 = vs.map (fun v => if v = fixed then .SUCCESS else .WRONG_SIZE) := by
  induction vs with
  | nil => exact ⟨rfl, rfl⟩
  | cons v vs ih =>
    have hc : (TypeObj.mk (.struct s) fixed).check v =
        (TypeObj.mk (.struct s) fixed, if v = fixed then .SUCCESS else .WRONG_SIZE) := by
      by_cases h : v = fixed <;> simp [TypeObj.check, hf, h]
    simp only [TypeObj.checkAll, hc, List.map_cons]
    exact ⟨ih.1, by rw [ih.2]⟩

/-- **C43, structs.** The first variable fixes the size; later variables are accepted exactly if
they have this size. -/
theorem C43_struct (s : Scalar) (v : Nat) (vs : List Nat) (hpos : 0 < v) :
    let r := (TypeObj.new (.struct s)).checkAll (v :: vs)
    r.1.size = v ∧
    r.2 = .SUCCESS :: vs.map (fun w => if w = v then .SUCCESS else .WRONG_SIZE) := by
  have h := struct_checkAll s vs v (by omega)
  have hc : (TypeObj.new (.struct s)).check v = (TypeObj.mk (.struct s) v, .SUCCESS) := by
    simp [TypeObj.check, TypeObj.new]
  simp only [TypeObj.checkAll, hc]
  refine ⟨by rw [h.1]; rfl, by rw [h.2]⟩

example : ((TypeObj.new (.struct .float)).checkAll [16, 8, 16]).2 =
    [.SUCCESS, .WRONG_SIZE, .SUCCESS] := by decide

/-- **C43, basic types.** All variables are accepted (netCDF converts the values); the value size is
the size of the C type. -/
theorem C43_basic (s : Scalar) (vs : List Nat) :
    let r := (TypeObj.new (.basic s)).checkAll vs
    r.1.size = s.size ∧ r.2 = vs.map (fun _ => .SUCCESS) := by
  induction vs with
  | nil => exact ⟨rfl, rfl⟩
  | cons v vs ih =>
    have hc : (TypeObj.new (.basic s)).check v = (TypeObj.new (.basic s), .SUCCESS) := rfl
    simp only [TypeObj.checkAll, hc, List.map_cons]
    exact ⟨ih.1, by rw [ih.2]⟩

/-- **C53, violated.** A struct grid described as an int followed by a double is opened with a
variable of one byte. -/
theorem C53_struct_description_violated :
    ((TypeObj.new (GridCreate.createStruct .int [.double]).typeClass).check 1).2 = .SUCCESS := by
  decide

/-- **C53, partial.** Proved: the description has no influence on the result; the size of a
struct value is the size of the variable in the first file. Missing (and false): the size is the
size of the described struct. -/
theorem C53_struct_size_partial (first : Scalar) (rest : List Scalar) (v : Nat) :
    ((TypeObj.new (GridCreate.createStruct first rest).typeClass).check v).2 = .SUCCESS ∧
    ((TypeObj.new (GridCreate.createStruct first rest).typeClass).check v).1.size = v := by
  simp [GridCreate.typeClass, TypeObj.new, TypeObj.check, TypeObj.size]

/-! ### C55: type selection -/

/-- **C55.** The container is created for exactly the value type of the grid, although arrays and
structs are also basic types for the dynamic cast. -/
theorem C55_type_selection (g : GridCreate) : typeSelect typeList g.typeClass = some g.typeClass := by
  cases g with
  | create t => cases t <;> decide
  | createArray t => cases t <;> decide
  | createStruct t r => cases t <;> rfl

/-! ### C51: getters -/

/-- The memory image of a list of values. -/
def image {α : Type} (enc : α → List UInt8) (vals : List α) : Mem UInt8 := vals.flatMap enc

/-- The bytes of value `i` are at `size * i`. -/
theorem image_slice {α : Type} (enc : α → List UInt8) (size : Nat) (vals : List α)
    (henc : ∀ v ∈ vals, (enc v).length = size) (i : Nat) (v : α) (h : vals[i]? = some v) :
    Mem.slice (image enc vals) (size * i) size = some (enc v) := by
  have hlen : ∀ l : List α, (∀ v ∈ l, (enc v).length = size) →
      (image enc l).length = size * l.length := by
    intro l
    induction l with
    | nil => intro _; simp [image]
    | cons x xs ih =>
      intro hl
      have hx := hl x (by simp)
      have := ih (fun y hy => hl y (by simp [hy]))
      simp only [image, List.flatMap_cons, List.length_append, List.length_cons] at this ⊢
      rw [this, hx, Nat.mul_succ]; omega
  induction vals generalizing i with
  | nil => simp at h
  | cons x xs ih =>
    have hx := henc x (by simp)
    have hxs : ∀ y ∈ xs, (enc y).length = size := fun y hy => henc y (by simp [hy])
    cases i with
    | zero =>
      simp only [List.getElem?_cons_zero, Option.some.injEq] at h
      subst h
      simp only [Mem.slice, image, List.flatMap_cons]
      rw [if_pos (by simp; omega)]
      simp [List.take_left' hx]
    | succ i =>
      simp only [List.getElem?_cons_succ] at h
      have := ih hxs i h
      simp only [Mem.slice] at this ⊢
      split at this
      · rename_i hle
        simp only [Option.some.injEq] at this
        have e : image enc (x :: xs) = enc x ++ image enc xs := by simp [image]
        rw [e, if_pos (by rw [List.length_append, hx, Nat.mul_succ]; omega)]
        rw [show size * (i + 1) = (enc x).length + size * i by rw [hx, Nat.mul_succ]; omega,
          ← List.drop_drop, List.drop_left, this]
      · cases this

/-- **C51, getBuf.** For any value type, getBuf writes exactly getVarSize bytes: all bytes of the
value in file order; the rest of the user's buffer is not touched. -/
theorem C51_get_buf {α : Type} (enc : α → List UInt8) (t : TypeObj) (vals : List α)
    (henc : ∀ v ∈ vals, (enc v).length = t.size) (i : Nat) (v : α) (h : vals[i]? = some v)
    (buf : List UInt8) (hbuf : t.size ≤ buf.length) :
    t.convertBuf (image enc vals) (t.size * i) buf = some (enc v ++ buf.drop t.size) := by
  have hl := henc v (List.mem_of_getElem? h)
  simp only [TypeObj.convertBuf, Option.bind_eq_bind]
  rw [image_slice enc t.size vals henc i v h]
  simp only [Option.bind_some, memcpyTo]
  rw [if_pos (by omega), hl]

/-- Non-trivial case: three values of two bytes each, the user's buffer is larger. -/
example : (TypeObj.mk (.array .byte) 2).convertBuf (image id [[1, 2], [3, 4], [5, 6]]) (2 * 1) [9, 9, 9] =
    some [3, 4, 9] := by decide

/-- **C51, violated** for typed getters of arrays: for every array with more than one element,
getDouble (for example) on an array of doubles writes past the end of its result variable. -/
theorem C51_typed_overflow_violated (conv : Scalar → Scalar → List UInt8 → List UInt8)
    (s : Scalar) (n : Nat) (hn : 1 < n) (data : Mem UInt8) (base : Nat) (buf : List UInt8)
    (hbuf : buf.length = s.size) :
    (TypeObj.mk (.array s) n).convertScalar conv s data base buf = none := by
  have hs := scalar_size_pos s
  have hlt : s.size < n * s.size := by
    calc s.size = 1 * s.size := (Nat.one_mul _).symm
      _ < n * s.size := Nat.mul_lt_mul_of_pos_right hn hs
  simp only [TypeObj.convertScalar, TypeObj.convertBuf, TypeObj.size, Option.bind_eq_bind]
  cases hsl : Mem.slice data base (n * s.size) with
  | none => rfl
  | some src =>
    simp only [Option.bind_some, memcpyTo]
    have : src.length = n * s.size := by
      unfold Mem.slice at hsl
      split at hsl
      · simp only [Option.some.injEq] at hsl
        subst hsl
        simp; omega
      · cases hsl
    rw [if_neg (by omega)]

/-- **C51, violated** for typed getters of arrays: with one element of another type there is no
conversion: an int 1 read with getFloat yields the float with the bits of 1. -/
theorem C51_typed_conversion_violated :
    ∃ (conv : Scalar → Scalar → List UInt8 → List UInt8) (data : Mem UInt8),
      conv .int .float data = [0, 0, 0x80, 0x3f] ∧
      (TypeObj.mk (.array .int) 1).convertScalar conv .float data 0 [0, 0, 0, 0] =
        some [1, 0, 0, 0] :=
  ⟨fun s t d => if s = .int ∧ t = .float ∧ d = [1, 0, 0, 0] then [0, 0, 0x80, 0x3f] else d,
    [1, 0, 0, 0], by decide, by decide⟩

/-- **C51, partial.** Proved: for basic types the typed getters deliver the converted value; for
arrays of exactly one element of the requested type they deliver this element. Missing (and
false): arrays with more elements or conversions, structs. -/
theorem C51_typed_partial {α : Type} (conv : Scalar → Scalar → List UInt8 → List UInt8)
    (hconv : ∀ s t d, (conv s t d).length = t.size) (enc : α → List UInt8) (s target : Scalar)
    (vals : List α) (henc : ∀ v ∈ vals, (enc v).length = s.size) (i : Nat) (v : α)
    (h : vals[i]? = some v) (buf : List UInt8) (hbuf : buf.length = target.size) :
    (TypeObj.mk (.basic s) 0).convertScalar conv target (image enc vals) (s.size * i) buf =
      some (conv s target (enc v)) ∧
    (target = s → (TypeObj.mk (.array s) 1).convertScalar conv target (image enc vals)
      (s.size * i) buf = some (enc v)) := by
  have hl := henc v (List.mem_of_getElem? h)
  constructor
  · simp only [TypeObj.convertScalar, Option.bind_eq_bind]
    rw [image_slice enc s.size vals henc i v h]
    simp only [Option.bind_some, memcpyTo]
    rw [if_pos (by rw [hconv]; omega), List.drop_eq_nil_of_le (by rw [hconv]; omega), List.append_nil]
  · rintro rfl
    simp only [TypeObj.convertScalar, TypeObj.convertBuf, TypeObj.size, Nat.one_mul,
      Option.bind_eq_bind]
    rw [image_slice enc target.size vals henc i v h]
    simp only [Option.bind_some, memcpyTo]
    rw [if_pos (by omega), List.drop_eq_nil_of_le (by omega), List.append_nil]

example : (TypeObj.mk (.basic .int) 0).convertScalar (fun _ t _ => List.replicate t.size 7) .double
    (image id [[1, 2, 3, 4], [5, 6, 7, 8]]) (4 * 1) (List.replicate 8 0) =
    some [7, 7, 7, 7, 7, 7, 7, 7] := by decide

end Asagi.Props
