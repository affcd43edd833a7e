import Verif.Model.Api
import Verif.Model.Mem
/-
Value types: types/basictype.h, types/arraytype.h, types/structtype.h, types/structtype.cpp,
the type selection of grid/grid.cpp 61-101, 108-174, 299-315.

Values are lists of bytes here (`UInt8`), memory is `Mem UInt8`. Sizes of the C types are those
of 64-bit Linux. The creation of the MPI data types is not modelled (assumed to succeed).
-/
namespace Asagi

/-- `asagi::Grid::Type`. asagi.h 74-85. -/
inductive Scalar where
  | byte | int | long | float | double
deriving DecidableEq, Repr

/-- `sizeof` of the C type. arraytype.h 92-95. -/
def Scalar.size : Scalar → Nat
  | .byte => 1
  | .int => 4
  | .long => 8
  | .float => 4
  | .double => 8

/-- The class of `m_type`: BasicType<T>, ArrayType<T>, StructType<T> (T is the type of the first
element, structtype.cpp 45-75). -/
inductive TypeClass where
  | basic (t : Scalar)
  | array (t : Scalar)
  | struct (t : Scalar)
deriving DecidableEq, Repr

/-- How the user creates a grid: `create`, `createArray`, `createStruct` (grid.cpp 108-174). -/
inductive GridCreate where
  | create (t : Scalar)
  | createArray (t : Scalar)
  | createStruct (first : Scalar) (rest : List Scalar)
deriving DecidableEq, Repr

/-- Constructors of grid::Grid, grid.cpp 108-174, and `createStruct`, structtype.cpp 45-75. -/
def GridCreate.typeClass : GridCreate → TypeClass
  | .create t => .basic t
  | .createArray t => .array t
  | .createStruct t _ => .struct t

/-- The type list, grid.cpp 299-315. -/
def typeList : List TypeClass :=
  [.array .byte, .array .int, .array .long, .array .float, .array .double,
   .struct .byte, .struct .int, .struct .long, .struct .float, .struct .double,
   .basic .byte, .basic .int, .basic .long, .basic .float, .basic .double]

/-- Does `dynamic_cast<Head*>(m_type)` succeed: ArrayType<T> and StructType<T> are derived from
BasicType<T> (arraytype.h 56, structtype.h 53). -/
def dynamicCast (head actual : TypeClass) : Bool :=
  head == actual ||
  match head, actual with
  | .basic s, .array t => s == t
  | .basic s, .struct t => s == t
  | _, _ => false

/-- `TypeSelector::createContainer`, grid.cpp 61-101: the first type of the list that fits. -/
def typeSelect (l : List TypeClass) (actual : TypeClass) : Option TypeClass :=
  match l with
  | [] => none
  | head :: tail => if dynamicCast head actual then some head else typeSelect tail actual

/-- A type object: its class and the size fixed by the first file (`m_arraySize`,
arraytype.h 60; `m_size`, structtype.h 63). -/
structure TypeObj where
  cls : TypeClass
  fixed : Nat
deriving DecidableEq, Repr

/-- A new type object, arraytype.h 71-77, structtype.h 89-92. -/
def TypeObj.new (cls : TypeClass) : TypeObj := ⟨cls, 0⟩

/-- `check`: basictype.h 55-58, arraytype.h 90-121, structtype.h 143-192. `varSize` is the size of
the variable in the file in bytes. -/
def TypeObj.check (t : TypeObj) (varSize : Nat) : TypeObj × Error :=
  match t.cls with
  | .basic _ => (t, .SUCCESS)
  | .array s =>
    if varSize % s.size ≠ 0 then (t, .INVALID_VAR_SIZE)
    else
      let arraySize := varSize / s.size
      if t.fixed = 0 then ({ t with fixed := arraySize }, .SUCCESS)
      else if arraySize ≠ t.fixed then (t, .WRONG_SIZE)
      else (t, .SUCCESS)
  | .struct _ =>
    if t.fixed = 0 then ({ t with fixed := varSize }, .SUCCESS)
    else if varSize ≠ t.fixed then (t, .WRONG_SIZE)
    else (t, .SUCCESS)

/-- `size`: basictype.h 60-63, arraytype.h 123-126, structtype.h 194-197. Also `getVarSize`,
grid.h 144-147. -/
def TypeObj.size (t : TypeObj) : Nat :=
  match t.cls with
  | .basic s => s.size
  | .array s => t.fixed * s.size
  | .struct _ => t.fixed

/-- Several levels are opened one after the other.
arraytype.h 90-121, structtype.h 143-192, one call after the other. -/
def TypeObj.checkAll (t : TypeObj) : List Nat → TypeObj × List Error
  | [] => (t, [])
  | v :: vs =>
    let (t1, e) := t.check v
    let (t2, es) := t1.checkAll vs
    (t2, e :: es)

/-- `memcpy` to a destination: nothing fits that is larger than the destination (`none` is the
undefined behaviour of writing past its end). basictype.h 93-96, arraytype.h 149-152, structtype.h 220-223. -/
def memcpyTo (dest : List UInt8) (src : List UInt8) : Option (List UInt8) :=
  if src.length ≤ dest.length then some (src ++ dest.drop src.length) else none

/-- The call `type().convert(&data[base], buf)` with `void* buf` (getBuf): basictype.h 93-96,
arraytype.h 149-152, structtype.h 220-223 and `Type::copy`, type.h 85-88. -/
def TypeObj.convertBuf (t : TypeObj) (data : Mem UInt8) (base : Nat) (buf : List UInt8) :
    Option (List UInt8) := do
  let src ← Mem.slice data base t.size
  memcpyTo buf src

/-- The call `type().convert(&data[base], buf)` with `B* buf` for a scalar type `B` (getByte,
..., getDouble; grid.h 149-187). `conv` is the C++ conversion between scalars, on the object
representations. For BasicType the template of basictype.h 84-88 is called. ArrayType and
StructType declare their own `convert(const void*, void*)`, which hides the template of the base
class (there is no using declaration), and the level classes call it on the derived type
(full.h 159-162, cache.h 145, ...): overload resolution selects the function that copies `size()`
bytes. -/
def TypeObj.convertScalar (conv : Scalar → Scalar → List UInt8 → List UInt8) (t : TypeObj)
    (target : Scalar) (data : Mem UInt8) (base : Nat) (buf : List UInt8) : Option (List UInt8) :=
  match t.cls with
  | .basic s => do
    let src ← Mem.slice data base s.size
    memcpyTo buf (conv s target src)
  | .array _ => t.convertBuf data base buf
  | .struct _ => t.convertBuf data base buf

end Asagi
