import Verif.Model.Types
/-
The MPI data types of the values (types/basictype.h 99-128, types/arraytype.h 90-131, types/structtype.h 87-126,
143-202) and the copies of blocks, byte for byte: transfer/mpiwinfull.h 165-190, transfer/mpithreadfull.h 170-191,
transfer/mpiwincache.h 360-402, transfer/mpithreadcache.h 155-166 and 521-524, transfer/numafull.h 108-119,
transfer/numacache.h 115-127.

What an MPI data type is and how MPI copies is modelled as in the MPI standard (chapter 4): a list of basic
types with their displacements, and an extent; a message contains the bytes of the basic types, in this order.
Here a copy is one step; when it may happen is the subject of the models of the caches. MPI functions succeed.
-/
namespace Asagi

/-- The basic types of MPI that the code uses. basictype.h 99-128, structtype.h 103-119. -/
inductive MpiBasic where
  | byte | int | long | float | double
deriving DecidableEq, Repr

/-- Their sizes on 64-bit Linux. basictype.h 99-128. -/
def MpiBasic.size : MpiBasic → Nat
  | .byte => 1
  | .int => 4
  | .long => 8
  | .float => 4
  | .double => 8

/-- An MPI data type: where its basic parts are, and the distance of two values.
arraytype.h 64, structtype.h 76. -/
structure MpiDatatype where
  parts : List (Nat × MpiBasic)
  extent : Nat
deriving DecidableEq, Repr

/-- A basic type as data type. basictype.h 99-128. -/
def MpiDatatype.ofBasic (b : MpiBasic) : MpiDatatype := ⟨[(0, b)], b.size⟩

/-- The parts of `n` values of a type one after the other, starting at `disp`. mpiwinfull.h 179-187, arraytype.h 107. -/
def MpiDatatype.values (t : MpiDatatype) (disp n : Nat) : List (Nat × MpiBasic) :=
  (List.range n).flatMap fun i => t.parts.map fun p => (disp + i * t.extent + p.1, p.2)

/-- `MPI_Type_contiguous`, arraytype.h 107-108. -/
def MpiDatatype.contiguous (n : Nat) (t : MpiDatatype) : MpiDatatype := ⟨t.values 0 n, n * t.extent⟩

/-- A member of a struct: `blockLength[i]`, `displacements[i]`, `types[i]`. structtype.h 87-98. -/
structure StructField where
  len : Nat
  disp : Nat
  type : Scalar
deriving DecidableEq, Repr

/-- `MPI_Type_create_struct`, structtype.h 157-163. The extent has no padding here; it is replaced by
`MPI_Type_create_resized`. -/
def MpiDatatype.struct (fs : List (Nat × Nat × MpiBasic)) : MpiDatatype :=
  ⟨fs.flatMap fun f => (MpiDatatype.ofBasic f.2.2).values f.2.1 f.1,
    fs.foldl (fun e f => max e (f.2.1 + f.1 * f.2.2.size)) 0⟩

/-- `MPI_Type_create_resized` with lower bound 0, structtype.h 165-167. -/
def MpiDatatype.resized (t : MpiDatatype) (size : Nat) : MpiDatatype := { t with extent := size }

/-- `BasicType<T>::getMPIType`, basictype.h 99-128. -/
def Scalar.mpi : Scalar → MpiBasic
  | .byte => .byte
  | .int => .int
  | .long => .long
  | .float => .float
  | .double => .double

/-- The switch in the constructor of StructType, structtype.h 103-119. -/
def StructField.mpi (f : StructField) : Nat × Nat × MpiBasic :=
  (f.len, f.disp,
    match f.type with
    | .byte => .byte
    | .int => .int
    | .long => .long
    | .float => .float
    | .double => .double)

/-- What the user tells `create`, `createArray`, `createStruct` about the values (`count >= 1`,
structtype.cpp 51). asagi.h 308-342, grid.cpp 108-174. -/
inductive ElemDecl where
  | basic (s : Scalar)
  | array (s : Scalar)
  | struct (f : StructField) (fs : List StructField)
deriving DecidableEq, Repr

/-- The class of the type object. grid.cpp 108-174, structtype.cpp 45-75. -/
def ElemDecl.typeClass : ElemDecl → TypeClass
  | .basic s => .basic s
  | .array s => .array s
  | .struct f _ => .struct f.type

/-- `getMPIType` after `check` has fixed the size: basictype.h 99-128, arraytype.h 104-111 and 129-132, structtype.h
153-171 and 200-203. -/
def ElemDecl.mpiType (d : ElemDecl) (fixed : Nat) : MpiDatatype :=
  match d with
  | .basic s => .ofBasic s.mpi
  | .array s => .contiguous fixed (.ofBasic s.mpi)
  | .struct f fs => (MpiDatatype.struct ((f :: fs).map StructField.mpi)).resized fixed

/-- Do two parts of a data type have no byte in common? Receiving with a data type whose parts overlap is
erroneous in MPI. mpiwinfull.h 179-187, mpithreadfull.h 178. -/
def MpiApart (p q : Nat × MpiBasic) : Prop := p.1 + p.2.size ≤ q.1 ∨ q.1 + q.2.size ≤ p.1

instance : DecidableRel MpiApart := fun _ _ => inferInstanceAs (Decidable (_ ∨ _))

/-- The parts of a message: the bytes of the basic types; `none` if memory outside of the allocation is read.
`MPI_Send` and the target side of `MPI_Get`: mpithreadfull.h 188-189, mpiwinfull.h 179-187. -/
def mpiPack (parts : List (Nat × MpiBasic)) (mem : Mem UInt8) (base : Nat) : Option (List (List UInt8)) :=
  match parts with
  | [] => some []
  | p :: ps => do
    let d ← mem.slice (base + p.1) p.2.size
    let ds ← mpiPack ps mem base
    return d :: ds

/-- Store the parts of a message; `none` if memory outside of the allocation is written, or if the message does not
have these parts. `MPI_Recv` and the origin side of `MPI_Get`: mpithreadfull.h 178, mpiwinfull.h 179-187. -/
def mpiUnpack (parts : List (Nat × MpiBasic)) (msg : List (List UInt8)) (mem : Mem UInt8) (base : Nat) :
    Option (Mem UInt8) :=
  match parts, msg with
  | [], [] => some mem
  | p :: ps, d :: ds => if d.length = p.2.size then do
      let mem' ← mem.copyIn (base + p.1) d
      mpiUnpack ps ds mem' base
    else none
  | _, _ => none

/-- `MPI_Recv` of `count` values with a data type, mpithreadfull.h 178, mpithreadcache.h 523. -/
def mpiReceive (t : MpiDatatype) (count : Nat) (msg : List (List UInt8)) (mem : Mem UInt8) (base : Nat) :
    Option (Mem UInt8) :=
  if (t.values 0 count).Pairwise MpiApart then mpiUnpack (t.values 0 count) msg mem base else none

/-- `MPI_Get` of `count` values from displacement `disp` of a window with displacement unit `unit` to `base`.
mpiwinfull.h 179-187, mpiwincache.h 389-396. -/
def mpiGet (t : MpiDatatype) (count : Nat) (win : Mem UInt8) (unit disp : Nat) (mem : Mem UInt8) (base : Nat) :
    Option (Mem UInt8) := do
  let msg ← mpiPack (t.values 0 count) win (disp * unit)
  mpiReceive t count msg mem base

/-- How the values are declared and the size fixed by the first file; the number of values in a block.
level.h 268, mpiwinfull.h 122-124. -/
structure BlockType where
  decl : ElemDecl
  obj : TypeObj
  elems : Nat
deriving DecidableEq, Repr

/-- `type.getMPIType()`, mpiwinfull.h 124, mpithreadfull.h 140, mpiwincache.h 160, mpithreadcache.h 364. -/
def BlockType.mpi (B : BlockType) : MpiDatatype := B.decl.mpiType B.obj.fixed

/-- `MPIWinFull::transfer`, mpiwinfull.h 165-190; the unit of the window is the size of a value, 136. -/
def BlockType.winFull (B : BlockType) (win : Mem UInt8) (offset : Nat) (mem : Mem UInt8) (cache : Nat) :
    Option (Mem UInt8) :=
  mpiGet B.mpi B.elems win B.obj.size (offset * B.elems) mem cache

/-- `MPIThreadFull::recv` in the process that has the block and `MPIThreadFull::transfer`, mpithreadfull.h 170-191. -/
def BlockType.threadFull (B : BlockType) (data : Mem UInt8) (blockId : Nat) (mem : Mem UInt8) (cache : Nat) :
    Option (Mem UInt8) := do
  let msg ← mpiPack (B.mpi.values 0 B.elems) data (blockId * B.elems * B.obj.size)
  mpiReceive B.mpi B.elems msg mem cache

/-- `MPIWinCache::transfer`, mpiwincache.h 360-402: from the own process or from another one. -/
def BlockType.winCache (B : BlockType) (own : Bool) (win : Mem UInt8) (offset : Nat) (mem : Mem UInt8) (cache : Nat) :
    Option (Mem UInt8) :=
  if own then do
    let d ← win.slice (offset * B.elems * B.obj.size) (B.elems * B.obj.size)
    mem.copyIn cache d
  else mpiGet B.mpi B.elems win B.obj.size (offset * B.elems) mem cache

/-- `BlockTransferer::recv` and `MPIThreadCache::transfer`, mpithreadcache.h 155-166 and 521-524. The block is in slot
`slot` of the cache: cachemanager.h 134, cache.h 109-110. -/
def BlockType.threadCache (B : BlockType) (data : Mem UInt8) (slot : Nat) (mem : Mem UInt8) (cache : Nat) :
    Option (Mem UInt8) := do
  let msg ← mpiPack (B.mpi.values 0 B.elems) data (slot * (B.obj.size * B.elems))
  mpiReceive B.mpi B.elems msg mem cache

/-- `NumaFull::transfer`, numafull.h 84-92 and 108-119, for a block of the own process. -/
def BlockType.numaFull (B : BlockType) (data : Mem UInt8) (blocks domain offset : Nat) (mem : Mem UInt8) (cache : Nat) :
    Option (Mem UInt8) := do
  let d ← data.slice ((blocks * domain + offset) * (B.elems * B.obj.size)) (B.elems * B.obj.size)
  mem.copyIn cache d

/-- `NumaCache::transfer`, numacache.h 115-127, from slot `slot`: cachemanager.h 134, cache.h 109-110. -/
def BlockType.numaCache (B : BlockType) (data : Mem UInt8) (slot : Nat) (mem : Mem UInt8) (cache : Nat) :
    Option (Mem UInt8) := do
  let d ← data.slice (slot * (B.obj.size * B.elems)) (B.elems * B.obj.size)
  mem.copyIn cache d

end Asagi
