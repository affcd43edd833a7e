import Verif.Model.MpiTypes
/-
Specification for C99: which bytes of a value the user has declared, and how a block gets into the cache of a domain.
-/
namespace Asagi.Spec

/-- A member of a struct begins with byte `disp` and has `len` values of its type. -/
def StructField.stop (f : StructField) : Nat := f.disp + f.len * f.type.size

/-- Byte `i` of a value belongs to what the user has declared: the value of a basic type, the elements of the array,
the members of the struct. -/
def DeclaredByte : ElemDecl → Nat → Prop
  | .basic s, i => i < s.size
  | .array _, _ => True
  | .struct f fs, i => ∃ g ∈ f :: fs, g.disp ≤ i ∧ i < StructField.stop g

/-- The members of the struct are inside of the values of the file, which have `size` bytes, and do not overlap. -/
def ProperDecl : ElemDecl → Nat → Prop
  | .struct f fs, size => (∀ g ∈ f :: fs, StructField.stop g ≤ size) ∧
      (f :: fs).Pairwise fun g h => StructField.stop g ≤ h.disp ∨ StructField.stop h ≤ g.disp
  | _, _ => True

/-- The type of the values after the files of some levels have been opened (`sizes`: the sizes of their values). -/
def TypeOpened (B : BlockType) : Prop := ∃ sizes, B.obj = ((TypeObj.new B.decl.typeClass).checkAll sizes).1

/-- The number of bytes of a block. -/
def BlockType.bytes (B : BlockType) : Nat := B.elems * B.obj.size

/-- A block is copied, by any of the ways to copy a block, from byte `src` of the memory `a` to byte `dst` of the memory
`m`, which is `m'` afterwards. -/
inductive BlockCopied (B : BlockType) : Mem UInt8 → Nat → Mem UInt8 → Nat → Mem UInt8 → Prop
  | winFull (a offset m dst m') : B.winFull a offset m dst = some m' →
      BlockCopied B a (offset * BlockType.bytes B) m dst m'
  | threadFull (a offset m dst m') : B.threadFull a offset m dst = some m' →
      BlockCopied B a (offset * BlockType.bytes B) m dst m'
  | winCache (own a offset m dst m') : B.winCache own a offset m dst = some m' →
      BlockCopied B a (offset * BlockType.bytes B) m dst m'
  | threadCache (a slot m dst m') : B.threadCache a slot m dst = some m' →
      BlockCopied B a (slot * BlockType.bytes B) m dst m'
  | numaFull (a blocks domain offset m dst m') : B.numaFull a blocks domain offset m dst = some m' →
      BlockCopied B a ((blocks * domain + offset) * BlockType.bytes B) m dst m'
  | numaCache (a slot m dst m') : B.numaCache a slot m dst = some m' →
      BlockCopied B a (slot * BlockType.bytes B) m dst m'

/-- The place of the memory `m` that begins with byte `base` has got a block whose bytes in the file are `file`: it was
read from the file, or copied from a place that had got it. The values `k` with `inFile k` are those of the file; the
others are behind its end. The memory may change elsewhere. -/
inductive GotBlock (B : BlockType) (inFile : Nat → Prop) (file : List UInt8) : Mem UInt8 → Nat → Prop
  | read (m base) : base + BlockType.bytes B ≤ m.length →
      (∀ k i, k < B.elems → inFile k → i < B.obj.size →
        m[base + (k * B.obj.size + i)]? = file[k * B.obj.size + i]?) → GotBlock B inFile file m base
  | copy (a src m dst m') : GotBlock B inFile file a src → dst + BlockType.bytes B ≤ m.length →
      BlockCopied B a src m dst m' → GotBlock B inFile file m' dst
  | other (m base m') : GotBlock B inFile file m base → m'.length = m.length →
      (∀ j, base ≤ j → j < base + BlockType.bytes B → m'[j]? = m[j]?) → GotBlock B inFile file m' base

end Asagi.Spec
