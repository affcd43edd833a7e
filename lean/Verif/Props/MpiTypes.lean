import Verif.Proofs.MpiTypes
/-
C99: values are complete after any copies.
-/
namespace Asagi.Props
open Asagi Spec

variable {B : BlockType}

/-- **C99.** Each way to copy a block works for places that are inside of the memories: nothing else is read or written,
and MPI accepts the data type. -/
theorem C99_copies (hB : TypeOpened B) (hp : ProperDecl B.decl B.obj.size) {a m : Mem UInt8} {dst : Nat}
    (hm : dst + BlockType.bytes B ≤ m.length) :
    (∀ i, (i + 1) * BlockType.bytes B ≤ a.length → (∃ m', B.winFull a i m dst = some m') ∧
      (∃ m', B.threadFull a i m dst = some m') ∧ (∀ own, ∃ m', B.winCache own a i m dst = some m') ∧
      (∃ m', B.threadCache a i m dst = some m') ∧ ∃ m', B.numaCache a i m dst = some m') ∧
    ∀ blocks domain i, (blocks * domain + i + 1) * BlockType.bytes B ≤ a.length →
      ∃ m', B.numaFull a blocks domain i m dst = some m' := by
  have hc := opened_cls hB
  have e : ∀ x, x * B.elems * B.obj.size = x * BlockType.bytes B := fun x => mul_assoc _ _ _
  have e' : ∀ x, x * (B.obj.size * B.elems) = x * BlockType.bytes B := fun x => by
    unfold BlockType.bytes; rw [mul_comm B.obj.size]
  refine ⟨fun i ha => ?_, fun blocks domain i ha => ?_⟩
  · have ha' : i * BlockType.bytes B + BlockType.bytes B ≤ a.length := by rw [← Nat.succ_mul]; exact ha
    obtain ⟨msg, m1, h1, h2, _⟩ := mpi_copy hc hp ha' hm
    obtain ⟨d, m2, h3, h4, _⟩ := memcpy_copy B ha' hm
    refine ⟨⟨m1, ?_⟩, ⟨m1, ?_⟩, fun own => ?_, ⟨m1, ?_⟩, ⟨m2, ?_⟩⟩
    · rw [BlockType.winFull, mpiGet, e, h1]; exact h2
    · rw [BlockType.threadFull, e, h1]; exact h2
    · cases own
      · exact ⟨m1, by rw [BlockType.winCache, if_neg (by decide), mpiGet, e, h1]; exact h2⟩
      · exact ⟨m2, by rw [BlockType.winCache, if_pos rfl, e, h3]; exact h4⟩
    · rw [BlockType.threadCache, e', h1]; exact h2
    · rw [BlockType.numaCache, e', h3]; exact h4
  · have ha' : (blocks * domain + i) * BlockType.bytes B + BlockType.bytes B ≤ a.length := by
      rw [← Nat.succ_mul]; exact ha
    obtain ⟨d, m2, h3, h4, _⟩ := memcpy_copy B ha' hm
    exact ⟨m2, by
      rw [BlockType.numaFull, show ∀ x, x * (B.elems * B.obj.size) = x * BlockType.bytes B from fun _ => rfl, h3]
      exact h4⟩

/-- **C99.** A copy of a block, by whatever way: each declared byte of each value arrives at its place, and the memory
outside of the place of the block does not change. -/
theorem C99_copy (hB : TypeOpened B) (hp : ProperDecl B.decl B.obj.size) {a m m' : Mem UInt8} {src dst : Nat}
    (ha : src + BlockType.bytes B ≤ a.length) (hm : dst + BlockType.bytes B ≤ m.length)
    (h : BlockCopied B a src m dst m') :
    m'.length = m.length ∧
      (∀ k i, k < B.elems → i < B.obj.size → DeclaredByte B.decl i →
        m'[dst + (k * B.obj.size + i)]? = a[src + (k * B.obj.size + i)]?) ∧
      ∀ j, j < dst ∨ dst + BlockType.bytes B ≤ j → m'[j]? = m[j]? :=
  BlockCopied.done (opened_cls hB) hp ha hm h

/-- **C99.** After any number of copies between domains and processes, `getBuf` of a value of the block delivers each
declared byte as it is in the file, and does not change the buffer behind the value. -/
theorem C99_getBuf (hB : TypeOpened B) (hp : ProperDecl B.decl B.obj.size) {inFile : Nat → Prop} {file : List UInt8}
    {m : Mem UInt8} {base : Nat} (h : GotBlock B inFile file m base) (k : Nat) (hk : k < B.elems) (hf : inFile k)
    (buf : List UInt8) (hbuf : B.obj.size ≤ buf.length) :
    ∃ out, B.obj.convertBuf m (base + B.obj.size * k) buf = some out ∧ out.length = buf.length ∧
      (∀ i, i < B.obj.size → DeclaredByte B.decl i → out[i]? = file[k * B.obj.size + i]?) ∧
      ∀ i, B.obj.size ≤ i → out[i]? = buf[i]? := by
  obtain ⟨hb, hg⟩ := GotBlock.get (opened_cls hB) hp h
  have h' : k * B.obj.size + B.obj.size ≤ B.elems * B.obj.size := by
    rw [← Nat.succ_mul]; exact Nat.mul_le_mul_right _ hk
  obtain ⟨d, hd⟩ := slice_some (m := m) (src := base + B.obj.size * k) (len := B.obj.size)
    (by unfold BlockType.bytes at hb; rw [mul_comm B.obj.size k]; omega)
  obtain ⟨_, hl, hget⟩ := slice_get hd
  refine ⟨d ++ buf.drop d.length, ?_, by simp; omega, fun i hi hdecl => ?_, fun i hi => ?_⟩
  · simp [TypeObj.convertBuf, hd, memcpyTo, hl, hbuf]
  · rw [List.getElem?_append_left (by omega), hget i hi, ← hg k i hk hf hi hdecl, mul_comm B.obj.size k, Nat.add_assoc]
  · rw [List.getElem?_append_right (by omega), List.getElem?_drop]
    congr 1; omega

/-- **C99.** For basic types and arrays, and for structs whose members leave no gaps, `getBuf` delivers exactly the bytes
of the value in the file, after any number of copies. -/
theorem C99_whole_value (hB : TypeOpened B) (hp : ProperDecl B.decl B.obj.size)
    (hw : ∀ i, i < B.obj.size → DeclaredByte B.decl i) {inFile : Nat → Prop} {file : List UInt8}
    {m : Mem UInt8} {base : Nat} (h : GotBlock B inFile file m base) (k : Nat) (hk : k < B.elems) (hf : inFile k)
    (hl : BlockType.bytes B ≤ file.length) (buf : List UInt8) (hbuf : B.obj.size ≤ buf.length) :
    B.obj.convertBuf m (base + B.obj.size * k) buf =
      some ((file.drop (k * B.obj.size)).take B.obj.size ++ buf.drop B.obj.size) := by
  obtain ⟨out, h1, h2, h3, h4⟩ := C99_getBuf hB hp h k hk hf buf hbuf
  have h' : k * B.obj.size + B.obj.size ≤ B.elems * B.obj.size := by
    rw [← Nat.succ_mul]; exact Nat.mul_le_mul_right _ hk
  have hlen : ((file.drop (k * B.obj.size)).take B.obj.size).length = B.obj.size := by
    unfold BlockType.bytes at hl; simp; omega
  rw [h1]
  congr 1
  refine List.ext_getElem? fun i => ?_
  by_cases hi : i < B.obj.size
  · rw [h3 i hi (hw i hi), List.getElem?_append_left (by omega), List.getElem?_take, if_pos hi, List.getElem?_drop]
  · rw [h4 i (by omega), List.getElem?_append_right (by omega), hlen, List.getElem?_drop]
    congr 1; omega

/-- **C99.** The values of grids of basic types and of arrays have no other bytes than the declared ones, and no further
hypothesis is needed. -/
theorem C99_basic_and_array (hB : TypeOpened B) (hd : ∀ f fs, B.decl ≠ .struct f fs) :
    ProperDecl B.decl B.obj.size ∧ ∀ i, i < B.obj.size → DeclaredByte B.decl i := by
  have hc := opened_cls hB
  unfold TypeObj.size
  rw [hc]
  cases h : B.decl with
  | basic s => exact ⟨trivial, fun i hi => hi⟩
  | array s => exact ⟨trivial, fun i _ => trivial⟩
  | struct f fs => exact absurd h (hd f fs)

/-- A struct of a byte and a float, with 3 padding bytes between them. -/
private def exStruct : BlockType :=
  ⟨.struct ⟨1, 0, .byte⟩ [⟨1, 4, .float⟩], ⟨.struct .byte, 8⟩, 2⟩

example : TypeOpened exStruct ∧ ProperDecl exStruct.decl exStruct.obj.size ∧
    exStruct.winFull (List.range 32 |>.map UInt8.ofNat) 1 (List.replicate 20 99) 2 =
      some [99, 99, 16, 99, 99, 99, 20, 21, 22, 23, 24, 99, 99, 99, 28, 29, 30, 31, 99, 99] ∧
    exStruct.numaCache (List.range 32 |>.map UInt8.ofNat) 1 (List.replicate 20 99) 2 =
      some [99, 99, 16, 17, 18, 19, 20, 21, 22, 23, 24, 25, 26, 27, 28, 29, 30, 31, 99, 99] ∧
    exStruct.threadCache (List.range 32 |>.map UInt8.ofNat) 1 (List.replicate 20 99) 2 =
      some [99, 99, 16, 99, 99, 99, 20, 21, 22, 23, 24, 99, 99, 99, 28, 29, 30, 31, 99, 99] :=
  ⟨⟨[8, 8, 12], rfl⟩, ⟨by decide +kernel, by decide +kernel⟩, by decide +kernel, by decide +kernel, by decide +kernel⟩

/-- An array of three ints: all bytes are copied. -/
private def exArray : BlockType := ⟨.array .int, ⟨.array .int, 3⟩, 1⟩

example : TypeOpened exArray ∧ exArray.winFull (List.range 24 |>.map UInt8.ofNat) 1 (List.replicate 13 99) 0 =
    some [12, 13, 14, 15, 16, 17, 18, 19, 20, 21, 22, 23, 99] :=
  ⟨⟨[7, 12], rfl⟩, by decide +kernel⟩

/-- A block that is read in one process, copied by MPI to a second one and from there to another domain. -/
example : ∃ m, GotBlock exStruct (fun _ => True) ((List.range 32 |>.map UInt8.ofNat).drop 16) m 3 := by
  refine ⟨_, .copy ([99, 99, 16, 99, 99, 99, 20, 21, 22, 23, 24, 99, 99, 99, 28, 29, 30, 31, 99, 99].drop 2) (0 * 16)
    (List.replicate 20 7) 3 _ (.copy (List.range 32 |>.map UInt8.ofNat) (1 * 16) (List.replicate 18 99) 0 _
      (.read _ _ (by decide +kernel) ?_) (by decide +kernel) (.winFull _ 1 _ _ _ (by decide +kernel)))
    (by decide +kernel) (.numaCache _ 0 _ _ _ (by rfl))⟩
  intro k i hk _ hi
  have hk : k = 0 ∨ k = 1 := by have : k < 2 := hk; omega
  have hi : i < 8 := hi
  rcases hk with rfl | rfl
  · exact (by decide +kernel : ∀ i, i < 8 → (List.range 32 |>.map UInt8.ofNat)[16 + (0 * 8 + i)]? =
      ((List.range 32 |>.map UInt8.ofNat).drop 16)[0 * 8 + i]?) i hi
  · exact (by decide +kernel : ∀ i, i < 8 → (List.range 32 |>.map UInt8.ofNat)[16 + (1 * 8 + i)]? =
      ((List.range 32 |>.map UInt8.ofNat).drop 16)[1 * 8 + i]?) i hi

/-- **C99** does not hold for members that the user has not declared: they are read from the file and copied between
domains, but not between processes. `open` accepts such a declaration. What `getBuf` delivers depends on where the block
comes from. -/
theorem C99_undeclared_violated : ∃ (B : BlockType) (a m m1 m2 : Mem UInt8),
    (TypeObj.new B.decl.typeClass).check 8 = (B.obj, .SUCCESS) ∧ ProperDecl B.decl B.obj.size ∧
    B.winCache true a 0 m 0 = some m1 ∧ B.winCache false a 0 m 0 = some m2 ∧
    B.obj.convertBuf m1 0 (List.replicate 8 0) = some a ∧
    B.obj.convertBuf m2 0 (List.replicate 8 0) ≠ some a :=
  ⟨⟨.struct ⟨1, 0, .float⟩ [], ⟨.struct .float, 8⟩, 1⟩, [1, 2, 3, 4, 5, 6, 7, 8], List.replicate 8 0,
    [1, 2, 3, 4, 5, 6, 7, 8], [1, 2, 3, 4, 0, 0, 0, 0], by decide +kernel, ⟨by decide +kernel, by decide +kernel⟩, by decide +kernel,
    by decide +kernel, by decide +kernel, by decide +kernel⟩

/-- **C99** does not hold for structs that are declared larger than the values of the file: `open` accepts them, and a
copy by MPI writes behind the place of the block. -/
theorem C99_too_large_violated : ∃ (B : BlockType) (a m m1 : Mem UInt8),
    (TypeObj.new B.decl.typeClass).check 4 = (B.obj, .SUCCESS) ∧
    0 + BlockType.bytes B ≤ a.length ∧ 0 + BlockType.bytes B ≤ m.length ∧
    BlockCopied B a (0 * BlockType.bytes B) m 0 m1 ∧ m1[BlockType.bytes B]? ≠ m[BlockType.bytes B]? :=
  ⟨⟨.struct ⟨2, 0, .float⟩ [], ⟨.struct .float, 4⟩, 1⟩, [1, 2, 3, 4, 5, 6, 7, 8], List.replicate 8 0,
    [1, 2, 3, 4, 5, 6, 7, 8], by decide +kernel, by decide +kernel, by decide +kernel,
    .winFull _ 0 _ _ _ (by decide +kernel), by decide +kernel⟩

/-- **C99** does not hold for structs that are declared larger than the values of the file: with more than one value in a
block, the data type is not allowed for receiving; and if the block is at the end of the memory, memory behind it is
written. -/
theorem C99_too_large_undefined : ∃ (B : BlockType),
    (TypeObj.new B.decl.typeClass).check 4 = (B.obj, .SUCCESS) ∧
    ∀ a m : Mem UInt8, a.length = BlockType.bytes B → m.length = BlockType.bytes B → B.winFull a 0 m 0 = none := by
  refine ⟨⟨.struct ⟨2, 0, .float⟩ [], ⟨.struct .float, 4⟩, 1⟩, by decide +kernel, fun a m ha _ => ?_⟩
  have ha : a.length = 4 := ha
  simp [BlockType.winFull, mpiGet, BlockType.mpi, ElemDecl.mpiType, MpiDatatype.values, MpiDatatype.resized, MpiDatatype.struct,
    StructField.mpi, MpiDatatype.ofBasic, MpiBasic.size, mpiPack, Mem.slice, ha, List.range_succ]

end Asagi.Props
