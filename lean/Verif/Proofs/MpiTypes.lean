import Verif.Spec.MpiTypes
import Mathlib.Tactic.Ring
import Mathlib.Tactic.Linarith
/-
Copies of blocks, byte for byte (C99).
-/
namespace Asagi
open Spec

theorem slice_get {α : Type} {m : Mem α} {src len : Nat} {d : List α} (h : m.slice src len = some d) :
    src + len ≤ m.length ∧ d.length = len ∧ ∀ k, k < len → d[k]? = m[src + k]? := by
  unfold Mem.slice at h
  split at h
  · rename_i hl
    cases h
    refine ⟨hl, by simp; omega, fun k hk => ?_⟩
    rw [List.getElem?_take, if_pos hk, List.getElem?_drop]
  · cases h

theorem slice_some {α : Type} {m : Mem α} {src len : Nat} (h : src + len ≤ m.length) :
    ∃ d, m.slice src len = some d := ⟨_, if_pos h⟩

theorem copyIn_get {α : Type} {m : Mem α} {dst : Nat} {d : List α} (h : dst + d.length ≤ m.length) :
    ∃ m', m.copyIn dst d = some m' ∧ m'.length = m.length ∧
      ∀ j, m'[j]? = if dst ≤ j ∧ j < dst + d.length then d[j - dst]? else m[j]? := by
  refine ⟨_, if_pos h, by simp; omega, fun j => ?_⟩
  rw [List.append_assoc]
  by_cases h1 : j < dst
  · rw [List.getElem?_append_left (by simp; omega), List.getElem?_take, if_pos h1, if_neg (by omega)]
  · have ht : (m.take dst).length = dst := by simp; omega
    rw [List.getElem?_append_right (by omega), ht]
    by_cases h2 : j < dst + d.length
    · rw [List.getElem?_append_left (by omega), if_pos ⟨by omega, h2⟩]
    · rw [List.getElem?_append_right (by omega), if_neg (by omega), List.getElem?_drop]
      congr 1; omega

/-- A byte belongs to one of the parts. -/
def InParts (parts : List (Nat × MpiBasic)) (j : Nat) : Prop := ∃ p ∈ parts, p.1 ≤ j ∧ j < p.1 + p.2.size

theorem pack_some (parts : List (Nat × MpiBasic)) (a : Mem UInt8) (src : Nat)
    (h : ∀ p ∈ parts, src + p.1 + p.2.size ≤ a.length) : ∃ msg, mpiPack parts a src = some msg := by
  induction parts with
  | nil => exact ⟨[], rfl⟩
  | cons p ps ih =>
    obtain ⟨ds, hds⟩ := ih fun q hq => h q (List.mem_cons_of_mem _ hq)
    obtain ⟨d, hd⟩ := slice_some (h p List.mem_cons_self)
    exact ⟨d :: ds, by simp [mpiPack, hd, hds]⟩

theorem unpack_get (parts : List (Nat × MpiBasic)) (a : Mem UInt8) (src base : Nat) :
    ∀ (msg : List (List UInt8)) (m : Mem UInt8), mpiPack parts a src = some msg →
      (∀ p ∈ parts, base + p.1 + p.2.size ≤ m.length) →
      ∃ m', mpiUnpack parts msg m base = some m' ∧ m'.length = m.length ∧
        (∀ j, InParts parts j → m'[base + j]? = a[src + j]?) ∧
        ∀ k, (∀ j, k = base + j → ¬ InParts parts j) → m'[k]? = m[k]? := by
  induction parts with
  | nil =>
    intro msg m hp _
    cases hp
    exact ⟨m, rfl, rfl, fun j ⟨p, hp, _⟩ => (List.not_mem_nil hp).elim, fun _ _ => rfl⟩
  | cons p ps ih =>
    intro msg m hp hb
    simp only [mpiPack, Option.bind_eq_bind, Option.bind_eq_some_iff, Option.pure_def, Option.some.injEq] at hp
    obtain ⟨d, hd, ds, hds, rfl⟩ := hp
    obtain ⟨_, hlen, hget⟩ := slice_get hd
    obtain ⟨m1, h1, hl1, hg1⟩ := copyIn_get (m := m) (dst := base + p.1) (d := d)
      (by rw [hlen]; exact hb p List.mem_cons_self)
    obtain ⟨m2, h2, hl2, hin, hout⟩ := ih ds m1 hds fun q hq => by
      rw [hl1]; exact hb q (List.mem_cons_of_mem _ hq)
    refine ⟨m2, by simp [mpiUnpack, hlen, h1, h2], by rw [hl2, hl1], ?_, ?_⟩
    · intro j hj
      by_cases hjs : InParts ps j
      · exact hin j hjs
      · obtain ⟨q, hq, hq1, hq2⟩ := hj
        rcases List.mem_cons.mp hq with rfl | hq
        · rw [hout _ fun i hi => by
            have : i = j := by omega
            rw [this]; exact hjs, hg1, if_pos (by rw [hlen]; omega), hget _ (by omega)]
          congr 1; omega
        · exact absurd ⟨q, hq, hq1, hq2⟩ hjs
    · intro k hk
      rw [hout k fun j hj hj' => hk j hj (by
        obtain ⟨q, hq, h⟩ := hj'
        exact ⟨q, List.mem_cons_of_mem _ hq, h⟩), hg1, if_neg]
      rw [hlen]
      rintro ⟨ha, hb⟩
      exact hk (k - base) (by omega) ⟨p, List.mem_cons_self, by omega, by omega⟩

theorem mem_values {t : MpiDatatype} {disp n : Nat} {p : Nat × MpiBasic} :
    p ∈ t.values disp n ↔ ∃ i, i < n ∧ ∃ q ∈ t.parts, p = (disp + i * t.extent + q.1, q.2) := by
  simp [MpiDatatype.values, eq_comm]

/-- What the parts of a data type are: they are inside of the extent and do not overlap. -/
structure GoodType (t : MpiDatatype) : Prop where
  inside : ∀ p ∈ t.parts, p.1 + p.2.size ≤ t.extent
  apart : t.parts.Pairwise MpiApart

theorem MpiBasic.size_pos (b : MpiBasic) : 0 < b.size := by cases b <;> decide

theorem GoodType.values_inside {t : MpiDatatype} (ht : GoodType t) (disp n : Nat) {p : Nat × MpiBasic}
    (hp : p ∈ t.values disp n) : disp ≤ p.1 ∧ p.1 + p.2.size ≤ disp + n * t.extent := by
  obtain ⟨i, hi, q, hq, rfl⟩ := mem_values.mp hp
  have h := ht.inside q hq
  have h' : i * t.extent + t.extent ≤ n * t.extent := by
    calc i * t.extent + t.extent = (i + 1) * t.extent := by ring
      _ ≤ _ := Nat.mul_le_mul_right _ hi
  constructor <;> dsimp only <;> omega

theorem GoodType.values_apart {t : MpiDatatype} (ht : GoodType t) (disp n : Nat) :
    (t.values disp n).Pairwise MpiApart := by
  unfold MpiDatatype.values
  rw [List.pairwise_flatMap]
  refine ⟨fun i _ => ?_, ?_⟩
  · rw [List.pairwise_map]
    refine ht.apart.imp fun {p q} h => ?_
    unfold MpiApart at h ⊢
    dsimp only
    omega
  · refine List.pairwise_lt_range.imp fun {i k} hik x hx y hy => ?_
    obtain ⟨p, hp, rfl⟩ := List.mem_map.mp hx
    obtain ⟨q, hq, rfl⟩ := List.mem_map.mp hy
    have h1 := ht.inside p hp
    have h' : i * t.extent + t.extent ≤ k * t.extent := by
      calc i * t.extent + t.extent = (i + 1) * t.extent := by ring
        _ ≤ _ := Nat.mul_le_mul_right _ hik
    left
    dsimp only
    omega

theorem good_basic (b : MpiBasic) : GoodType (.ofBasic b) :=
  ⟨by simp [MpiDatatype.ofBasic], by simp [MpiDatatype.ofBasic]⟩

theorem good_contiguous {t : MpiDatatype} (ht : GoodType t) (n : Nat) : GoodType (.contiguous n t) :=
  ⟨fun p hp => by have := (ht.values_inside 0 n hp).2; simpa [MpiDatatype.contiguous] using this, ht.values_apart 0 n⟩

theorem field_size (f : StructField) : f.mpi.2.2.size = f.type.size := by
  obtain ⟨l, d, t⟩ := f
  cases t <;> rfl

theorem scalar_size (s : Scalar) : s.mpi.size = s.size := by cases s <;> rfl

theorem good_struct {f : StructField} {fs : List StructField} {size : Nat} (h : ProperDecl (.struct f fs) size) :
    GoodType ((ElemDecl.struct f fs).mpiType size) := by
  obtain ⟨hin, hap⟩ := h
  have hv : ∀ (g : StructField) (p : Nat × MpiBasic), p ∈ (MpiDatatype.ofBasic g.mpi.2.2).values g.mpi.2.1 g.mpi.1 →
      g.disp ≤ p.1 ∧ p.1 + p.2.size ≤ StructField.stop g := by
    intro g p hp
    have := (good_basic g.mpi.2.2).values_inside _ _ hp
    rw [show (MpiDatatype.ofBasic g.mpi.2.2).extent = g.mpi.2.2.size from rfl, field_size] at this
    exact this
  constructor
  · intro p hp
    simp only [ElemDecl.mpiType, MpiDatatype.resized, MpiDatatype.struct, List.flatMap_map, List.mem_flatMap] at hp
    obtain ⟨g, hg, hp⟩ := hp
    exact le_trans (hv g p hp).2 (hin g hg)
  · simp only [ElemDecl.mpiType, MpiDatatype.resized, MpiDatatype.struct, List.flatMap_map]
    rw [List.pairwise_flatMap]
    refine ⟨fun g _ => (good_basic _).values_apart _ _, hap.imp fun {g g'} h x hx y hy => ?_⟩
    have h1 := hv g x hx
    have h2 := hv g' y hy
    unfold MpiApart
    omega

theorem good_mpi {d : ElemDecl} {o : TypeObj} (hc : o.cls = d.typeClass) (h : ProperDecl d o.size) :
    GoodType (d.mpiType o.fixed) := by
  cases d with
  | basic s => exact good_basic _
  | array s => exact good_contiguous (good_basic _) _
  | struct f fs =>
    have : o.size = o.fixed := by unfold TypeObj.size; rw [hc]; rfl
    rw [this] at h
    exact good_struct h

theorem extent_mpi {d : ElemDecl} {o : TypeObj} (hc : o.cls = d.typeClass) : (d.mpiType o.fixed).extent = o.size := by
  unfold TypeObj.size
  rw [hc]
  cases d with
  | basic s => exact scalar_size s
  | array s => exact congrArg (o.fixed * ·) (scalar_size s)
  | struct f fs => rfl

/-- The bytes of `n` values of a basic type. -/
theorem in_basic (b : MpiBasic) (disp n i : Nat) (h1 : disp ≤ i) (h2 : i < disp + n * b.size) :
    InParts ((MpiDatatype.ofBasic b).values disp n) i := by
  have hp := b.size_pos
  have hd := Nat.div_add_mod (i - disp) b.size
  have hm := Nat.mod_lt (i - disp) hp
  rw [mul_comm] at hd
  refine ⟨(disp + (i - disp) / b.size * b.size + 0, b), mem_values.mpr ⟨(i - disp) / b.size, ?_, (0, b), ?_, rfl⟩, ?_, ?_⟩
  · rw [Nat.div_lt_iff_lt_mul hp]; omega
  · exact List.mem_cons_self
  · dsimp only; omega
  · dsimp only; omega

theorem declared_part {d : ElemDecl} {o : TypeObj} (hc : o.cls = d.typeClass) {i : Nat} (hi : i < o.size)
    (h : DeclaredByte d i) : InParts (d.mpiType o.fixed).parts i := by
  unfold TypeObj.size at hi
  rw [hc] at hi
  cases d with
  | basic s =>
    have := in_basic s.mpi 0 1 i (Nat.zero_le _) (by rw [scalar_size]; simpa [ElemDecl.typeClass] using hi)
    simpa [MpiDatatype.values, ElemDecl.mpiType, MpiDatatype.ofBasic] using this
  | array s => exact in_basic s.mpi 0 o.fixed i (Nat.zero_le _) (by rw [scalar_size]; simpa [ElemDecl.typeClass] using hi)
  | struct f fs =>
    obtain ⟨g, hg, h1, h2⟩ := h
    obtain ⟨p, hp, hb⟩ := in_basic g.mpi.2.2 g.disp g.len i h1 (by rw [field_size]; exact h2)
    refine ⟨p, ?_, hb⟩
    simp only [ElemDecl.mpiType, MpiDatatype.resized, MpiDatatype.struct, List.flatMap_map, List.mem_flatMap]
    exact ⟨g, hg, hp⟩

/-- A copy of `n` values with a good type. -/
theorem receive_get {t : MpiDatatype} (ht : GoodType t) (n : Nat) {a m : Mem UInt8} {src dst : Nat}
    (ha : src + n * t.extent ≤ a.length) (hm : dst + n * t.extent ≤ m.length) :
    ∃ msg m', mpiPack (t.values 0 n) a src = some msg ∧ mpiReceive t n msg m dst = some m' ∧ m'.length = m.length ∧
      (∀ k i, k < n → InParts t.parts i → m'[dst + (k * t.extent + i)]? = a[src + (k * t.extent + i)]?) ∧
      ∀ j, j < dst ∨ dst + n * t.extent ≤ j → m'[j]? = m[j]? := by
  obtain ⟨msg, hmsg⟩ := pack_some (t.values 0 n) a src fun p hp => by
    have := ht.values_inside 0 n hp; omega
  obtain ⟨m', h1, h2, h3, h4⟩ := unpack_get (t.values 0 n) a src dst msg m hmsg fun p hp => by
    have := ht.values_inside 0 n hp; omega
  refine ⟨msg, m', hmsg, by rw [mpiReceive, if_pos (ht.values_apart 0 n), h1], h2, ?_, ?_⟩
  · rintro k i hk ⟨p, hp, hp1, hp2⟩
    refine h3 _ ⟨(0 + k * t.extent + p.1, p.2), mem_values.mpr ⟨k, hk, p, hp, rfl⟩, ?_, ?_⟩ <;> dsimp only <;> omega
  · intro j hj
    refine h4 j fun i hi hp => ?_
    obtain ⟨p, hp, hp1, hp2⟩ := hp
    have := ht.values_inside 0 n hp
    omega

theorem check_cls (o : TypeObj) (v : Nat) : (o.check v).1.cls = o.cls := by
  unfold TypeObj.check
  split
  · rfl
  · dsimp only; split <;> [rfl; (split <;> [rfl; (split <;> rfl)])]
  · split <;> [rfl; (split <;> rfl)]

theorem checkAll_cls (sizes : List Nat) : ∀ o : TypeObj, (o.checkAll sizes).1.cls = o.cls := by
  induction sizes with
  | nil => exact fun o => rfl
  | cons v vs ih => exact fun o => (ih _).trans (check_cls o v)

theorem opened_cls {B : BlockType} (h : TypeOpened B) : B.obj.cls = B.decl.typeClass := by
  obtain ⟨sizes, h⟩ := h
  rw [h, checkAll_cls]
  rfl

/-- What a copy does: the declared bytes of all values arrive, the memory outside of the place does not change. -/
def CopyDone (B : BlockType) (a : Mem UInt8) (src : Nat) (m : Mem UInt8) (dst : Nat) (m' : Mem UInt8) : Prop :=
  m'.length = m.length ∧
    (∀ k i, k < B.elems → i < B.obj.size → DeclaredByte B.decl i →
      m'[dst + (k * B.obj.size + i)]? = a[src + (k * B.obj.size + i)]?) ∧
    ∀ j, j < dst ∨ dst + BlockType.bytes B ≤ j → m'[j]? = m[j]?

theorem mpi_copy {B : BlockType} (hc : B.obj.cls = B.decl.typeClass) (hp : ProperDecl B.decl B.obj.size)
    {a m : Mem UInt8} {src dst : Nat} (ha : src + BlockType.bytes B ≤ a.length)
    (hm : dst + BlockType.bytes B ≤ m.length) :
    ∃ msg m', mpiPack (B.mpi.values 0 B.elems) a src = some msg ∧ mpiReceive B.mpi B.elems msg m dst = some m' ∧
      CopyDone B a src m dst m' := by
  have hg := good_mpi hc hp
  have he := extent_mpi hc
  obtain ⟨msg, m', h1, h2, h3, h4, h5⟩ := receive_get hg B.elems (a := a) (m := m) (src := src) (dst := dst)
    (by rw [he]; exact ha) (by rw [he]; exact hm)
  rw [he] at h4 h5
  exact ⟨msg, m', h1, h2, h3, fun k i hk hi hd => h4 k i hk (declared_part hc hi hd), h5⟩

theorem memcpy_copy (B : BlockType) {a m : Mem UInt8} {src dst : Nat} (ha : src + BlockType.bytes B ≤ a.length)
    (hm : dst + BlockType.bytes B ≤ m.length) :
    ∃ d m', a.slice src (B.elems * B.obj.size) = some d ∧ m.copyIn dst d = some m' ∧ CopyDone B a src m dst m' := by
  obtain ⟨d, hd⟩ := slice_some ha
  obtain ⟨_, hl, hg⟩ := slice_get hd
  obtain ⟨m', h1, h2, h3⟩ := copyIn_get (m := m) (dst := dst) (d := d) (by rw [hl]; exact hm)
  refine ⟨d, m', hd, h1, h2, fun k i hk hi _ => ?_, fun j hj => ?_⟩
  · have h' : k * B.obj.size + B.obj.size ≤ B.elems * B.obj.size := by
      calc k * B.obj.size + B.obj.size = (k + 1) * B.obj.size := by ring
        _ ≤ _ := Nat.mul_le_mul_right _ hk
    rw [h3, if_pos (by rw [hl]; unfold BlockType.bytes; omega), hg _ (by unfold BlockType.bytes; omega)]
    congr 1; omega
  · rw [h3, if_neg (by rw [hl]; omega)]

theorem BlockCopied.done {B : BlockType} (hc : B.obj.cls = B.decl.typeClass) (hp : ProperDecl B.decl B.obj.size)
    {a m m' : Mem UInt8} {src dst : Nat} (ha : src + BlockType.bytes B ≤ a.length)
    (hm : dst + BlockType.bytes B ≤ m.length) (h : BlockCopied B a src m dst m') : CopyDone B a src m dst m' := by
  have e : ∀ x, x * B.elems * B.obj.size = x * BlockType.bytes B := fun x => mul_assoc _ _ _
  have e' : ∀ x, x * (B.obj.size * B.elems) = x * BlockType.bytes B := fun x => by
    unfold BlockType.bytes; rw [mul_comm B.obj.size]
  obtain ⟨msg, m1, h1, h2, hd1⟩ := mpi_copy hc hp ha hm
  obtain ⟨d, m2, h3, h4, hd2⟩ := memcpy_copy B ha hm
  cases h with
  | winFull a offset m dst m' h =>
    rw [BlockType.winFull, mpiGet, e, h1] at h
    cases h.symm.trans h2
    exact hd1
  | threadFull a offset m dst m' h =>
    rw [BlockType.threadFull, e, h1] at h
    cases h.symm.trans h2
    exact hd1
  | winCache own a offset m dst m' h =>
    cases own
    · rw [BlockType.winCache, if_neg (by decide), mpiGet, e, h1] at h
      cases h.symm.trans h2
      exact hd1
    · rw [BlockType.winCache, if_pos rfl, e, h3] at h
      cases h.symm.trans h4
      exact hd2
  | threadCache a slot m dst m' h =>
    rw [BlockType.threadCache, e', h1] at h
    cases h.symm.trans h2
    exact hd1
  | numaFull a blocks domain offset m dst m' h =>
    rw [BlockType.numaFull, show ∀ x, x * (B.elems * B.obj.size) = x * BlockType.bytes B from fun _ => rfl, h3] at h
    cases h.symm.trans h4
    exact hd2
  | numaCache a slot m dst m' h =>
    rw [BlockType.numaCache, e', h3] at h
    cases h.symm.trans h4
    exact hd2

theorem GotBlock.get {B : BlockType} (hc : B.obj.cls = B.decl.typeClass) (hp : ProperDecl B.decl B.obj.size)
    {inFile : Nat → Prop} {file : List UInt8} {m : Mem UInt8} {base : Nat} (h : GotBlock B inFile file m base) :
    base + BlockType.bytes B ≤ m.length ∧ ∀ k i, k < B.elems → inFile k → i < B.obj.size → DeclaredByte B.decl i →
      m[base + (k * B.obj.size + i)]? = file[k * B.obj.size + i]? := by
  induction h with
  | read m base hb h => exact ⟨hb, fun k i hk hf hi _ => h k i hk hf hi⟩
  | copy a src m dst m' _ hm hcp ih =>
    obtain ⟨h1, h2, _⟩ := BlockCopied.done hc hp ih.1 hm hcp
    exact ⟨by rw [h1]; exact hm, fun k i hk hf hi hd => (h2 k i hk hi hd).trans (ih.2 k i hk hf hi hd)⟩
  | other m base m' _ hl hj ih =>
    refine ⟨by rw [hl]; exact ih.1, fun k i hk hf hi hd => ?_⟩
    have h' : k * B.obj.size + B.obj.size ≤ B.elems * B.obj.size := by
      calc k * B.obj.size + B.obj.size = (k + 1) * B.obj.size := by ring
        _ ≤ _ := Nat.mul_le_mul_right _ hk
    rw [hj _ (Nat.le_add_right _ _) (by unfold BlockType.bytes; omega)]
    exact ih.2 k i hk hf hi hd

end Asagi
