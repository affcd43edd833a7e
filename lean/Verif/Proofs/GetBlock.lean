import Verif.Proofs.NetCdf
/- Correctness of `getBlock` for built-in and compound types. -/
namespace Asagi
open Spec
variable {α : Type}

theorem inBox_actSize {size off bs pos : List Nat} (ho : InBox size off)
    (hb : bs.length = size.length) :
    InBox (actSize size off bs) pos ↔ InBox bs pos ∧ InBox size (addPos off pos) := by
  induction size generalizing off bs pos with
  | nil => cases off <;> cases bs <;> cases pos <;> simp_all [InBox, actSize, addPos]
  | cons s size ih =>
    cases off with
    | nil => simp [InBox] at ho
    | cons o off => cases bs with
      | nil => simp at hb
      | cons b bs => cases pos with
        | nil => simp [actSize, InBox]
        | cons p pos =>
          have := ih (pos := pos) ho.2 (by simpa using hb : bs.length = size.length)
          have ho1 : o < s := ho.1
          simp only [actSize, InBox, addPos, List.zipWith_cons_cons] at this ⊢
          rw [this]
          split
          · constructor
            · rintro ⟨h1, h2, h3⟩; exact ⟨⟨by omega, h2⟩, by omega, h3⟩
            · rintro ⟨⟨h1, h2⟩, h3, h4⟩; exact ⟨by omega, h2, h4⟩
          · constructor
            · rintro ⟨h1, h2, h3⟩; exact ⟨⟨by omega, h2⟩, by omega, h3⟩
            · rintro ⟨⟨h1, h2⟩, h3, h4⟩; exact ⟨by omega, h2, h4⟩

theorem actSize_length {size off bs : List Nat} (ho : InBox size off)
    (hb : bs.length = size.length) : (actSize size off bs).length = size.length := by
  induction size generalizing off bs with
  | nil => cases off <;> cases bs <;> simp_all [actSize]
  | cons s size ih =>
    cases off with
    | nil => simp [InBox] at ho
    | cons o off => cases bs with
      | nil => simp at hb
      | cons b bs => simp [actSize, ih ho.2 (by simpa using hb : bs.length = size.length)]

theorem actSize_le {size off bs : List Nat} (ho : InBox size off)
    (hb : bs.length = size.length) : LeAll (actSize size off bs) bs := by
  induction size generalizing off bs with
  | nil => cases off <;> cases bs <;> simp_all [actSize, LeAll]
  | cons s size ih =>
    cases off with
    | nil => simp [InBox] at ho
    | cons o off => cases bs with
      | nil => simp at hb
      | cons b bs =>
        refine ⟨?_, ih ho.2 (by simpa using hb)⟩
        split <;> omega

theorem actSize_pos {size off bs : List Nat} (ho : InBox size off)
    (hb : bs.length = size.length) (hbp : ∀ x ∈ bs, 0 < x) :
    ∀ x ∈ actSize size off bs, 0 < x := by
  induction size generalizing off bs with
  | nil => cases off <;> cases bs <;> simp_all [actSize]
  | cons s size ih =>
    cases off with
    | nil => simp [InBox] at ho
    | cons o off => cases bs with
      | nil => simp at hb
      | cons b bs =>
        intro x hx
        simp only [actSize, List.mem_cons] at hx
        rcases hx with rfl | hx
        · have := hbp b (by simp)
          have ho1 : o < s := ho.1
          split <;> omega
        · exact ih ho.2 (by simpa using hb) (fun y hy => hbp y (by simp [hy])) x hx

theorem LeAll.append {s b : List Nat} {x y : Nat} (h : LeAll s b) (hxy : x ≤ y) :
    LeAll (s ++ [x]) (b ++ [y]) := by
  induction s generalizing b with
  | nil => cases b <;> simp_all [LeAll]
  | cons a s ih => cases b with
    | nil => simp [LeAll] at h
    | cons c b => exact ⟨h.1, ih h.2⟩

theorem LeAll.reverse {s b : List Nat} (h : LeAll s b) : LeAll s.reverse b.reverse := by
  induction s generalizing b with
  | nil => cases b <;> simp_all [LeAll]
  | cons a s ih => cases b with
    | nil => simp [LeAll] at h
    | cons c b =>
      simp only [List.reverse_cons]
      exact (ih h.2).append h.1

theorem InBox.mono {s b i : List Nat} (h : InBox s i) (hle : LeAll s b) : InBox b i := by
  induction s generalizing b i with
  | nil => cases b <;> cases i <;> simp_all [InBox, LeAll]
  | cons a s ih => cases b with
    | nil => simp [LeAll] at hle
    | cons c b => cases i with
      | nil => simp [InBox] at h
      | cons x i => exact ⟨Nat.lt_of_lt_of_le h.1 hle.1, ih h.2 hle.2⟩

/-- The last position of a box. -/
def lastPos (s : List Nat) : List Nat := s.map (· - 1)

theorem inBox_lastPos {s : List Nat} (h : ∀ x ∈ s, 0 < x) : InBox s (lastPos s) := by
  induction s with
  | nil => simp [lastPos, InBox]
  | cons a s ih =>
    exact ⟨by have := h a (by simp); simp; omega, ih fun x hx => h x (by simp [hx])⟩

theorem rowMajor_lastPos {s : List Nat} (h : ∀ x ∈ s, 0 < x) :
    rowMajor s (lastPos s) = prod s - 1 := by
  induction s with
  | nil => simp [rowMajor, prod]
  | cons a s ih =>
    have ha := h a (by simp)
    have hp := prod_pos (xs := s) fun x hx => h x (by simp [hx])
    simp only [lastPos, List.map_cons, rowMajor, prod]
    have := ih fun x hx => h x (by simp [hx])
    simp only [lastPos] at this
    rw [this, Nat.sub_mul]
    have : prod s ≤ a * prod s := Nat.le_mul_of_pos_left _ ha
    omega

theorem spreadIndexBuf_eq {s b : List Nat} (hl : b.length = s.length)
    (h : ∀ x ∈ s, 0 < x) (acc : Nat) :
    spreadIndexBuf s b acc = ((acc * prod b + rowMajor b (lastPos s) : Nat) : Int) := by
  induction s generalizing b acc with
  | nil => cases b <;> simp_all [spreadIndexBuf, rowMajor, prod]
  | cons a s ih => cases b with
    | nil => simp at hl
    | cons c b =>
      have ha := h a (by simp)
      simp only [spreadIndexBuf]
      have e : (acc : Int) * c + ((a : Int) - 1) = ((acc * c + (a - 1) : Nat) : Int) := by
        push_cast; omega
      rw [e, ih (by simpa using hl) (fun x hx => h x (by simp [hx]))]
      simp only [prod, lastPos, List.map_cons, rowMajor]
      rw [Nat.add_mul, Nat.mul_assoc, Nat.add_assoc]

theorem valR_last {s : List Nat} (h : ∀ x ∈ s, 0 < x) :
    valR s (s.map fun x : Nat => (x : Int) - 1) = ((prod s - 1 : Nat) : Int) := by
  induction s with
  | nil => simp [valR, prod]
  | cons a s ih =>
    have ha := h a (by simp)
    have hp := prod_pos (xs := s) fun x hx => h x (by simp [hx])
    simp only [List.map_cons, valR, prod]
    rw [ih fun x hx => h x (by simp [hx])]
    have e : ((prod s - 1 : Nat) : Int) = (prod s : Int) - 1 := by omega
    have e2 : ((a * prod s - 1 : Nat) : Int) = (a : Int) * prod s - 1 := by
      have : 0 < a * prod s := Nat.mul_pos ha hp
      have : ((a * prod s : Nat) : Int) = (a : Int) * prod s := by push_cast; rfl
      omega
    rw [e, e2, Int.mul_sub]
    omega

theorem digitsR_last {s : List Nat} (h : ∀ x ∈ s, 0 < x) :
    DigitsR s (s.map fun x : Nat => (x : Int) - 1) := by
  induction s with
  | nil => simp [DigitsR]
  | cons a s ih =>
    have ha := h a (by simp)
    exact ⟨by simp only; omega, ih fun x hx => h x (by simp [hx])⟩

/-! ### Memory copies -/

theorem Mem.copyIn_spec (m : Mem α) (dst : Nat) (src : List α)
    (h : dst + src.length ≤ m.length) :
    ∃ m', m.copyIn dst src = some m' ∧ m'.length = m.length ∧
      (∀ j, j < src.length → m'[dst + j]? = src[j]?) ∧
      (∀ i, i < dst ∨ dst + src.length ≤ i → m'[i]? = m[i]?) := by
  refine ⟨m.take dst ++ src ++ m.drop (dst + src.length), by simp [Mem.copyIn, h],
    by simp; omega, ?_, ?_⟩
  · intro j hj
    rw [List.append_assoc, List.getElem?_append_right (by simp; omega)]
    have e : dst + j - (m.take dst).length = j := by simp; omega
    rw [e, List.getElem?_append_left hj]
  · rintro i (hi | hi)
    · rw [List.append_assoc, List.getElem?_append_left (by simp; omega)]
      rw [List.getElem?_take]; simp [hi]
    · rw [List.getElem?_append_right (by simp; omega)]
      rw [List.getElem?_drop]
      congr 1; simp; omega

/-! ### getBlock -/

theorem ncGetVarm_spec (f : NcFile α) (off act bs : List Nat) (m : Mem α) (base : Nat)
    (hle : LeAll act bs) (hl : act.length = bs.length)
    (hm : base + prod bs ≤ m.length) :
    ∃ m', ncGetVarm f off act (strides bs) m base = some m' ∧ m'.length = m.length ∧
      (∀ pos, InBox act pos → m'[base + rowMajor bs pos]? = some (f.val (addPos off pos))) ∧
      (∀ i, i < base ∨ base + prod bs ≤ i → m'[i]? = m[i]?) := by
  have hdot : ∀ pos, InBox act pos → dot pos (strides bs) = rowMajor bs pos :=
    fun pos hp => dot_strides (by rw [hp.length_eq, hl])
  have hlt : ∀ pos, InBox act pos → rowMajor bs pos < prod bs :=
    fun pos hp => rowMajor_lt (InBox.mono hp hle)
  obtain ⟨m', h1, h2, h3, h4⟩ := foldlM_write (boxPositions act)
    (fun pos => base + dot pos (strides bs)) (fun pos => f.val (addPos off pos)) m
    (fun p hp => by
      have hp := mem_boxPositions.1 hp
      have := hlt p hp
      rw [hdot p hp]; omega)
    (fun p hp q hq he => by
      have hp := mem_boxPositions.1 hp
      have hq := mem_boxPositions.1 hq
      simp only [hdot p hp, hdot q hq] at he
      have := rowMajor_inj (InBox.mono hp hle) (InBox.mono hq hle) (by omega)
      rw [this])
  refine ⟨m', h1, h2, ?_, ?_⟩
  · intro pos hp
    have := h3 pos (mem_boxPositions.2 hp)
    simpa [hdot pos hp] using this
  · intro i hi
    apply h4
    intro p hp he
    have hp := mem_boxPositions.1 hp
    have := hlt p hp
    simp only [hdot p hp] at he
    omega

theorem rowMajor_congr_tail (a b : Nat) (s pos : List Nat) :
    rowMajor (a :: s) pos = rowMajor (b :: s) pos := by
  cases pos <;> simp [rowMajor]

theorem LeAll.prod_le {s b : List Nat} (h : LeAll s b) : prod s ≤ prod b := by
  induction s generalizing b with
  | nil => cases b <;> simp_all [LeAll]
  | cons a s ih => cases b with
    | nil => simp [LeAll] at h
    | cons c b => exact Nat.mul_le_mul h.1 (ih h.2)

theorem LeAll.length {s b : List Nat} (h : LeAll s b) : b.length = s.length := by
  induction s generalizing b with
  | nil => cases b <;> simp_all [LeAll]
  | cons a s ih => cases b with
    | nil => simp [LeAll] at h
    | cons c b => simp [ih h.2]

theorem getVarVoid_spec (f : NcFile α) (off act bs : List Nat) (m : Mem α) (base : Nat)
    (hle : LeAll act bs) (hne : act ≠ []) (hpos : ∀ x ∈ act, 0 < x)
    (hm : base + prod bs ≤ m.length) :
    ∃ m', getVarVoid f off act bs (strides bs) m base = some m' ∧ m'.length = m.length ∧
      (∀ pos, InBox act pos → m'[base + rowMajor bs pos]? = some (f.val (addPos off pos))) ∧
      (∀ i, i < base ∨ base + prod bs ≤ i → m'[i]? = m[i]?) := by
  have hlen := hle.length
  have hpl := hle.prod_le
  -- the contiguous read
  obtain ⟨m1, c1, c2, c3, c4⟩ := m.copyIn_spec base
    ((boxPositions act).map fun pos => f.val (addPos off pos))
    (by simp [boxPositions_length]; omega)
  have hv : ∀ pos, InBox act pos →
      m1[base + rowMajor act pos]? = some (f.val (addPos off pos)) := by
    intro pos hp
    rw [c3 _ (by simpa [boxPositions_length] using rowMajor_lt hp)]
    simp [boxPositions_getElem? hp]
  have hout : ∀ i, i < base ∨ base + prod bs ≤ i → m1[i]? = m[i]? := by
    intro i hi
    apply c4
    simp only [List.length_map, boxPositions_length]
    omega
  unfold getVarVoid ncGetVara
  simp only [c1, Option.bind_eq_bind, Option.bind_some]
  cases hmap : doMapping act bs with
  | false =>
    refine ⟨m1, by simp, c2, ?_, hout⟩
    have ht : act.tail = bs.tail := by simpa [doMapping] using hmap
    intro pos hp
    rw [← hv pos hp]
    match act, bs, hne, hlen, ht with
    | a :: as, b :: bs', _, _, ht =>
      simp only [List.tail_cons] at ht
      subst ht
      rw [rowMajor_congr_tail a b]
  | true =>
    match act, bs, hne, hlen with
    | a :: as, b :: bs', _, hlen =>
      simp only [if_true]
      generalize hact : a :: as = act at *
      generalize hbs : b :: bs' = bs at *
      have hRpos : ∀ x ∈ act.reverse, 0 < x := fun x hx => hpos x (by simpa using hx)
      have hpp := prod_pos hpos
      have hstr : (strides bs).reverse = stridesR bs.reverse 1 := by
        have := strides_reverse bs.reverse
        simpa using this
      have hrr : ∀ pos, InBox act pos →
          dest act.reverse bs.reverse (rowMajor act pos) = rowMajor bs pos := by
        intro pos hp
        have := dest_rowMajor act.reverse bs.reverse pos.reverse (by simpa using hlen)
          (by simpa using hp)
        simpa using this
      have hdb : ∀ k, k < prod act.reverse → base + dest act.reverse bs.reverse k < m1.length := by
        intro k hk
        rw [prod_reverse] at hk
        obtain ⟨pos, hp, rfl⟩ := exists_rowMajor hk
        rw [hrr pos hp]
        have := rowMajor_lt (InBox.mono hp hle)
        omega
      have hdlt : ∀ k, k < prod act.reverse → dest act.reverse bs.reverse k < prod bs := by
        intro k hk
        rw [prod_reverse] at hk
        obtain ⟨pos, hp, rfl⟩ := exists_rowMajor hk
        rw [hrr pos hp]
        exact rowMajor_lt (InBox.mono hp hle)
      -- initial index in the buffer
      have hib : spreadIndexBuf as bs.tail ((a : Int) - 1) =
          dest act.reverse bs.reverse (prod act - 1) := by
        have h1 := hrr _ (inBox_lastPos hpos)
        rw [rowMajor_lastPos hpos] at h1
        rw [h1, ← hbs, ← hact]
        have ha : 0 < a := hpos a (by rw [← hact]; simp)
        have e : ((a : Int) - 1) = ((a - 1 : Nat) : Int) := by omega
        rw [List.tail_cons, e, spreadIndexBuf_eq
          (by rw [← hact, ← hbs] at hlen; simpa using hlen)
          (fun x hx => hpos x (by rw [← hact]; simp [hx]))]
        simp [rowMajor, lastPos]
      obtain ⟨m', s1, s2, s3, s4⟩ := spreadLoop_spec act.reverse bs.reverse base
        (fun k => match (boxPositions act)[k]? with
          | some pos => f.val (addPos off pos)
          | none => f.val [])
        hle.reverse hRpos (by rw [← hact]; simp) (by simpa using hlen)
        (prod act) (by rw [prod_reverse]; exact Nat.le_refl _)
        (act.reverse.map fun x : Nat => (x : Int) - 1)
        (spreadIndexBuf as bs.tail ((a : Int) - 1)) m1
        (fun _ => ⟨digits_unique (digitsR_last hRpos) _ (by
            rw [valR_last hRpos, prod_reverse]), hib⟩)
        hdb
        (by
          intro j hj
          obtain ⟨pos, hp, rfl⟩ := exists_rowMajor hj
          rw [hv pos hp, boxPositions_getElem? hp])
        (by intro j h1 h2; rw [prod_reverse] at h2; omega)
      refine ⟨m', ?_, by rw [s2, c2], ?_, ?_⟩
      · rw [prodLoop_eq, Nat.one_mul, hstr]; exact s1
      · intro pos hp
        have := s3 (rowMajor act pos) (by rw [prod_reverse]; exact rowMajor_lt hp)
        rw [hrr pos hp] at this
        rw [this, boxPositions_getElem? hp]
      · intro i hi
        rw [s4 i, hout i hi]
        intro j hj he
        have := hdlt j hj
        omega

theorem getBlock_spec (f : NcFile α) (basic : Bool) (off bs : List Nat) (m : Mem α)
    (base : Nat) (hne : f.size ≠ []) (ho : InBox f.size off)
    (hb : bs.length = f.size.length) (hbp : ∀ x ∈ bs, 0 < x)
    (hm : base + prod bs ≤ m.length) :
    ∃ m', getBlock f basic off bs m base = some m' ∧ m'.length = m.length ∧
      (∀ pos, InBox bs pos → InBox f.size (addPos off pos) →
        m'[base + rowMajor bs pos]? = some (f.val (addPos off pos))) ∧
      (∀ i, i < base ∨ base + prod bs ≤ i → m'[i]? = m[i]?) := by
  have hbne : bs ≠ [] := by
    intro h; subst h; simp at hb; exact hne (List.eq_nil_of_length_eq_zero hb.symm)
  have him : imap bs = some (strides bs) := by
    cases bs with
    | nil => exact absurd rfl hbne
    | cons b bs => exact imap_eq b bs
  have hle := actSize_le ho hb
  have hal := actSize_length ho hb
  have hap := actSize_pos ho hb hbp
  have hane : actSize f.size off bs ≠ [] := by
    intro h; rw [h] at hal; exact hne (List.eq_nil_of_length_eq_zero hal.symm)
  have hiff : ∀ pos, InBox (actSize f.size off bs) pos ↔ _ := fun pos => inBox_actSize ho hb
  unfold getBlock
  simp only [him, Option.bind_eq_bind, Option.bind_some]
  cases basic with
  | true =>
    obtain ⟨m', h1, h2, h3, h4⟩ := ncGetVarm_spec f off _ bs m base hle (by rw [hal, hb]) hm
    exact ⟨m', by simpa using h1, h2, fun pos p1 p2 => h3 pos ((hiff pos).2 ⟨p1, p2⟩), h4⟩
  | false =>
    obtain ⟨m', h1, h2, h3, h4⟩ := getVarVoid_spec f off _ bs m base hle hane hap hm
    exact ⟨m', by simpa using h1, h2, fun pos p1 p2 => h3 pos ((hiff pos).2 ⟨p1, p2⟩), h4⟩

end Asagi
