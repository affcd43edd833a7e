import Verif.Proofs.Radix
/- Correctness of `getBlock` (io/netcdfreader.h 194-347). -/
namespace Asagi
open Spec
variable {α : Type}

/-! ### imap -/

/-- Row-major strides. -/
def strides : List Nat → List Nat
  | [] => []
  | _ :: bs => prod bs :: strides bs

theorem imapLoop_strides (bs rest acc : List Nat) :
    imapLoop (bs.reverse ++ rest) 1 acc = imapLoop rest (prod bs) (strides bs ++ acc) := by
  induction bs generalizing rest acc with
  | nil => simp [prod, strides]
  | cons c cs ih =>
    simp only [List.reverse_cons, List.append_assoc]
    rw [ih]
    simp [imapLoop, strides, prod, Nat.mul_comm]

theorem imap_eq (b : Nat) (bs : List Nat) : imap (b :: bs) = some (strides (b :: bs)) := by
  have := imapLoop_strides bs [] []
  simp only [List.append_nil] at this
  simp [imap, this, imapLoop, strides]

theorem dot_strides {bs pos : List Nat} (h : pos.length = bs.length) :
    dot pos (strides bs) = rowMajor bs pos := by
  induction bs generalizing pos with
  | nil => cases pos <;> simp_all [dot, rowMajor]
  | cons b bs ih => cases pos with
    | nil => simp at h
    | cons p pos => simp [dot, strides, rowMajor, ih (by simpa using h)]

/-! ### boxPositions -/

theorem mem_boxPositions {s pos : List Nat} : pos ∈ boxPositions s ↔ InBox s pos := by
  induction s generalizing pos with
  | nil => cases pos <;> simp [boxPositions, InBox]
  | cons n s ih =>
    cases pos with
    | nil => simp [boxPositions, InBox]
    | cons p pos =>
      simp only [boxPositions, List.mem_flatMap, List.mem_range, List.mem_map, InBox]
      constructor
      · rintro ⟨i, hi, q, hq, he⟩
        simp only [List.cons.injEq] at he
        obtain ⟨rfl, rfl⟩ := he
        exact ⟨hi, ih.1 hq⟩
      · rintro ⟨h1, h2⟩
        exact ⟨p, h1, pos, ih.2 h2, rfl⟩

theorem flatMap_range_getElem? {β : Type} (f : Nat → List β) (L : Nat)
    (hf : ∀ i, (f i).length = L) (n i j : Nat) (hi : i < n) (hj : j < L) :
    ((List.range n).flatMap f)[i * L + j]? = (f i)[j]? ∧
      ((List.range n).flatMap f).length = n * L := by
  have hlen : ∀ n, ((List.range n).flatMap f).length = n * L := by
    intro n
    induction n with
    | zero => simp
    | succ n ih => simp [List.range_succ, List.flatMap_append, ih, hf, Nat.add_mul]
  refine ⟨?_, hlen n⟩
  induction n with
  | zero => omega
  | succ n ih =>
    simp only [List.range_succ, List.flatMap_append, List.flatMap_singleton]
    by_cases h : i < n
    · have : i * L + j < n * L := by
        have : (i + 1) * L ≤ n * L := Nat.mul_le_mul_right _ h
        rw [Nat.add_mul] at this; omega
      rw [List.getElem?_append_left (by rw [hlen]; exact this)]
      exact ih h
    · have hin : i = n := by omega
      subst hin
      rw [List.getElem?_append_right (by rw [hlen]; omega), hlen]
      congr 1; omega

theorem boxPositions_length (s : List Nat) : (boxPositions s).length = prod s := by
  induction s with
  | nil => simp [boxPositions, prod]
  | cons n s ih =>
    simp only [boxPositions, prod]
    have hlen : ∀ n, ((List.range n).flatMap
        fun i => (boxPositions s).map (i :: ·)).length = n * prod s := by
      intro n
      induction n with
      | zero => simp
      | succ n ihn => simp [List.range_succ, List.flatMap_append, ihn, ih, Nat.add_mul]
    exact hlen n

theorem boxPositions_getElem? {s pos : List Nat} (h : InBox s pos) :
    (boxPositions s)[rowMajor s pos]? = some pos := by
  induction s generalizing pos with
  | nil => cases pos <;> simp_all [boxPositions, rowMajor, InBox]
  | cons n s ih => cases pos with
    | nil => simp [InBox] at h
    | cons p pos =>
      simp only [boxPositions, rowMajor]
      have := (flatMap_range_getElem? (fun i => (boxPositions s).map (i :: ·)) (prod s)
        (by simp [boxPositions_length]) n p (rowMajor s pos) h.1 (rowMajor_lt h.2)).1
      rw [this]
      simp [ih h.2]

/-! ### Memory lemmas -/

theorem Mem.write_some {m : Mem α} {i : Nat} (v : α) (h : i < m.length) :
    m.write i v = some (m.set i v) := by simp [Mem.write, h]

theorem foldlM_write {β : Type} (L : List β) (a : β → Nat) (v : β → α) (m : Mem α)
    (hb : ∀ p ∈ L, a p < m.length)
    (hinj : ∀ p ∈ L, ∀ q ∈ L, a p = a q → v p = v q) :
    ∃ m', L.foldlM (fun (m : Mem α) p => m.write (a p) (v p)) m = some m' ∧
      m'.length = m.length ∧
      (∀ p ∈ L, m'[a p]? = some (v p)) ∧
      (∀ i, (∀ p ∈ L, a p ≠ i) → m'[i]? = m[i]?) := by
  induction L generalizing m with
  | nil => exact ⟨m, rfl, rfl, by simp, by simp⟩
  | cons p L ih =>
    have hp : a p < m.length := hb p (by simp)
    obtain ⟨m', h1, h2, h3, h4⟩ := ih (m.set (a p) (v p))
      (fun q hq => by simpa using hb q (by simp [hq]))
      (fun q hq r hr => hinj q (by simp [hq]) r (by simp [hr]))
    refine ⟨m', ?_, by simpa using h2, ?_, ?_⟩
    · simp only [List.foldlM_cons, Mem.write_some _ hp]
      exact h1
    · intro q hq
      rcases List.mem_cons.1 hq with rfl | hq
      · by_cases hex : ∃ r ∈ L, a r = a q
        · obtain ⟨r, hr, hra⟩ := hex
          rw [← hra, h3 r hr, hinj r (by simp [hr]) q (by simp) hra]
        · rw [h4 _ (fun r hr hra => hex ⟨r, hr, hra⟩)]
          simp [hp]
      · exact h3 q hq
    · intro i hi
      rw [h4 i (fun q hq => hi q (by simp [hq]))]
      have : a p ≠ i := hi p (by simp)
      simp [this]

/-! ### In-place spreading -/

/-- Number represented by reversed digits (least significant first), over the integers. -/
def valR : List Nat → List Int → Int
  | s :: ss, p :: ps => p + s * valR ss ps
  | _, _ => 0

def dotR : List Int → List Nat → Int
  | p :: ps, m :: ms => p * m + dotR ps ms
  | _, _ => 0

/-- All digits in range. -/
def DigitsR : List Nat → List Int → Prop
  | [], [] => True
  | s :: ss, p :: ps => (0 ≤ p ∧ p < s) ∧ DigitsR ss ps
  | _, _ => False

theorem spreadCarry_spec (size : List Nat) (pos : List Int) (im : List Nat) (ib : Int)
    (p : Int) (ps : List Int) (s : Nat) (ss : List Nat)
    (hpos : pos = p :: ps) (hsize : size = s :: ss) (him : im.length = size.length)
    (hs : ∀ x ∈ size, 0 < x)
    (hp : -1 ≤ p ∧ p < s) (hps : DigitsR ss ps) (hv : 0 ≤ valR size pos) :
    let r := spreadCarry pos size im ib
    DigitsR size r.1 ∧ valR size r.1 = valR size pos ∧
      r.2 - dotR r.1 im = ib - dotR pos im := by
  induction size generalizing pos im ib p ps s ss with
  | nil => simp at hsize
  | cons s0 ss0 ih =>
    obtain ⟨rfl, rfl⟩ : s0 = s ∧ ss0 = ss := by simpa using hsize
    subst hpos
    cases ps with
    | nil =>
      cases ss0 with
      | cons _ _ => simp [DigitsR] at hps
      | nil =>
        simp only [valR] at hv
        simp [spreadCarry, DigitsR]
        simp at hv; omega
    | cons p' ps =>
      cases ss0 with
      | nil => simp [DigitsR] at hps
      | cons s' ss =>
        match im, him with
        | m :: m' :: ms, him =>
          by_cases hneg : p < 0
          · have hp1 : p = -1 := by omega
            subst hp1
            simp only [spreadCarry, if_pos hneg]
            have hs0 : 0 < s0 := hs _ (by simp)
            have hv' : 0 ≤ valR (s' :: ss) ((p' - 1) :: ps) := by
              simp only [valR] at hv ⊢
              have h0 : (0 : Int) < s0 := by omega
              have h1 : 0 < p' + s' * valR ss ps := by
                rcases Int.lt_or_le 0 (p' + s' * valR ss ps) with h | h
                · exact h
                · have := Int.mul_le_mul_of_nonneg_left h (Int.le_of_lt h0)
                  omega
              omega
            have := ih ((p' - 1) :: ps) (m' :: ms) (ib - m' + m * s0) (p' - 1) ps s' ss
              rfl rfl (by simpa using him) (fun x hx => hs x (by simp [hx]))
              ⟨by have := hps.1.1; omega, by have := hps.1.2; omega⟩ hps.2 hv'
            obtain ⟨i1, i2, i3⟩ := this
            refine ⟨⟨by omega, i1⟩, ?_, ?_⟩
            · simp only [valR] at i2 ⊢
              have e : valR (s' :: ss) (spreadCarry ((p' - 1) :: ps) (s' :: ss) (m' :: ms)
                  (ib - m' + m * s0)).1 = p' - 1 + s' * valR ss ps := i2
              rw [e]
              have : (s0 : Int) * (p' - 1 + s' * valR ss ps) =
                s0 * (p' + s' * valR ss ps) - s0 := by
                rw [show p' - 1 + (s' : Int) * valR ss ps = (p' + s' * valR ss ps) - 1 by omega,
                  Int.mul_sub]; simp
              omega
            · simp only [dotR] at i3 ⊢
              have e1 : (p' - 1) * (m' : Int) = p' * m' - m' := by rw [Int.sub_mul]; simp
              have e2 : ((s0 : Int) - 1) * m = s0 * m - m := by rw [Int.sub_mul]; simp
              have e3 : (m : Int) * s0 = s0 * m := Int.mul_comm _ _
              rw [e1] at i3
              rw [e2]
              omega
          · simp only [spreadCarry, if_neg hneg]
            exact ⟨⟨by omega, hps⟩, by simp, by simp⟩

/-- Digits of `k`, least significant first. -/
def digitsR : List Nat → Nat → List Int
  | [], _ => []
  | s :: ss, k => ((k % s : Nat) : Int) :: digitsR ss (k / s)

theorem digits_unique {size : List Nat} {pos : List Int} (h : DigitsR size pos) (k : Nat)
    (hk : valR size pos = k) : pos = digitsR size k := by
  induction size generalizing pos k with
  | nil => cases pos <;> simp_all [DigitsR, digitsR]
  | cons s ss ih => cases pos with
    | nil => simp [DigitsR] at h
    | cons p ps =>
      simp only [valR] at hk
      have hs : (0 : Int) < s := by have := h.1.1; have := h.1.2; omega
      have e1 : (k : Int) % s = p := by
        rw [← hk, Int.add_mul_emod_self_left, Int.emod_eq_of_lt h.1.1 h.1.2]
      have e2 : (k : Int) / s = valR ss ps := by
        rw [← hk, Int.add_mul_ediv_left _ _ (by omega), Int.ediv_eq_zero_of_lt h.1.1 h.1.2]
        simp
      simp only [digitsR, List.cons.injEq]
      exact ⟨by simpa using e1.symm, ih h.2 (k / s) (by rw [← e2]; simp)⟩

theorem digitsR_valid {size : List Nat} (hs : ∀ x ∈ size, 0 < x) (k : Nat) :
    DigitsR size (digitsR size k) := by
  induction size generalizing k with
  | nil => simp [digitsR, DigitsR]
  | cons s ss ih =>
    refine ⟨⟨by omega, ?_⟩, ih (fun x hx => hs x (by simp [hx])) _⟩
    have := Nat.mod_lt k (hs s (by simp)); omega

theorem valR_digitsR {size : List Nat} {k : Nat} (hk : k < prod size) :
    valR size (digitsR size k) = k := by
  induction size generalizing k with
  | nil => simp [prod] at hk; simp [valR, hk]
  | cons s ss ih =>
    simp only [prod] at hk
    have hs : 0 < s := by
      rcases Nat.eq_zero_or_pos s with h | h
      · simp [h] at hk
      · exact h
    have : k / s < prod ss := by rw [Nat.div_lt_iff_lt_mul hs, Nat.mul_comm]; exact hk
    simp only [valR, digitsR, ih this]
    have := Nat.mod_add_div k s
    omega

/-- Destination of element `k`, over reversed lists. -/
def dest : List Nat → List Nat → Nat → Nat
  | s :: ss, b :: bs, k => k % s + b * dest ss bs (k / s)
  | _, _, _ => 0

/-- Componentwise `≤` of extents. -/
def LeAll : List Nat → List Nat → Prop
  | [], [] => True
  | s :: ss, b :: bs => s ≤ b ∧ LeAll ss bs
  | _, _ => False

theorem dest_mono {size bs : List Nat} (hle : LeAll size bs) {k k' : Nat} (hkk : k ≤ k')
    (hk : k' < prod size) : dest size bs k + (k' - k) ≤ dest size bs k' := by
  induction size generalizing bs k k' with
  | nil =>
    have h1 : k' < 1 := hk
    obtain rfl : k' = 0 := by omega
    obtain rfl : k = 0 := by omega
    simp
  | cons s ss ih => cases bs with
    | nil => simp [LeAll] at hle
    | cons b bs =>
      simp only [prod] at hk
      have hs : 0 < s := by
        rcases Nat.eq_zero_or_pos s with h | h
        · simp [h] at hk
        · exact h
      have hq : k / s ≤ k' / s := Nat.div_le_div_right hkk
      have hq' : k' / s < prod ss := by rw [Nat.div_lt_iff_lt_mul hs, Nat.mul_comm]; exact hk
      have i := ih hle.2 hq hq'
      have i2 : b * dest ss bs (k / s) + b * (k' / s - k / s) ≤ b * dest ss bs (k' / s) := by
        rw [← Nat.mul_add]; exact Nat.mul_le_mul_left _ i
      have i3 : s * (k' / s - k / s) ≤ b * (k' / s - k / s) := Nat.mul_le_mul_right _ hle.1
      rw [Nat.mul_sub] at i3
      have := Nat.mod_add_div k s
      have := Nat.mod_add_div k' s
      have : s * (k / s) ≤ s * (k' / s) := Nat.mul_le_mul_left _ hq
      simp only [dest]
      omega

theorem dest_zero (size bs : List Nat) : dest size bs 0 = 0 := by
  induction size generalizing bs with
  | nil => simp [dest]
  | cons s ss ih => cases bs <;> simp [dest, ih]

theorem dest_ge {size bs : List Nat} (hle : LeAll size bs) {k : Nat} (hk : k < prod size) :
    k ≤ dest size bs k := by
  have := dest_mono hle (Nat.zero_le k) hk
  rw [dest_zero] at this; omega

/-- Least-significant-first strides with start value `c`. -/
def stridesR : List Nat → Nat → List Nat
  | [], _ => []
  | b :: bs, c => c :: stridesR bs (c * b)

theorem dotR_digits {size bs : List Nat} (h : bs.length = size.length) (c k : Nat) :
    dotR (digitsR size k) (stridesR bs c) = c * dest size bs k := by
  induction size generalizing bs c k with
  | nil => cases bs <;> simp_all [dotR, digitsR, dest]
  | cons s ss ih => cases bs with
    | nil => simp at h
    | cons b bs =>
      simp only [digitsR, stridesR, dotR, dest]
      rw [ih (by simpa using h)]
      push_cast
      rw [Int.mul_add, Int.mul_comm _ (c : Int), Int.mul_assoc]

theorem strides_append (xs : List Nat) (y : Nat) :
    strides (xs ++ [y]) = (strides xs).map (· * y) ++ [1] := by
  induction xs with
  | nil => simp [strides, prod]
  | cons x xs ih => simp [strides, ih, prod_append, prod]

theorem stridesR_mul (bs : List Nat) (c d : Nat) :
    stridesR bs (c * d) = (stridesR bs c).map (· * d) := by
  induction bs generalizing c with
  | nil => simp [stridesR]
  | cons b bs ih =>
    simp only [stridesR, List.map_cons, List.cons.injEq, true_and]
    rw [← ih]; congr 1
    rw [Nat.mul_assoc, Nat.mul_assoc, Nat.mul_comm b d]

theorem strides_reverse (bs : List Nat) : (strides bs.reverse).reverse = stridesR bs 1 := by
  induction bs with
  | nil => simp [strides, stridesR]
  | cons b bs ih =>
    simp only [List.reverse_cons, strides_append, List.reverse_append, List.reverse_nil,
      List.nil_append, List.singleton_append, stridesR, List.cons.injEq, true_and]
    simp only [← List.map_reverse, ih, Nat.one_mul]
    rw [← stridesR_mul]; simp

theorem prodR (xs : List Nat) : prod xs.reverse = prod xs := prod_reverse xs

/-- Row-major number over reversed lists. -/
theorem rowMajor_append {s i : List Nat} (n p : Nat) (h : i.length = s.length) :
    rowMajor (s ++ [n]) (i ++ [p]) = rowMajor s i * n + p := by
  induction s generalizing i with
  | nil => cases i <;> simp_all [rowMajor, prod]
  | cons a s ih => cases i with
    | nil => simp at h
    | cons b i =>
      simp only [List.cons_append, rowMajor, ih (by simpa using h), prod_append, prod]
      rw [Nat.mul_one, Nat.add_mul, Nat.mul_assoc, Nat.add_assoc]

theorem InBox_append_iff {s i : List Nat} (n p : Nat) (h : i.length = s.length) :
    InBox (s ++ [n]) (i ++ [p]) ↔ InBox s i ∧ p < n := by
  induction s generalizing i with
  | nil => cases i <;> simp_all [InBox]
  | cons a s ih => cases i with
    | nil => simp at h
    | cons b i => simp [InBox, ih (by simpa using h), and_assoc]

/-- Element number `rowMajor size pos` is moved to `rowMajor bs pos`. -/
theorem dest_rowMajor (size bs pos : List Nat) (hb : bs.length = size.length)
    (h : InBox size.reverse pos.reverse) :
    dest size bs (rowMajor size.reverse pos.reverse) = rowMajor bs.reverse pos.reverse := by
  induction size generalizing bs pos with
  | nil =>
    have := h.length_eq
    cases bs <;> simp_all [dest, rowMajor]
  | cons s ss ih =>
    have hl := h.length_eq
    cases bs with
    | nil => simp at hb
    | cons b bs => cases pos with
      | nil => simp at hl
      | cons p ps =>
        simp only [List.length_reverse, List.length_cons] at hl
        simp only [List.reverse_cons] at h ⊢
        have hlen : ps.reverse.length = ss.reverse.length := by simp; omega
        have hlenb : ps.reverse.length = bs.reverse.length := by simp at hb; simp; omega
        rw [InBox_append_iff _ _ hlen] at h
        rw [rowMajor_append _ _ hlen, rowMajor_append _ _ hlenb]
        simp only [dest]
        have e1 : (rowMajor ss.reverse ps.reverse * s + p) % s = p := by
          rw [Nat.mul_comm, Nat.mul_add_mod, Nat.mod_eq_of_lt h.2]
        have e2 : (rowMajor ss.reverse ps.reverse * s + p) / s =
            rowMajor ss.reverse ps.reverse := by
          rw [Nat.mul_comm, Nat.mul_add_div (by omega), Nat.div_eq_of_lt h.2]; simp
        rw [e1, e2, ih bs ps (by simpa using hb) h.1, Nat.mul_comm]
        omega

theorem spreadLoop_spec (size bs : List Nat) (base : Nat) (v : Nat → α)
    (hle : LeAll size bs) (hs : ∀ x ∈ size, 0 < x) (hne : size ≠ [])
    (hlen : bs.length = size.length)
    (n : Nat) (hn : n ≤ prod size) (pos : List Int) (ib : Int) (m : Mem α)
    (hpos : 0 < n → pos = digitsR size (n - 1) ∧ ib = dest size bs (n - 1))
    (hbound : ∀ k, k < prod size → base + dest size bs k < m.length)
    (hlow : ∀ j, j < n → m[base + j]? = some (v j))
    (hhigh : ∀ j, n ≤ j → j < prod size → m[base + dest size bs j]? = some (v j)) :
    ∃ m', spreadLoop size (stridesR bs 1) base n pos ib m = some m' ∧
      m'.length = m.length ∧
      (∀ j, j < prod size → m'[base + dest size bs j]? = some (v j)) ∧
      (∀ i, (∀ j, j < prod size → i ≠ base + dest size bs j) → m'[i]? = m[i]?) := by
  induction n generalizing pos ib m with
  | zero =>
    exact ⟨m, rfl, rfl, fun j hj => hhigh j (Nat.zero_le _) hj, fun _ _ => rfl⟩
  | succ k ih =>
    obtain ⟨rfl, rfl⟩ := hpos (by omega)
    simp only [Nat.add_sub_cancel]
    have hk : k < prod size := by omega
    simp only [spreadLoop]
    split
    · rename_i hlt
      have hlt' : k < dest size bs k := by omega
      have hr : m.read (base + k) = some (v k) := hlow k (by omega)
      have hw : m.write (base + dest size bs k) (v k) =
          some (m.set (base + dest size bs k) (v k)) := Mem.write_some _ (hbound k hk)
      simp only [hr, Option.bind_eq_bind, Option.bind_some, Int.toNat_natCast, hw]
      have key := ih (by omega)
        (spreadDec size (stridesR bs 1) (digitsR size k) (dest size bs k)).1
        (spreadDec size (stridesR bs 1) (digitsR size k) (dest size bs k)).2
        (m.set (base + dest size bs k) (v k)) ?_ ?_ ?_ ?_
      · obtain ⟨m', h1, h2, h3, h4⟩ := key
        refine ⟨m', h1, by simpa using h2, h3, ?_⟩
        intro i hi
        rw [h4 i hi]
        have : base + dest size bs k ≠ i := fun h => hi k hk h.symm
        simp [this]
      · intro hk0
        match size, hne with
        | s :: ss, _ =>
          have hd : digitsR (s :: ss) k = ((k % s : Nat) : Int) :: digitsR ss (k / s) := rfl
          simp only [hd, spreadDec]
          have hs0 : 0 < s := hs s (by simp)
          have hval : valR (s :: ss) ((((k % s : Nat) : Int) - 1) :: digitsR ss (k / s)) =
              ((k - 1 : Nat) : Int) := by
            have := valR_digitsR hk
            rw [hd] at this
            simp only [valR] at this ⊢
            omega
          have := spreadCarry_spec (s :: ss)
            ((((k % s : Nat) : Int) - 1) :: digitsR ss (k / s)) (stridesR bs 1)
            (dest (s :: ss) bs k - 1) (((k % s : Nat) : Int) - 1) (digitsR ss (k / s)) s ss
            rfl rfl (by
              have : ∀ (l : List Nat) c, (stridesR l c).length = l.length := by
                intro l; induction l with
                | nil => intro c; rfl
                | cons x l ih => intro c; simp [stridesR, ih]
              rw [this, hlen]) hs
            ⟨by omega, by have := Nat.mod_lt k hs0; omega⟩
            (digitsR_valid (fun x hx => hs x (by simp [hx])) _) (by rw [hval]; omega)
          obtain ⟨c1, c2, c3⟩ := this
          have hdig := digits_unique c1 (k - 1) (by rw [c2, hval])
          refine ⟨hdig, ?_⟩
          rw [hdig] at c3
          have e1 := dotR_digits hlen 1 (k - 1)
          have e2 := dotR_digits hlen 1 k
          rw [e1] at c3
          rw [hd] at e2
          have e3 : dotR ((((k % s : Nat) : Int) - 1) :: digitsR ss (k / s)) (stridesR bs 1) =
              dotR (((k % s : Nat) : Int) :: digitsR ss (k / s)) (stridesR bs 1) - 1 := by
            cases bs with
            | nil => simp at hlen
            | cons b bs' => simp only [stridesR, dotR, Int.sub_mul]; omega
          rw [e3, e2] at c3
          omega
      · intro j hj; simpa using hbound j hj
      · intro j hj
        have : base + dest size bs k ≠ base + j := by omega
        rw [List.getElem?_set_ne this]
        exact hlow j (by omega)
      · intro j hj hj2
        by_cases hjk : j = k
        · subst hjk
          simp [hbound j hj2]
        · have := dest_mono hle (k := k) (k' := j) (by omega) hj2
          have : base + dest size bs k ≠ base + dest size bs j := by omega
          rw [List.getElem?_set_ne this]
          exact hhigh j (by omega) hj2
    · rename_i hge
      refine ⟨m, rfl, rfl, ?_, fun _ _ => rfl⟩
      intro j hj
      by_cases hjk : j ≤ k
      · have h1 := dest_mono hle hjk hk
        have h2 := dest_ge hle hj
        have : dest size bs j = j := by omega
        rw [this]; exact hlow j (by omega)
      · exact hhigh j (by omega) hj

end Asagi
