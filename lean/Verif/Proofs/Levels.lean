import Verif.Model.Levels
import Verif.Proofs.GetBlock
import Verif.Proofs.Blocked
import Verif.Proofs.CacheList
import Verif.Proofs.Index
/- The levels return the file's values. -/
namespace Asagi
open Spec
variable {α : Type}

/-- What `openLevel` establishes. -/
structure LevelCfg.WF (c : LevelCfg α) : Prop where
  ne : c.geom ≠ []
  geom : GeomWF c.geom
  size : c.geom.map Dim.size = c.file.size
  axes : c.axes.map Axis.size = c.file.size
  tbs : c.totalBlockSize = prod (c.geom.map Dim.bs)
  tb : c.totalBlocks = prod (c.geom.map Dim.blocks)

theorem openLevel_spec {fp : Fp} {cc : Bool} {nc : List NcAxis} {val : List Nat → α}
    {basic : Bool} {param : List Int} {timeDim : Int} {junk : BlockedState} {c : LevelCfg α}
    (hne : nc ≠ []) (h : openLevel fp cc nc val basic param timeDim junk = some c) :
    c.WF ∧ c.fp = fp ∧ c.axes = openAxes fp cc nc ∧ c.file.size = nc.map NcAxis.size ∧
      c.file.val = val ∧ c.geom = openGeom (nc.map NcAxis.size) param ∧ c.basic = basic := by
  simp only [openLevel, Option.bind_eq_bind, Option.bind_eq_some_iff] at h
  obtain ⟨st, hst, h⟩ := h
  simp at h
  obtain ⟨a1, a2, a3, a4, a5, a6, a7⟩ := blockedOpen_spec hst
  subst h
  refine ⟨⟨?_, ?_, ?_, ?_, ?_, ?_⟩, rfl, rfl, rfl, rfl, a2, rfl⟩
  · simp only [a2]
    intro h0
    have := openGeom_length _ _ a1
    rw [h0] at this
    simp at this
    exact hne (List.eq_nil_of_length_eq_zero this.symm)
  · simp only [a2]; exact a3
  · simp only [a2]; exact a4
  · simp only [openAxes, List.map_map]
    congr 1
    funext a
    exact (openAxis_members fp cc a).1
  · simp only [a6, a2, totalBlockSize_eq]
  · simp only [a7, a2, totalBlocks_eq]

/-! ### pos2index -/

theorem mapM_option_spec {β γ : Type} (f : β → Option γ) (l : List β) (r : List γ)
    (h : l.mapM f = some r) : r.length = l.length ∧ 
      ∀ (i : Nat) (b : β), l[i]? = some b → ∃ c, f b = some c ∧ r[i]? = some c := by
  induction l generalizing r with
  | nil => simp at h; subst h; simp
  | cons x l ih =>
    simp only [List.mapM_cons, Option.bind_eq_bind, Option.bind_eq_some_iff] at h
    obtain ⟨y, hy, ys, hys, h⟩ := h
    simp at h; subst h
    obtain ⟨h1, h2⟩ := ih ys hys
    refine ⟨by simp [h1], ?_⟩
    intro i b hb
    cases i with
    | zero => simp at hb; subst hb; exact ⟨y, hy, by simp⟩
    | succ i => simpa using h2 i b (by simpa using hb)

theorem mapM_option_some {β γ : Type} (f : β → Option γ) (l : List β)
    (h : ∀ b ∈ l, ∃ c, f b = some c) : ∃ r, l.mapM f = some r := by
  induction l with
  | nil => exact ⟨[], by simp⟩
  | cons x l ih =>
    obtain ⟨y, hy⟩ := h x (by simp)
    obtain ⟨ys, hys⟩ := ih (fun b hb => h b (by simp [hb]))
    exact ⟨y :: ys, by simp [hy, hys]⟩

theorem inBox_of_getElem? {s i : List Nat} (hl : i.length = s.length)
    (h : ∀ k a b : Nat, s[k]? = some a → i[k]? = some b → b < a) : InBox s i := by
  induction s generalizing i with
  | nil => cases i with
    | nil => trivial
    | cons x i => simp at hl
  | cons a s ih => cases i with
    | nil => simp at hl
    | cons b i =>
      refine ⟨h 0 a b (by simp) (by simp), ih (by simpa using hl) ?_⟩
      intro k x y hx hy
      exact h (k + 1) x y (by simpa using hx) (by simpa using hy)

theorem Spec.InBox.getElem? {s i : List Nat} (h : InBox s i) {k a b : Nat}
    (ha : s[k]? = some a) (hb : i[k]? = some b) : b < a := by
  induction s generalizing i k with
  | nil => simp at ha
  | cons x s ih => cases i with
    | nil => simp at hb
    | cons y i => cases k with
      | zero => simp at ha hb; subst ha; subst hb; exact h.1
      | succ k => exact ih h.2 (by simpa using ha) (by simpa using hb)

/-- All sizes can be converted to `double` exactly (true for IEEE doubles up to 2^53). -/
def SizesExact (fp : Fp) (size : List Nat) : Prop :=
  ∀ n ∈ size, n < 2 ^ 64 ∧ fp.ofNat n = .fin n ∧ fp.ofNat (n - 1) = .fin (n - 1 : ℕ)

theorem sizesExact_exact {size : List Nat} (h : ∀ n ∈ size, n < 2 ^ 64) :
    SizesExact .exact size := fun n hn => ⟨h n hn, rfl, rfl⟩

theorem pos2index_inBox {c : LevelCfg α} (wf : c.WF) (hx : SizesExact c.fp c.file.size)
    {pos : List Dbl} {idx : List Nat} (h : pos2index c.fp c.axes pos = some idx) :
    InBox c.file.size idx := by
  unfold pos2index at h
  obtain ⟨h1, h2⟩ := mapM_option_spec _ _ _ h
  have hl : c.axes.length = c.file.size.length := by rw [← wf.axes]; simp
  simp only [List.length_range] at h1
  apply inBox_of_getElem? (by omega)
  intro k a b ha hb
  have hk : k < c.axes.length := by
    have := (List.getElem?_eq_some_iff.mp ha).1; omega
  obtain ⟨d, hd, hr⟩ := h2 k k (by simp [hk])
  rw [hb] at hr; injection hr with hr; subst hr
  simp only [Option.bind_eq_bind, Option.bind_eq_some_iff] at hd
  obtain ⟨ax, hax, p, hp, hd⟩ := hd
  have hsz : c.file.size[k]? = some ax.size := by
    rw [← wf.axes, List.getElem?_map, hax]; rfl
  rw [ha] at hsz; injection hsz with hsz
  subst hsz
  have hmem : ax.size ∈ c.file.size := List.mem_of_getElem? ha
  obtain ⟨e1, e2, e3⟩ := hx _ hmem
  have hpos : 0 < ax.size := by
    rw [← wf.size] at hmem
    obtain ⟨dm, hdm, he⟩ := List.mem_map.mp hmem
    have := wf.geom dm hdm
    omega
  rcases pos2indexDim_valid c.fp ax p hpos e1 ⟨e2, e3⟩ with ⟨-, hn⟩ | ⟨k', hk', hlt⟩
  · rw [hn] at hd; simp at hd
  · rw [hk'] at hd; injection hd with hd; omega

/-! ### Blocks in memory -/

/-- Block `b` is stored completely at `base`: each sample of the file that belongs to the
block is at its place. -/
def BlockOK (c : LevelCfg α) (b : Nat) (m : Mem α) (base : Nat) : Prop :=
  ∀ idx, InBox c.file.size idx → blockByCoords c.geom idx = b →
    m[base + calcOffsetInBlock c.geom idx]? = some (c.file.val idx)

theorem block_lt {c : LevelCfg α} (wf : c.WF) {idx : List Nat} (h : InBox c.file.size idx) :
    blockByCoords c.geom idx < c.totalBlocks ∧
      calcOffsetInBlock c.geom idx < c.totalBlockSize := by
  rw [← wf.size] at h
  have hl : idx.length = c.geom.length := by simpa using h.length_eq
  rw [blockByCoords_eq _ hl, calcOffsetInBlock_eq _ hl, wf.tb, wf.tbs]
  exact ⟨rowMajor_lt (inBox_quot wf.geom h), rowMajor_lt (inBox_rem wf.geom h)⟩

theorem addPos_origin {g : List Dim} {idx : List Nat} (hg : GeomWF g)
    (h : InBox (g.map Dim.size) idx) :
    blockOrigin g (blockByCoords g idx) =
        List.zipWith (fun d i => i - i % d.bs) g idx ∧
      addPos (blockOrigin g (blockByCoords g idx))
        (List.zipWith (fun d i => i % d.bs) g idx) = idx := by
  have hl : idx.length = g.length := by simpa using h.length_eq
  have e : blockOrigin g (blockByCoords g idx) =
      List.zipWith (fun d i => i - i % d.bs) g idx := by
    unfold blockOrigin
    rw [blockByCoords_eq g hl, calcBlockPosition_rowMajor (inBox_quot hg h)]
    clear hg h
    induction g generalizing idx with
    | nil => simp
    | cons d g ih => cases idx with
      | nil => simp at hl
      | cons x idx =>
        simp only [List.zipWith_cons_cons]
        congr 1
        · have := Nat.div_add_mod x d.bs
          rw [Nat.mul_comm] at this
          omega
        · exact ih (by simpa using hl)
  refine ⟨e, ?_⟩
  rw [e]
  clear e hg h
  induction g generalizing idx with
  | nil => cases idx with
    | nil => simp [addPos]
    | cons x idx => simp at hl
  | cons d g ih => cases idx with
    | nil => simp at hl
    | cons x idx =>
      have := ih (idx := idx) (by simpa using hl)
      simp only [addPos, List.zipWith_cons_cons] at *
      rw [this]
      congr 1
      have := Nat.mod_le x d.bs
      omega

theorem blockOrigin_inBox {g : List Dim} (hg : GeomWF g) {b : Nat}
    (hb : b < prod (g.map Dim.blocks)) : InBox (g.map Dim.size) (blockOrigin g b) := by
  obtain ⟨ds, h1, h2⟩ := exists_rowMajor hb
  subst h2
  unfold blockOrigin
  rw [calcBlockPosition_rowMajor h1]
  clear hb
  induction g generalizing ds with
  | nil => cases ds with
    | nil => simp [InBox]
    | cons x ds => simp [InBox] at h1
  | cons d g ih => cases ds with
    | nil => simp [InBox] at h1
    | cons x ds =>
      refine ⟨?_, ih hg.tail _ h1.2⟩
      exact (lt_blocks_iff (hg d (by simp)).1 x).mp h1.1

/-- Loading a block from the file. -/
theorem loadBlock_spec {c : LevelCfg α} (wf : c.WF) {b : Nat} (hb : b < c.totalBlocks)
    (m : Mem α) (base : Nat) (hm : base + c.totalBlockSize ≤ m.length) :
    ∃ m', getBlock c.file c.basic (blockOrigin c.geom b) (c.geom.map Dim.bs) m base = some m' ∧
      m'.length = m.length ∧ BlockOK c b m' base ∧
      (∀ i, i < base ∨ base + c.totalBlockSize ≤ i → m'[i]? = m[i]?) := by
  have hne : c.file.size ≠ [] := by
    rw [← wf.size]; intro h; exact wf.ne (List.map_eq_nil_iff.mp h)
  have ho : InBox c.file.size (blockOrigin c.geom b) := by
    rw [← wf.size]; exact blockOrigin_inBox wf.geom (by rw [← wf.tb]; exact hb)
  obtain ⟨m', e1, e2, e3, e4⟩ := getBlock_spec c.file c.basic (blockOrigin c.geom b)
    (c.geom.map Dim.bs) m base hne ho (by rw [← wf.size]; simp)
    (by
      intro x hx
      obtain ⟨d, hd, he⟩ := List.mem_map.mp hx
      have := wf.geom d hd
      omega)
    (by rw [← wf.tbs]; exact hm)
  refine ⟨m', e1, e2, ?_, by rw [wf.tbs]; exact e4⟩
  intro idx hidx hblk
  have hidx' := hidx
  rw [← wf.size] at hidx'
  have hl : idx.length = c.geom.length := by simpa using hidx'.length_eq
  obtain ⟨-, ha⟩ := addPos_origin wf.geom hidx'
  rw [hblk] at ha
  have := e3 _ (inBox_rem wf.geom hidx') (by rw [ha]; exact hidx)
  rw [ha] at this
  rw [calcOffsetInBlock_eq _ hl]
  exact this

/-- Copying a block from memory where it is complete. -/
theorem BlockOK.copy {c : LevelCfg α} (wf : c.WF) {b : Nat} {src : Mem α} {sbase : Nat}
    (hs : sbase + c.totalBlockSize ≤ src.length) (hok : BlockOK c b src sbase)
    (m : Mem α) (base : Nat) (hm : base + c.totalBlockSize ≤ m.length) :
    ∃ sl m', src.slice sbase c.totalBlockSize = some sl ∧ m.copyIn base sl = some m' ∧
      m'.length = m.length ∧ BlockOK c b m' base ∧
      (∀ i, i < base ∨ base + c.totalBlockSize ≤ i → m'[i]? = m[i]?) := by
  refine ⟨(src.drop sbase).take c.totalBlockSize, ?_⟩
  have hlen : ((src.drop sbase).take c.totalBlockSize).length = c.totalBlockSize := by
    simp; omega
  obtain ⟨m', e1, e2, e3, e4⟩ := Mem.copyIn_spec m base
    ((src.drop sbase).take c.totalBlockSize) (by rw [hlen]; exact hm)
  refine ⟨m', by simp [Mem.slice, hs], e1, e2, ?_, by rw [hlen] at e4; exact e4⟩
  intro idx hidx hblk
  have hlt := (block_lt wf hidx).2
  rw [e3 _ (by rw [hlen]; exact hlt), List.getElem?_take_of_lt hlt, List.getElem?_drop]
  exact hok idx hidx hblk

theorem BlockOK.mono {c : LevelCfg α} (wf : c.WF) {b : Nat} {m m' : Mem α} {base : Nat}
    (hok : BlockOK c b m base)
    (h : ∀ i, base ≤ i → i < base + c.totalBlockSize → m'[i]? = m[i]?) :
    BlockOK c b m' base := by
  intro idx hidx hblk
  have hlt := (block_lt wf hidx).2
  rw [h _ (by omega) (by omega)]
  exact hok idx hidx hblk

/-! ### Full -/

theorem slot_disjoint {i j t x : Nat} (h : i ≠ j) (h1 : j * t ≤ x) (h2 : x < j * t + t) :
    x < i * t ∨ i * t + t ≤ x := by
  rcases Nat.lt_or_ge i j with h3 | h3
  · right
    have : (i + 1) * t ≤ j * t := Nat.mul_le_mul_right t h3
    rw [Nat.add_mul] at this; omega
  · left
    have : (j + 1) * t ≤ i * t := Nat.mul_le_mul_right t (by omega)
    rw [Nat.add_mul] at this; omega

theorem fullLoad_spec {c : LevelCfg α} (wf : c.WF) (ds : Dist) (rank domain base : Nat)
    (n i : Nat) (m : Mem α) (hm : base + c.totalBlockSize * (i + n) ≤ m.length) :
    ∃ m', fullLoad c ds rank domain base n i m = some m' ∧ m'.length = m.length ∧
      (∀ j, i ≤ j → j < i + n → ds.local2global c.totalBlocks rank domain j < c.totalBlocks →
        BlockOK c (ds.local2global c.totalBlocks rank domain j) m'
          (base + c.totalBlockSize * j)) ∧
      (∀ k, k < base + c.totalBlockSize * i ∨ base + c.totalBlockSize * (i + n) ≤ k →
        m'[k]? = m[k]?) := by
  induction n generalizing i m with
  | zero =>
    refine ⟨m, rfl, rfl, ?_, fun k _ => rfl⟩
    intro j h1 h2; omega
  | succ n ih =>
    simp only [fullLoad]
    split
    · rename_i hge
      refine ⟨m, rfl, rfl, ?_, fun k _ => rfl⟩
      intro j h1 _ h3
      have := Dist.local2global_mono (c := ds) (total := c.totalBlocks) (r := rank)
        (d := domain) h1
      omega
    · rename_i hlt
      have hstep : c.totalBlockSize * (i + (n + 1)) =
          c.totalBlockSize * i + c.totalBlockSize * (n + 1) := Nat.mul_add _ _ _
      have hstep2 : c.totalBlockSize * (n + 1) = c.totalBlockSize * n + c.totalBlockSize := by
        rw [Nat.mul_add, Nat.mul_one]
      have hstep3 : c.totalBlockSize * (i + 1) = c.totalBlockSize * i + c.totalBlockSize := by
        rw [Nat.mul_add, Nat.mul_one]
      obtain ⟨m1, e1, e2, e3, e4⟩ := loadBlock_spec wf (Nat.lt_of_not_le hlt) m
        (base + c.totalBlockSize * i) (by omega)
      obtain ⟨m2, f1, f2, f3, f4⟩ := ih (i + 1) m1 (by
        rw [e2, show i + 1 + n = i + (n + 1) by omega]; exact hm)
      rw [e1]
      refine ⟨m2, by simpa using f1, by omega, ?_, ?_⟩
      · intro j h1 h2 h3
        rcases Nat.eq_or_lt_of_le h1 with h | h
        · subst h
          apply e3.mono wf
          intro k hk1 hk2
          exact f4 k (Or.inl (by omega))
        · exact f3 j h (by omega) h3
      · intro k hk
        have : i + 1 + n = i + (n + 1) := by omega
        rw [f4 k (by rw [this]; omega), e4 k (by omega)]

/-- `Full::open` on all domains of a process. -/
theorem fullOpen_spec {c : LevelCfg α} (wf : c.WF) (ds : Dist) (rank : Nat) (m : Mem α)
    (hm : m.length = domainSize c ds * ds.domains) :
    ∃ m', fullOpen c ds rank m = some m' ∧ m'.length = m.length ∧
      (∀ d j, d < ds.domains → j < ds.localBlockCount c.totalBlocks →
        ds.local2global c.totalBlocks rank d j < c.totalBlocks →
        BlockOK c (ds.local2global c.totalBlocks rank d j) m'
          (domainSize c ds * d + c.totalBlockSize * j)) := by
  have key : ∀ k, k ≤ ds.domains → ∃ m', (List.range k).foldlM
      (fun m d => fullLoad c ds rank d (domainSize c ds * d)
        (ds.localBlockCount c.totalBlocks) 0 m) m = some m' ∧ m'.length = m.length ∧
      (∀ d j, d < k → j < ds.localBlockCount c.totalBlocks →
        ds.local2global c.totalBlocks rank d j < c.totalBlocks →
        BlockOK c (ds.local2global c.totalBlocks rank d j) m'
          (domainSize c ds * d + c.totalBlockSize * j)) := by
    intro k
    induction k with
    | zero => intro _; exact ⟨m, by simp, rfl, fun d j h => by omega⟩
    | succ k ih =>
      intro hk
      obtain ⟨m1, e1, e2, e3⟩ := ih (by omega)
      have hsz : domainSize c ds * (k + 1) ≤ domainSize c ds * ds.domains :=
        Nat.mul_le_mul_left _ hk
      rw [Nat.mul_add, Nat.mul_one] at hsz
      obtain ⟨m2, f1, f2, f3, f4⟩ := fullLoad_spec wf ds rank k (domainSize c ds * k)
        (ds.localBlockCount c.totalBlocks) 0 m1 (by
          rw [e2, hm, Nat.zero_add]; unfold domainSize at *; omega)
      refine ⟨m2, by rw [List.range_succ, List.foldlM_append, e1]; simpa using f1, by omega, ?_⟩
      intro d j hd hj hlt
      rcases Nat.lt_or_ge d k with h | h
      · apply (e3 d j h hj hlt).mono wf
        intro i hi1 hi2
        apply f4
        left
        have h1 : domainSize c ds * (d + 1) ≤ domainSize c ds * k := Nat.mul_le_mul_left _ h
        have h2 : c.totalBlockSize * (j + 1) ≤
            c.totalBlockSize * ds.localBlockCount c.totalBlocks := Nat.mul_le_mul_left _ hj
        rw [Nat.mul_add, Nat.mul_one] at h1 h2
        unfold domainSize at *
        omega
      · have : d = k := by omega
        subst this
        exact f3 j (by omega) (by omega) hlt
  obtain ⟨m', h1, h2, h3⟩ := key ds.domains (Nat.le_refl _)
  exact ⟨m', h1, h2, h3⟩

/-- The owner process stores every block completely. -/
theorem fullOpen_owned {c : LevelCfg α} (wf : c.WF) (ds : Dist) (hr : 0 < ds.ranks)
    (hd : 0 < ds.domains) {b : Nat} (hb : b < c.totalBlocks) (m m' : Mem α)
    (hm : m.length = domainSize c ds * ds.domains)
    (h : fullOpen c ds (ds.blockRank c.totalBlocks b) m = some m') :
    m'.length = domainSize c ds * ds.domains ∧
    BlockOK c b m' (domainSize c ds * ds.blockDomain c.totalBlocks b +
      c.totalBlockSize * ds.blockOffset c.totalBlocks b) ∧
    domainSize c ds * ds.blockDomain c.totalBlocks b +
      c.totalBlockSize * ds.blockOffset c.totalBlocks b + c.totalBlockSize ≤ m'.length := by
  obtain ⟨m1, e1, e2, e3⟩ := fullOpen_spec wf ds (ds.blockRank c.totalBlocks b) m hm
  rw [e1] at h; injection h with h; subst h
  obtain ⟨o1, o2, o3⟩ := Dist.owner_bounds hr hd hb
  have := e3 _ _ o2 o3 (by rw [Dist.local2global_owner]; exact hb)
  rw [Dist.local2global_owner] at this
  refine ⟨by omega, this, ?_⟩
  rw [e2, hm]
  have h1 : domainSize c ds * (ds.blockDomain c.totalBlocks b + 1) ≤
      domainSize c ds * ds.domains := Nat.mul_le_mul_left _ o2
  have h2 : c.totalBlockSize * (ds.blockOffset c.totalBlocks b + 1) ≤
      c.totalBlockSize * ds.localBlockCount c.totalBlocks := Nat.mul_le_mul_left _ o3
  rw [Nat.mul_add, Nat.mul_one] at h1 h2
  unfold domainSize at *
  omega

/-! ### Block caches -/

/-- Invariant of a block cache: every slot that is mapped to a block holds it completely. -/
structure CacheOK (c : LevelCfg α) (bc : BlockCache α) (h : Nat) : Prop where
  inv : CLInv bc.list h
  len : bc.mem.length = bc.list.lru.size * c.totalBlockSize
  ok : ∀ slot b, bc.list.indexToBlock[slot]? = some (some b) →
    BlockOK c b bc.mem (slot * c.totalBlockSize)

theorem BlockCache.init_ok (c : LevelCfg α) {cacheSize : Nat} {handDiff : Int} (zero : α)
    (hs : 0 < cacheSize) (hd : handDiff < cacheSize) :
    ∃ bc h, BlockCache.init cacheSize c.totalBlockSize handDiff zero = some bc ∧
      CacheOK c bc h := by
  obtain ⟨cl, h, e, inv, hsz, -, htab, -⟩ := CacheList.init_inv hs hd
  refine ⟨{ list := cl, mem := List.replicate (cacheSize * c.totalBlockSize) zero }, h,
    by simp [BlockCache.init, e], inv, by simp [hsz], ?_⟩
  intro slot b hb
  simp only [htab, List.getElem?_replicate] at hb
  split at hb <;> simp at hb

/-- A request to a cache: on a hit the block is there; on a miss the slot can be filled. -/
theorem CacheOK.get {c : LevelCfg α} (wf : c.WF) {bc : BlockCache α} {h : Nat}
    (ok : CacheOK c bc h) (b : Nat) :
    ∃ list slot old, bc.list.get b = .ok (list, slot, old) ∧
      slot * c.totalBlockSize + c.totalBlockSize ≤ bc.mem.length ∧
      (old = some b → CacheOK c ⟨list, bc.mem⟩ h ∧
        BlockOK c b bc.mem (slot * c.totalBlockSize)) ∧
      (old ≠ some b → ∀ mem' : Mem α, mem'.length = bc.mem.length →
        BlockOK c b mem' (slot * c.totalBlockSize) →
        (∀ i, i < slot * c.totalBlockSize ∨ slot * c.totalBlockSize + c.totalBlockSize ≤ i →
          mem'[i]? = bc.mem[i]?) →
        CacheOK c ⟨list, mem'⟩ h) := by
  obtain ⟨list, slot, old, e, inv', s', hslot, hb', hcase⟩ := ok.inv.get b
  refine ⟨list, slot, old, e, ?_, ?_, ?_⟩
  · rw [ok.len]
    have : (slot + 1) * c.totalBlockSize ≤ bc.list.lru.size * c.totalBlockSize :=
      Nat.mul_le_mul_right _ hslot
    rw [Nat.add_mul] at this; omega
  · intro ho
    rcases hcase with ⟨h1, h2, h3, h4, h5, h6⟩ | ⟨h1, h2, -⟩
    · refine ⟨⟨inv', by simp only [s']; exact ok.len, ?_⟩, ok.ok slot b ?_⟩
      · intro sl b' hb''
        simp only [h3] at hb''
        exact ok.ok sl b' hb''
      · exact (ok.inv.bij b slot).mp h1
    · exact absurd ho h2
  · intro ho mem' hl hblk hout
    rcases hcase with ⟨h1, h2, -⟩ | ⟨h1, h2, h3, h4, -⟩
    · exact absurd h2 ho
    · refine ⟨inv', by simp only [s', hl]; exact ok.len, ?_⟩
      intro sl b' hb''
      simp only [h4, List.getElem?_set] at hb''
      split at hb''
      · rename_i heq
        subst heq
        split at hb''
        · injection hb'' with hb''; injection hb'' with hb''; subst hb''; exact hblk
        · simp at hb''
      · rename_i hne
        apply (ok.ok sl b' hb'').mono wf
        intro i hi1 hi2
        exact hout i (slot_disjoint hne hi1 hi2)

/-! ### getAt -/

theorem fullGetAt_spec {c : LevelCfg α} (wf : c.WF) (hx : SizesExact c.fp c.file.size)
    (ds : Dist) (m : Mem α) (domain : Nat) {pos : List Dbl} {idx : List Nat}
    (hp : pos2index c.fp c.axes pos = some idx)
    (hok : BlockOK c (blockByCoords c.geom idx) m (domainSize c ds * domain +
      c.totalBlockSize * ds.blockOffset c.totalBlocks (blockByCoords c.geom idx))) :
    fullGetAt c ds m domain pos = some (c.file.val idx) := by
  have hin := pos2index_inBox wf hx hp
  have := hok idx hin rfl
  simp only [fullGetAt, hp, Option.bind_eq_bind, Option.bind_some, Mem.read]
  rw [← this]
  congr 1
  rw [Nat.mul_comm c.totalBlockSize]; omega

/-- The possible changes of the counters by one access. -/
def CntStep (cnt cnt' : Counters) : Prop :=
  cnt' = cnt.inc .access ∨ cnt' = (cnt.inc .access).inc .numa ∨
    cnt' = (cnt.inc .access).inc .mpi ∨ cnt' = (cnt.inc .access).inc .file

theorem cacheGetAt_spec {c : LevelCfg α} (wf : c.WF) (hx : SizesExact c.fp c.file.size)
    {s : CacheLevel α} {h : Nat} (ok : CacheOK c s.cache h) {pos : List Dbl} {idx : List Nat}
    (hp : pos2index c.fp c.axes pos = some idx) :
    ∃ s', cacheGetAt c s pos = some (s', c.file.val idx) ∧ CacheOK c s'.cache h ∧
      CntStep s.cnt s'.cnt ∧
      (∃ slot old, s.cache.list.get (blockByCoords c.geom idx) = .ok (s'.cache.list, slot, old) ∧
        s'.cnt = if old = some (blockByCoords c.geom idx) then s.cnt.inc .access
          else (s.cnt.inc .access).inc .file) := by
  have hin := pos2index_inBox wf hx hp
  obtain ⟨list, slot, old, e1, e2, e3, e4⟩ := ok.get wf (blockByCoords c.geom idx)
  simp only [cacheGetAt, hp, Option.bind_eq_bind, Option.bind_some, e1, Res.toOption]
  by_cases ho : old = some (blockByCoords c.geom idx)
  · obtain ⟨f1, f2⟩ := e3 ho
    simp only [ho, ne_eq, not_true_eq_false, if_false]
    have := f2 idx hin rfl
    refine ⟨⟨⟨list, s.cache.mem⟩, s.cnt.inc .access⟩, ?_, f1, Or.inl rfl, slot, old, ?_, ?_⟩
    · simp [Mem.read, this]
    · simp [ho]
    · simp [ho]
  · have hlb : cacheLoadBlock c idx s.cache.mem (slot * c.totalBlockSize) =
        getBlock c.file c.basic (blockOrigin c.geom (blockByCoords c.geom idx))
          (c.geom.map Dim.bs) s.cache.mem (slot * c.totalBlockSize) := by
      unfold cacheLoadBlock
      rw [(addPos_origin wf.geom (by rw [wf.size]; exact hin)).1]
    obtain ⟨m', g1, g2, g3, g4⟩ := loadBlock_spec wf (block_lt wf hin).1 s.cache.mem
      (slot * c.totalBlockSize) e2
    have hok' := e4 ho m' g2 g3 g4
    have := g3 idx hin rfl
    simp only [ho, ne_eq, not_false_eq_true, if_true, hlb, g1]
    refine ⟨⟨⟨list, m'⟩, (s.cnt.inc .access).inc .file⟩, ?_, hok',
      Or.inr (Or.inr (Or.inr rfl)), slot, old, ?_, ?_⟩
    · simp [Mem.read, this]
    · simp
    · simp [ho]

/-- Invariant of the distributed FULL level. -/
structure FullDistOK (c : LevelCfg α) (ds : Dist) (s : FullDist α) : Prop where
  len : ∀ r, r < ds.ranks → (s.data r).length = domainSize c ds * ds.domains
  data : ∀ b, b < c.totalBlocks →
    BlockOK c b (s.data (ds.blockRank c.totalBlocks b))
      (domainSize c ds * ds.blockDomain c.totalBlocks b +
        c.totalBlockSize * ds.blockOffset c.totalBlocks b) ∧
    domainSize c ds * ds.blockDomain c.totalBlocks b +
      c.totalBlockSize * ds.blockOffset c.totalBlocks b + c.totalBlockSize ≤
      (s.data (ds.blockRank c.totalBlocks b)).length
  cache : ∀ r d, ∃ h, CacheOK c (s.cache r d) h

theorem fullDistOpen_spec {c : LevelCfg α} (wf : c.WF) (ds : Dist) (hr : 0 < ds.ranks)
    (hd : 0 < ds.domains) {cacheSize : Nat} {handDiff : Int} (zero : α) (junk : Nat → Mem α)
    (hs : 0 < cacheSize) (hh : handDiff < cacheSize)
    (hj : ∀ r, r < ds.ranks → (junk r).length = domainSize c ds * ds.domains) :
    ∃ s, fullDistOpen c ds cacheSize handDiff zero junk = some s ∧ FullDistOK c ds s ∧
      s.cnt = fun _ _ => {} := by
  obtain ⟨data, hdata⟩ := mapM_option_some (fun r => fullOpen c ds r (junk r))
    (List.range ds.ranks) (by
      intro r hr'
      obtain ⟨m', e, -⟩ := fullOpen_spec wf ds r (junk r) (hj r (by simpa using hr'))
      exact ⟨m', e⟩)
  obtain ⟨bc, h, hbc, hok⟩ := BlockCache.init_ok c zero hs hh
  obtain ⟨l1, l2⟩ := mapM_option_spec _ _ _ hdata
  have hget : ∀ r, r < ds.ranks → ∃ m, fullOpen c ds r (junk r) = some m ∧
      data[r]?.getD [] = m := by
    intro r hr'
    obtain ⟨m, e1, e2⟩ := l2 r r (by simp [hr'])
    exact ⟨m, e1, by simp [e2]⟩
  refine ⟨_, by simp [fullDistOpen, hdata, hbc]; rfl, ⟨?_, ?_, fun r d => ⟨h, hok⟩⟩, rfl⟩
  · intro r hr'
    obtain ⟨m, e1, e2⟩ := hget r hr'
    simp only [e2]
    obtain ⟨m', f1, f2, -⟩ := fullOpen_spec wf ds r (junk r) (hj r hr')
    rw [f1] at e1; injection e1 with e1; subst e1
    rw [f2, hj r hr']
  · intro b hb
    have hrank := (Dist.owner_bounds hr hd hb).1
    obtain ⟨m, e1, e2⟩ := hget _ hrank
    simp only [e2]
    exact (fullOpen_owned wf ds hr hd hb _ m (hj _ hrank) e1).2

theorem numaCacheLookup_spec {c : LevelCfg α}
    (caches : Nat → BlockCache α) (hc : ∀ d, ∃ h, CacheOK c (caches d) h)
    (canLock : Nat → Bool) (self id : Nat) (l : List Nat) :
    numaCacheLookup c.totalBlockSize caches canLock self id l = some none ∨
    ∃ src sl base, numaCacheLookup c.totalBlockSize caches canLock self id l = some (some sl) ∧
      Mem.slice src base c.totalBlockSize = some sl ∧
      base + c.totalBlockSize ≤ src.length ∧ BlockOK c id src base := by
  induction l with
  | nil => left; rfl
  | cons i l ih =>
    simp only [numaCacheLookup]
    split
    · exact ih
    · cases hpk : (caches i).list.peek id with
      | none => exact ih
      | some slot =>
        simp only
        split
        · right
          obtain ⟨h, hok⟩ := hc i
          have hslot := hok.inv.slot_lt hpk
          have hlen : slot * c.totalBlockSize + c.totalBlockSize ≤ (caches i).mem.length := by
            rw [hok.len]
            have : (slot + 1) * c.totalBlockSize ≤ (caches i).list.lru.size * c.totalBlockSize :=
              Nat.mul_le_mul_right _ hslot
            rw [Nat.add_mul] at this; omega
          have hblk := hok.ok slot id ((hok.inv.bij id slot).mp hpk)
          refine ⟨(caches i).mem, ((caches i).mem.drop (slot * c.totalBlockSize)).take
            c.totalBlockSize, slot * c.totalBlockSize, ?_, ?_, hlen, hblk⟩
          · simp [Mem.slice, hlen]
          · simp [Mem.slice, hlen]
        · exact ih

theorem fullDistGetAt_spec {c : LevelCfg α} (wf : c.WF) (hx : SizesExact c.fp c.file.size)
    (ds : Dist) (hr : 0 < ds.ranks) (hd : 0 < ds.domains) (t : NumaTrans) (hasMpi : Bool)
    (hreach : hasMpi = true ∨ (t ≠ .no ∧ ds.ranks = 1))
    {s : FullDist α} (ok : FullDistOK c ds s) (canLock : Nat → Bool) (rank domain : Nat)
    (hrank : rank < ds.ranks) {pos : List Dbl} {idx : List Nat}
    (hp : pos2index c.fp c.axes pos = some idx) :
    ∃ s' cnt', fullDistGetAt c ds t hasMpi s canLock rank domain pos =
        some (s', c.file.val idx) ∧ FullDistOK c ds s' ∧
      s'.cnt = upd2 s.cnt rank domain cnt' ∧ CntStep (s.cnt rank domain) cnt' := by
  have hin := pos2index_inBox wf hx hp
  have hblt := (block_lt wf hin).1
  obtain ⟨d1, d2⟩ := ok.data _ hblt
  obtain ⟨o1, o2, o3⟩ := Dist.owner_bounds hr hd hblt
  simp only [fullDistGetAt, hp, Option.bind_eq_bind, Option.bind_some]
  generalize hb : blockByCoords c.geom idx = b at *
  split
  · rename_i hloc
    refine ⟨{ s with cnt := upd2 s.cnt rank domain ((s.cnt rank domain).inc .access) },
      (s.cnt rank domain).inc .access, ?_, ?_, rfl, Or.inl rfl⟩
    · rw [fullGetAt_spec wf hx ds (s.data rank) domain hp (by
        rw [hb, ← hloc.1, ← hloc.2]; exact d1)]
      rfl
    · exact ⟨ok.len, ok.data, ok.cache⟩
  · obtain ⟨h, hok⟩ := ok.cache rank domain
    obtain ⟨list, slot, old, e1, e2, e3, e4⟩ := hok.get wf b
    simp only [e1, Res.toOption, Option.bind_some]
    have hcacheOK : ∀ m', CacheOK c ⟨list, m'⟩ h →
        ∀ r d, ∃ h, CacheOK c (upd2 s.cache rank domain ⟨list, m'⟩ r d) h := by
      intro m' hm r d
      simp only [upd2]
      split
      · exact ⟨h, hm⟩
      · exact ok.cache r d
    by_cases ho : old = some b
    · obtain ⟨f1, f2⟩ := e3 ho
      have hv := f2 idx hin hb
      simp only [ho, ne_eq, not_true_eq_false, if_false]
      refine ⟨⟨s.data, upd2 s.cache rank domain ⟨list, (s.cache rank domain).mem⟩,
        upd2 s.cnt rank domain ((s.cnt rank domain).inc .access)⟩, _, ?_,
        ⟨ok.len, ok.data, hcacheOK _ f1⟩, rfl, Or.inl rfl⟩
      simp [Mem.read, hv]
    · simp only [ho, ne_eq, not_false_eq_true, if_true]
      -- where the block comes from
      have hnuma : (fullDistNuma c ds t s canLock rank domain b = some none ∧ hasMpi = true) ∨
          ∃ src sl base, fullDistNuma c ds t s canLock rank domain b = some (some sl) ∧
            Mem.slice src base c.totalBlockSize = some sl ∧
            base + c.totalBlockSize ≤ src.length ∧ BlockOK c b src base := by
        simp only [fullDistNuma]
        split
        · rename_i hcond
          right
          have e : (ds.localBlockCount c.totalBlocks * ds.blockDomain c.totalBlocks b +
              ds.blockOffset c.totalBlocks b) * c.totalBlockSize =
              domainSize c ds * ds.blockDomain c.totalBlocks b +
                c.totalBlockSize * ds.blockOffset c.totalBlocks b := by
            unfold domainSize
            rw [Nat.add_mul]
            congr 1
            · rw [Nat.mul_comm (_ * _) c.totalBlockSize, ← Nat.mul_assoc]
            · exact Nat.mul_comm _ _
          rw [hcond.2] at d1 d2
          refine ⟨s.data rank, ((s.data rank).drop (domainSize c ds *
            ds.blockDomain c.totalBlocks b + c.totalBlockSize *
            ds.blockOffset c.totalBlocks b)).take c.totalBlockSize, _, ?_, ?_, d2, d1⟩
          · rw [e]; simp [Mem.slice, d2]
          · simp [Mem.slice, d2]
        · rename_i hcond
          have hmpi : hasMpi = true := by
            rcases hreach with h1 | ⟨h1, h2⟩
            · exact h1
            · exfalso; apply hcond
              exact ⟨h1, by omega⟩
          split
          · rcases numaCacheLookup_spec (s.cache rank) (ok.cache rank) canLock domain b
              (List.range ds.domains) with h1 | h1
            · left; exact ⟨h1, hmpi⟩
            · right; exact h1
          · left; exact ⟨rfl, hmpi⟩
      rcases hnuma with ⟨hn, hmpi⟩ | ⟨src, sl, base, hn, hsl, hlen, hblk⟩
      · -- remote memory
        have e : ds.blockNodeOffset c.totalBlocks b * c.totalBlockSize =
            domainSize c ds * ds.blockDomain c.totalBlocks b +
              c.totalBlockSize * ds.blockOffset c.totalBlocks b := by
          unfold domainSize Dist.blockNodeOffset
          rw [Nat.add_mul, Nat.add_comm]
          congr 1
          · rw [Nat.mul_comm (_ * _) c.totalBlockSize, Nat.mul_comm (ds.blockDomain _ _),
              ← Nat.mul_assoc]
          · exact Nat.mul_comm _ _
        obtain ⟨sl, m', g1, g2, g3, g4, g5⟩ := BlockOK.copy wf d2 d1
          (s.cache rank domain).mem (slot * c.totalBlockSize) e2
        have hok' := e4 ho m' g3 g4 g5
        have hv := g4 idx hin hb
        have hmp : fullDistMpi c ds hasMpi s b = some sl := by
          simp [fullDistMpi, hmpi, e, g1]
        simp only [hn, Option.bind_some, hmp, g2]
        refine ⟨⟨s.data, upd2 s.cache rank domain ⟨list, m'⟩,
          upd2 s.cnt rank domain (((s.cnt rank domain).inc .access).inc .mpi)⟩, _, ?_,
          ⟨ok.len, ok.data, hcacheOK _ hok'⟩, rfl, Or.inr (Or.inr (Or.inl rfl))⟩
        simp [Mem.read, hv]
      · obtain ⟨sl', m', g1, g2, g3, g4, g5⟩ := BlockOK.copy wf hlen hblk
          (s.cache rank domain).mem (slot * c.totalBlockSize) e2
        rw [hsl] at g1; injection g1 with g1; subst g1
        have hok' := e4 ho m' g3 g4 g5
        have hv := g4 idx hin hb
        simp only [hn, Option.bind_some, g2]
        refine ⟨⟨s.data, upd2 s.cache rank domain ⟨list, m'⟩,
          upd2 s.cnt rank domain (((s.cnt rank domain).inc .access).inc .numa)⟩, _, ?_,
          ⟨ok.len, ok.data, hcacheOK _ hok'⟩, rfl, Or.inr (Or.inl rfl)⟩
        simp [Mem.read, hv]

theorem zeros_facts (s idx : List Nat) (h : InBox s idx) :
    InBox (s.map fun _ => 1) (s.map fun _ => 0) ∧
      rowMajor (s.map fun _ => 1) (s.map fun _ => 0) = 0 ∧
      addPos idx (s.map fun _ => 0) = idx ∧ prod (s.map fun _ => 1) = 1 := by
  induction s generalizing idx with
  | nil => cases idx with
    | nil => simp [InBox, rowMajor, addPos, prod]
    | cons x idx => simp [InBox] at h
  | cons a s ih => cases idx with
    | nil => simp [InBox] at h
    | cons x idx =>
      obtain ⟨h1, h2, h3, h4⟩ := ih idx h.2
      simp only [addPos] at h3
      simp only [List.map_cons, InBox, rowMajor, addPos, prod, h2, h4, List.zipWith_cons_cons, h3]
      exact ⟨⟨Nat.zero_lt_one, h1⟩, by simp, by simp, trivial⟩

theorem passThroughGetAt_spec {c : LevelCfg α} (wf : c.WF)
    (hx : SizesExact c.fp c.file.size) (buf : Mem α) (cnt : Counters) (thread : Nat)
    (ht : thread < buf.length) {pos : List Dbl} {idx : List Nat}
    (hp : pos2index c.fp c.axes pos = some idx) :
    ∃ buf', passThroughGetAt c buf cnt thread pos =
        some (buf', (cnt.inc .access).inc .file, c.file.val idx) ∧
      buf'.length = buf.length ∧ ∀ i, i ≠ thread → buf'[i]? = buf[i]? := by
  have hin := pos2index_inBox wf hx hp
  have hne : c.file.size ≠ [] := by
    rw [← wf.size]; intro h; exact wf.ne (List.map_eq_nil_iff.mp h)
  obtain ⟨z1, z2, z3, z4⟩ := zeros_facts c.file.size idx hin
  obtain ⟨m', e1, e2, e3, e4⟩ := getBlock_spec c.file c.basic idx
    (c.file.size.map fun _ => 1) buf thread hne hin (by simp) (by simp) (by rw [z4]; omega)
  have := e3 _ z1 (by rw [z3]; exact hin)
  rw [z2, z3, Nat.add_zero] at this
  refine ⟨m', ?_, e2, ?_⟩
  · simp only [passThroughGetAt, hp, e1, Mem.read, this, Option.bind_eq_bind, Option.bind_some]
    rfl
  · intro i hi
    exact e4 i (by rw [z4]; omega)

end Asagi
