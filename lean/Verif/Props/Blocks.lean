import Verif.Proofs.Levels
/-
Properties of the block decomposition and distribution: C06, C11, C12, C29.
-/
namespace Asagi.Props
open Asagi Asagi.Spec

/-- **C06.** Each block is owned by exactly one (process, domain, slot) inside the legal
ranges: (1) the ranges, (2) no two blocks share a place, (3) each place's block is recovered
by the enumeration of local blocks, and (4) the enumeration in `open`, which stops at the
first missing block, visits exactly the blocks that the lookup assigns to the process and
domain. -/
theorem C06_ownership_bijection (ds : Dist) (hr : 0 < ds.ranks) (hd : 0 < ds.domains)
    (total : Nat) :
    (∀ b, b < total → ds.blockRank total b < ds.ranks ∧ ds.blockDomain total b < ds.domains ∧
      ds.blockOffset total b < ds.localBlockCount total) ∧
    (∀ b b', ds.blockRank total b = ds.blockRank total b' →
      ds.blockDomain total b = ds.blockDomain total b' →
      ds.blockOffset total b = ds.blockOffset total b' → b = b') ∧
    (∀ b, b < total → ds.local2global total (ds.blockRank total b) (ds.blockDomain total b)
      (ds.blockOffset total b) = b) ∧
    (∀ r d b, r < ds.ranks → d < ds.domains → b < total →
      ((∃ i, i < ds.localBlockCount total ∧
          (∀ j, j ≤ i → ds.local2global total r d j < total) ∧
          ds.local2global total r d i = b) ↔
        ds.blockRank total b = r ∧ ds.blockDomain total b = d)) ∧
    (∀ r d i, r < ds.ranks → d < ds.domains → i < ds.localBlockCount total →
      ds.blockOffset total (ds.local2global total r d i) = i) := by
  refine ⟨fun b hb => Dist.owner_bounds hr hd hb, ?_, fun b _ => Dist.local2global_owner, ?_, ?_⟩
  · intro b b' h1 h2 h3
    rw [← Dist.local2global_owner (c := ds) (total := total) (id := b), h1, h2, h3,
      Dist.local2global_owner]
  · intro r d b hr' hd' hb
    constructor
    · rintro ⟨i, hi, _, rfl⟩
      have := Dist.owner_local2global (c := ds) (total := total) hr' hd' hi
      exact ⟨this.1, this.2.1⟩
    · rintro ⟨rfl, rfl⟩
      refine ⟨ds.blockOffset total b, (Dist.owner_bounds hr hd hb).2.2, ?_,
        Dist.local2global_owner⟩
      intro j hj
      calc _ ≤ _ := Dist.local2global_mono hj
        _ = b := Dist.local2global_owner
        _ < total := hb
  · intro r d i hr' hd' hi
    exact (Dist.owner_local2global hr' hd' hi).2.2

/-- Seven blocks on three processes with two domains each, both schemes: the owners. -/
example :
    ((List.range 7).map fun b => ((⟨3, 2, true⟩ : Dist).blockRank 7 b,
      (⟨3, 2, true⟩ : Dist).blockDomain 7 b, (⟨3, 2, true⟩ : Dist).blockOffset 7 b)) =
      [(0,0,0), (1,0,0), (2,0,0), (0,1,0), (1,1,0), (2,1,0), (0,0,1)] ∧
    ((List.range 7).map fun b => ((⟨3, 2, false⟩ : Dist).blockRank 7 b,
      (⟨3, 2, false⟩ : Dist).blockDomain 7 b, (⟨3, 2, false⟩ : Dist).blockOffset 7 b)) =
      [(0,0,0), (0,0,1), (0,1,0), (0,1,1), (1,0,0), (1,0,1), (1,1,0)] := by decide

/-- **C11.** Reading a block into memory at `base`, for basic types (`basic = true`, netCDF's
mapped read) and compound types (compact read followed by the in-place spreading): every
value of the block that lies inside the file ends up at its row-major place in the block, and
memory outside of the block is untouched. `size` is the file's shape, `bs` the block's
shape, `off` the block's first index; the block may be cut by the end of the file in any
dimension. `none` (an access outside of the memory) does not happen. -/
theorem C11_block_layout {α : Type} (size : List Nat) (val : List Nat → α) (basic : Bool)
    (off bs : List Nat) (m : Mem α) (base : Nat) (hne : size ≠ []) (ho : InBox size off)
    (hb : bs.length = size.length) (hbp : ∀ x ∈ bs, 0 < x)
    (hm : base + prod bs ≤ m.length) :
    ∃ m', getBlock ⟨size, val⟩ basic off bs m base = some m' ∧ m'.length = m.length ∧
      (∀ pos, InBox bs pos → InBox size (List.zipWith (· + ·) off pos) →
        m'[base + rowMajor bs pos]? = some (val (List.zipWith (· + ·) off pos))) ∧
      (∀ i, i < base ∨ base + prod bs ≤ i → m'[i]? = m[i]?) :=
  getBlock_spec ⟨size, val⟩ basic off bs m base hne ho hb hbp hm

/-- A 3x2x2 block cut to 3x1x2 at the edge of a 4x3x5 file meets the hypotheses; the two
values in each row group are spread in place. -/
example : InBox [4, 3, 5] [1, 2, 2] ∧
    getBlock (α := Option (List Nat)) ⟨[4, 3, 5], some⟩ false [1, 2, 2] [3, 2, 2]
      (List.replicate 14 none) 1 =
    some [none, some [1,2,2], some [1,2,3], some [2,2,2], some [2,2,3], some [2,2,2],
      some [2,2,3], none, none, some [3,2,2], some [3,2,3], none, none, none] := by
  decide +kernel

/-- **C12.** For each index inside the grid: the block number and the offset inside the block
are in range, the block's position is recovered from the block number and the index lies in
the box of that block; different indices have different (block, offset); each block number
is the block of some sample. -/
theorem C12_decomposition (size : List Nat) (param : List Int) (timeDim : Int)
    (junk st : BlockedState) (h : blockedOpen size param timeDim junk = some st) :
    let g := st.geometry size
    g.length = size.length ∧
    (∀ idx, InBox size idx →
      blockByCoords g idx < st.totalBlocks ∧ calcOffsetInBlock g idx < st.totalBlockSize ∧
      (calcBlockPosition g (blockByCoords g idx)).length = size.length ∧
      ∀ (i : Nat) d k p, g[i]? = some d → idx[i]? = some k →
        (calcBlockPosition g (blockByCoords g idx))[i]? = some p →
        p * d.bs ≤ k ∧ k < p * d.bs + d.bs) ∧
    (∀ idx idx', InBox size idx → InBox size idx' →
      blockByCoords g idx = blockByCoords g idx' →
      calcOffsetInBlock g idx = calcOffsetInBlock g idx' → idx = idx') ∧
    (∀ b, b < st.totalBlocks → ∃ idx, InBox size idx ∧ blockByCoords g idx = b) := by
  obtain ⟨a1, a2, a3, a4, a5, a6, a7⟩ := blockedOpen_spec h
  intro g
  have hg : g = openGeom size param := a2
  have hgl : g.length = size.length := by rw [hg]; exact openGeom_length _ _ a1
  have hwf : GeomWF g := by rw [hg]; exact a3
  have hsz : g.map Dim.size = size := by rw [hg]; exact a4
  have htb : st.totalBlocks = prod (g.map Dim.blocks) := by rw [a7, ← hg, totalBlocks_eq]
  have htbs : st.totalBlockSize = prod (g.map Dim.bs) := by rw [a6, ← hg, totalBlockSize_eq]
  have hl : ∀ idx, InBox size idx → idx.length = g.length := by
    intro idx hi; rw [hi.length_eq, hgl]
  refine ⟨hgl, ?_, ?_, ?_⟩
  · intro idx hi
    have hi' : InBox (g.map Dim.size) idx := by rw [hsz]; exact hi
    have hq := inBox_quot hwf hi'
    have hr := inBox_rem hwf hi'
    have hpos : calcBlockPosition g (blockByCoords g idx) =
        List.zipWith (fun d i => i / d.bs) g idx := by
      rw [blockByCoords_eq g (hl idx hi), calcBlockPosition_rowMajor hq]
    refine ⟨?_, ?_, ?_, ?_⟩
    · rw [blockByCoords_eq g (hl idx hi), htb]; exact rowMajor_lt hq
    · rw [calcOffsetInBlock_eq g (hl idx hi), htbs]; exact rowMajor_lt hr
    · rw [hpos]; simp [hl idx hi, hgl]
    · intro i d k p hd hk hp
      rw [hpos, List.getElem?_zipWith, hd, hk] at hp
      simp at hp
      subst hp
      have hdpos := (hwf d (List.mem_of_getElem? hd)).1
      have := Nat.div_add_mod k d.bs
      have := Nat.mod_lt k hdpos
      rw [Nat.mul_comm]
      omega
  · intro idx idx' hi hi' h1 h2
    have hb : InBox (g.map Dim.size) idx := by rw [hsz]; exact hi
    have hb' : InBox (g.map Dim.size) idx' := by rw [hsz]; exact hi'
    have e := (addPos_origin hwf hb).2
    have e' := (addPos_origin hwf hb').2
    have e3 : List.zipWith (fun d i => i % d.bs) g idx =
        List.zipWith (fun (d : Dim) i => i % d.bs) g idx' := by
      apply rowMajor_inj (inBox_rem hwf hb) (inBox_rem hwf hb')
      rw [← calcOffsetInBlock_eq g (hl idx hi), ← calcOffsetInBlock_eq g (hl idx' hi'), h2]
    rw [← e, ← e', h1, e3]
  · intro b hb
    have hb' : b < prod (g.map Dim.blocks) := by rw [← htb]; exact hb
    refine ⟨blockOrigin g b, by rw [← hsz]; exact blockOrigin_inBox hwf hb', ?_⟩
    obtain ⟨ds, hds, rfl⟩ := exists_rowMajor hb'
    have hbo : blockOrigin g (rowMajor (g.map Dim.blocks) ds) =
        List.zipWith (fun d p => p * d.bs) g ds := by
      rw [blockOrigin, calcBlockPosition_rowMajor hds]
    rw [blockByCoords_eq g (by rw [hbo]; simp [hds.length_eq]), hbo]
    congr 1
    apply List.ext_getElem?
    intro i
    simp only [List.getElem?_zipWith]
    rcases hgi : g[i]? with _ | d
    · have : g.length ≤ i := by simpa using hgi
      simp
      have := hds.length_eq
      simp at this
      omega
    · have hdpos := (hwf d (List.mem_of_getElem? hgi)).1
      rcases hdi : ds[i]? with _ | p
      · simp
      · simp [Nat.mul_div_cancel p hdpos]

/-- A 5x7 grid with default and explicit block sizes opens successfully. -/
example : (blockedOpen [5, 7] [3, 0, 0, 0] (-1) ⟨[9,9,9,9], [9,9,9,9], 9, 9⟩).map
    (fun st => (st.geometry [5, 7], st.totalBlocks, st.totalBlockSize)) =
    some ([⟨5, 5⟩, ⟨7, 3⟩], 3, 15) := by decide

/-- `open` succeeds for all non-empty dimensions, whatever block sizes are set. -/
theorem C12_open_succeeds (size : List Nat) (param : List Int) (timeDim : Int)
    (junk : BlockedState) (hs : ∀ s ∈ size, 0 < s) (hp : size.length ≤ param.length)
    (h1 : size.length ≤ junk.blockSize.length) (h2 : size.length ≤ junk.blocks.length) :
    ∃ st, blockedOpen size param timeDim junk = some st :=
  blockedOpen_ok timeDim hs hp h1 h2

/-- **C29**, negation: with `TIME_DIMENSION = 0` and no block size, a dimension with ten
samples gets blocks of extent 10 instead of 1: the default is overwritten by the following
loop (blocked.h 107-125). -/
theorem C29_time_default_violated :
    ¬ ∀ (size : List Nat) (param : List Int) (n : Nat) (junk st : BlockedState),
      (∀ s ∈ size, 0 < s) → n < size.length → param[n]? = some 0 →
      blockedOpen size param (n : Int) junk = some st →
      (st.geometry size)[size.length - 1 - n]?.map Dim.bs = some 1 := by
  intro h
  have := h [10] [0, 0, 0, 0] 0 ⟨[0,0,0,0], [0,0,0,0], 0, 0⟩ ⟨[10,0,0,0], [1,0,0,0], 10, 1⟩
    (by decide) (by decide) (by decide) (by decide)
  revert this; decide

/-- **C29**, partial: what the code does for the time dimension. An explicitly set block size
is used (up to the size of the dimension); without it the extent is 64 or the size of the
dimension if that is smaller, so it is 1 only for a dimension with one sample. Missing: the
documented default 1. -/
theorem C29_time_block_size_partial (size : List Nat) (param : List Int) (n : Nat)
    (timeDim : Int) (junk st : BlockedState) (hn : n < size.length) (s : Nat) (p : Int)
    (hs : size[size.length - 1 - n]? = some s) (hp : param[n]? = some p)
    (h : blockedOpen size param timeDim junk = some st) :
    (0 < p → (st.geometry size)[size.length - 1 - n]?.map Dim.bs = some (min p.toNat s)) ∧
    (p = 0 → (st.geometry size)[size.length - 1 - n]?.map Dim.bs = some (min 64 s)) ∧
    (p < 0 → (st.geometry size)[size.length - 1 - n]?.map Dim.bs = some s) := by
  obtain ⟨a1, a2, _⟩ := blockedOpen_spec h
  have hi : size.length - 1 - n < size.length := by omega
  have e : size.length - (size.length - 1 - n) - 1 = n := by omega
  have hs' : size[size.length - 1 - n] = s := (List.getElem?_eq_some_iff.1 hs).2
  have hp' : param[n]'(by omega) = p := (List.getElem?_eq_some_iff.1 hp).2
  rw [a2, openGeom_getElem? _ _ _ hi a1]
  simp only [e, hs', hp', Option.map_some]
  refine ⟨?_, ?_, ?_⟩
  · intro h0
    simp only [loopBlockSize, if_neg (show ¬ p = 0 by omega), if_neg (show ¬ p < 0 by omega)]
    split <;> (congr 1; omega)
  · intro h0
    simp only [loopBlockSize, if_pos h0]
    split <;> (congr 1; omega)
  · intro h0
    simp only [loopBlockSize, if_neg (show ¬ p = 0 by omega), if_pos h0]
    split <;> (congr 1)

end Asagi.Props
