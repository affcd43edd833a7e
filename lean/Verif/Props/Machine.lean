import Verif.Proofs.Machine
/-
Properties of the 64-bit index computations: C48.
-/
namespace Asagi.Props
open Asagi Spec

/-- The padded size of the grid in bytes: all blocks, rounded up to the same number of blocks in each
NUMA domain of each process. -/
def paddedBytes (g : List MDim) (c : MDist) (ts : UInt32) : Nat :=
  c.exact.localBlockCount (totalBlocks (g.map MDim.exact)) * (c.domains.toNat * c.ranks.toNat) *
    totalBlockSize (g.map MDim.exact) * ts.toNat

section
variable {g : List MDim} {c : MDist} {ts : UInt32}

/-- Products of two, three or four factors that are at most the four factors of the padded size. -/
theorem padded_bound {a b d e A B D E : Nat} (h : A * B * D * E < 2 ^ 63) (ha : a ≤ A) (hb : b ≤ B)
    (hd : d ≤ D) (he : e ≤ E) : a * b * d * e < 2 ^ 63 :=
  lt_of_le_of_lt (Nat.mul_le_mul (Nat.mul_le_mul (Nat.mul_le_mul ha hb) hd) he) h

theorem C48_aux (hg : ∀ d ∈ g, 0 < d.bs.toNat ∧ d.bs.toNat ≤ d.size.toNat)
    (hr : 0 < c.ranks.toNat) (hd : 0 < c.domains.toNat) (ht : 0 < ts.toNat)
    (hp : paddedBytes g c ts < 2 ^ 63) :
    ExactBlocks g ∧ 0 < totalBlocks (g.map MDim.exact) ∧ 0 < totalBlockSize (g.map MDim.exact) ∧
      totalBlocks (g.map MDim.exact) < 2 ^ 63 ∧ totalBlockSize (g.map MDim.exact) < 2 ^ 63 ∧
      0 < c.exact.localBlockCount (totalBlocks (g.map MDim.exact)) := by
  have hT := Dist.total_le (c := c.exact) (total := totalBlocks (g.map MDim.exact)) hr hd
  have hT' : totalBlocks (g.map MDim.exact) ≤
      c.exact.localBlockCount (totalBlocks (g.map MDim.exact)) *
        (c.domains.toNat * c.ranks.toNat) := hT
  have hprod : totalBlocks (g.map MDim.exact) * totalBlockSize (g.map MDim.exact) < 2 ^ 63 := by
    refine lt_of_le_of_lt ?_ hp
    unfold paddedBytes
    exact le_trans (Nat.mul_le_mul_right _ hT') (Nat.le_mul_of_pos_right _ ht)
  have hE := exactBlocks_of hg hprod
  have hpos := hE.prods
  rw [← totalBlocks_eq, ← totalBlockSize_eq] at hpos
  refine ⟨hE, hpos.1, hpos.2, ?_, ?_, ?_⟩
  · exact lt_of_le_of_lt (Nat.le_mul_of_pos_right _ hpos.2) hprod
  · exact lt_of_le_of_lt (Nat.le_mul_of_pos_left _ hpos.1) hprod
  · by_contra hz
    have : c.exact.localBlockCount (totalBlocks (g.map MDim.exact)) = 0 := by omega
    rw [this] at hT'
    omega

/-- **C48 (blocks).** If the padded size of the grid is less than 2^63 bytes, the number of blocks,
the values per block, the block and the offset of every sample, and the position and the first sample of
every block computed in 64-bit arithmetic are the exact ones. -/
theorem C48_blocks (hg : ∀ d ∈ g, 0 < d.bs.toNat ∧ d.bs.toNat ≤ d.size.toNat)
    (hr : 0 < c.ranks.toNat) (hd : 0 < c.domains.toNat) (ht : 0 < ts.toNat)
    (hp : paddedBytes g c ts < 2 ^ 63) :
    (mtotalBlocks g).toNat = totalBlocks (g.map MDim.exact) ∧
    (mtotalBlockSize g).toNat = totalBlockSize (g.map MDim.exact) ∧
    (∀ idx : List UInt64, InBox (g.map fun d => d.size.toNat) (idx.map UInt64.toNat) →
      (mblockByCoords g idx).toNat = blockByCoords (g.map MDim.exact) (idx.map UInt64.toNat) ∧
      (mcalcOffsetInBlock g idx).toNat =
        calcOffsetInBlock (g.map MDim.exact) (idx.map UInt64.toNat)) ∧
    (∀ b : UInt64, b.toNat < totalBlocks (g.map MDim.exact) →
      (mcalcBlockPosition g b).map UInt64.toNat = calcBlockPosition (g.map MDim.exact) b.toNat ∧
      (mblockOrigin g b).map UInt64.toNat = blockOrigin (g.map MDim.exact) b.toNat) := by
  obtain ⟨hE, p1, p2, b1, b2, p3⟩ := C48_aux hg hr hd ht hp
  rw [totalBlocks_eq] at p1 b1
  rw [totalBlockSize_eq] at p2 b2
  have em : g.map (fun d => d.blocks.toNat) = (g.map MDim.exact).map Dim.blocks := by
    rw [List.map_map]; exact List.map_congr_left (fun d hd => (hE d hd).2.2.1)
  have emb : g.map (fun d => d.bs.toNat) = (g.map MDim.exact).map Dim.bs := by
    rw [List.map_map]; rfl
  have epos : ∀ b : UInt64, (mcalcBlockPosition g b).map UInt64.toNat =
      calcBlockPosition (g.map MDim.exact) b.toNat := by
    intro b
    unfold mcalcBlockPosition calcBlockPosition
    rw [mcalcBlockPositionLoop_toNat _ _ _ (fun d hd => hE d (by simpa using hd)),
      List.map_reverse]; rfl
  refine ⟨?_, ?_, ?_, ?_⟩
  · unfold mtotalBlocks
    rw [mprodLoop_toNat, List.map_map]
    · exact congrArg (fun l => prodLoop l 1) em
    · intro x hx
      simp only [List.mem_map] at hx; obtain ⟨d, hd, rfl⟩ := hx
      rw [(hE d hd).2.2.1]; exact (hE d hd).2.2.2
    · rw [List.map_map]
      change 1 * prod (g.map (fun d => d.blocks.toNat)) < _
      rw [em]; omega
  · unfold mtotalBlockSize
    rw [mprodLoop_toNat, List.map_map]
    · exact congrArg (fun l => prodLoop l 1) emb
    · intro x hx
      simp only [List.mem_map] at hx; obtain ⟨d, hd, rfl⟩ := hx
      exact (hE d hd).1
    · rw [List.map_map]
      change 1 * prod (g.map (fun d => d.bs.toNat)) < _
      rw [emb]; omega
  · intro idx hi
    refine ⟨?_, ?_⟩
    · exact mblockByCoordsLoop_toNat g idx 0 hE hi (by
        change (0 + 1) * _ ≤ _; omega)
    · exact mcalcOffsetInBlockLoop_toNat g idx 0 hE hi (by
        change (0 + 1) * _ ≤ _; omega)
  · intro b hb
    refine ⟨epos b, ?_⟩
    -- every component is below the number of blocks
    obtain ⟨ds, hds, hrow⟩ := exists_rowMajor (s := (g.map MDim.exact).map Dim.blocks)
      (n := b.toNat) (by rwa [totalBlocks_eq] at hb)
    have hpos : calcBlockPosition (g.map MDim.exact) b.toNat = ds := by
      rw [← hrow]; exact calcBlockPosition_rowMajor hds
    have key : ∀ (g : List MDim) (ps : List UInt64), ExactBlocks g →
        InBox ((g.map MDim.exact).map Dim.blocks) (ps.map UInt64.toNat) →
        (List.zipWith (fun d p => p * d.bs) g ps).map UInt64.toNat =
          List.zipWith (fun (d : Dim) p => p * d.bs) (g.map MDim.exact) (ps.map UInt64.toNat) := by
      intro g
      induction g with
      | nil => intro ps _ _; rfl
      | cons d g ih =>
        intro ps hE hB
        cases ps with
        | nil => rfl
        | cons p ps =>
          simp only [List.map_cons, InBox] at hB
          simp only [List.zipWith_cons_cons, List.map_cons, ih ps hE.tail hB.2]
          obtain ⟨h0, hle, hbl, hpos⟩ := hE d (by simp)
          have := (lt_blocks_iff (d := d.exact) h0 p.toNat).1 hB.1
          have h64 : d.size.toNat < 2 ^ 64 := d.size.toNat_lt
          congr 1
          apply u64_mul
          simp only [MDim.exact] at this
          omega
    unfold mblockOrigin blockOrigin
    rw [key g _ hE (by rw [epos, hpos]; exact hds), epos]

/-- **C48 (owners).** Under the same bound, and if the number of NUMA domains of all processes fits in
32 bits, the process, the NUMA domain and the place of every block, and the block at every place,
are the exact ones. -/
theorem C48_owners (hg : ∀ d ∈ g, 0 < d.bs.toNat ∧ d.bs.toNat ≤ d.size.toNat)
    (hr : 0 < c.ranks.toNat) (hd : 0 < c.domains.toNat) (ht : 0 < ts.toNat)
    (hc : c.domains.toNat * c.ranks.toNat < 2 ^ 32)
    (hp : paddedBytes g c ts < 2 ^ 63) :
    (c.localBlockCount (mtotalBlocks g)).toNat =
      c.exact.localBlockCount (totalBlocks (g.map MDim.exact)) ∧
    (c.nodeBlockCount (mtotalBlocks g)).toNat =
      c.exact.nodeBlockCount (totalBlocks (g.map MDim.exact)) ∧
    (∀ b : UInt64, b.toNat < totalBlocks (g.map MDim.exact) →
      (c.blockRank (mtotalBlocks g) b).toNat =
        c.exact.blockRank (totalBlocks (g.map MDim.exact)) b.toNat ∧
      (c.blockDomain (mtotalBlocks g) b).toNat =
        c.exact.blockDomain (totalBlocks (g.map MDim.exact)) b.toNat ∧
      (c.blockOffset (mtotalBlocks g) b).toNat =
        c.exact.blockOffset (totalBlocks (g.map MDim.exact)) b.toNat ∧
      (c.blockNodeOffset (mtotalBlocks g) b).toNat =
        c.exact.blockNodeOffset (totalBlocks (g.map MDim.exact)) b.toNat) ∧
    (∀ (r d : UInt32) (i : UInt64), r.toNat < c.ranks.toNat → d.toNat < c.domains.toNat →
      i.toNat < c.exact.localBlockCount (totalBlocks (g.map MDim.exact)) →
      (c.local2global (mtotalBlocks g) r d i).toNat =
        c.exact.local2global (totalBlocks (g.map MDim.exact)) r.toNat d.toNat i.toNat) := by
  obtain ⟨hE, p1, p2, b1, b2, p3⟩ := C48_aux hg hr hd ht hp
  have hT := (C48_blocks hg hr hd ht hp).1
  generalize htm : mtotalBlocks g = tm at hT ⊢
  have hLC : c.exact.localBlockCount (totalBlocks (g.map MDim.exact)) *
      (c.domains.toNat * c.ranks.toNat) < 2 ^ 63 := by
    refine lt_of_le_of_lt ?_ hp
    unfold paddedBytes
    exact le_trans (Nat.le_mul_of_pos_right _ p2) (Nat.le_mul_of_pos_right _ ht)
  generalize totalBlocks (g.map MDim.exact) = T at *
  have ecores : (c.domains * c.ranks).toUInt64.toNat = c.domains.toNat * c.ranks.toNat := by
    rw [UInt32.toNat_toUInt64, u32_mul hc]
  have hcpos : 0 < c.domains.toNat * c.ranks.toNat := Nat.mul_pos hd hr
  have eL : (c.localBlockCount tm).toNat = c.exact.localBlockCount T := by
    simp only [MDist.localBlockCount, Dist.localBlockCount, MDist.exact, UInt64.toNat_div, ecores]
    have h1 : (tm + (c.domains * c.ranks).toUInt64).toNat = T + c.domains.toNat * c.ranks.toNat := by
      rw [u64_add, ecores, hT]; rw [ecores, hT]; omega
    rw [u64_pred (by rw [h1]; omega), h1]
  have hdle : c.domains.toNat ≤ c.domains.toNat * c.ranks.toNat := Nat.le_mul_of_pos_right _ hr
  have hrle : c.ranks.toNat ≤ c.domains.toNat * c.ranks.toNat := Nat.le_mul_of_pos_left _ hd
  have hLd : c.exact.localBlockCount T * c.domains.toNat < 2 ^ 63 :=
    lt_of_le_of_lt (Nat.mul_le_mul_left _ hdle) hLC
  have eN : (c.nodeBlockCount tm).toNat = c.exact.nodeBlockCount T := by
    simp only [MDist.nodeBlockCount, Dist.nodeBlockCount]
    rw [u64_mul] <;> rw [eL, UInt32.toNat_toUInt64]
    · rfl
    · omega
  refine ⟨eL, eN, ?_, ?_⟩
  · intro b hb
    have hown := Dist.owner_bounds (c := c.exact) (total := T) (id := b.toNat) hr hd hb
    have erank : (c.blockRank tm b).toNat = c.exact.blockRank T b.toNat := by
      have hlt := hown.1
      have hlt' : c.exact.ranks = c.ranks.toNat := rfl
      unfold MDist.blockRank
      unfold Dist.blockRank at hlt ⊢
      by_cases hrr : c.roundRobin = true
      · rw [if_pos (show c.exact.roundRobin = true from hrr)] at hlt ⊢
        rw [if_pos hrr, UInt64.toNat_toUInt32, UInt64.toNat_mod, UInt32.toNat_toUInt64, ← hlt',
          Nat.mod_eq_of_lt (by omega)]
      · rw [if_neg (show ¬ c.exact.roundRobin = true from hrr)] at hlt ⊢
        rw [if_neg hrr, UInt64.toNat_toUInt32, UInt64.toNat_div, eN, Nat.mod_eq_of_lt (by omega)]
    have edom : (c.blockDomain tm b).toNat = c.exact.blockDomain T b.toNat := by
      have hlt := hown.2.1
      have hlt' : c.exact.domains = c.domains.toNat := rfl
      unfold MDist.blockDomain
      unfold Dist.blockDomain at hlt ⊢
      by_cases hrr : c.roundRobin = true
      · rw [if_pos (show c.exact.roundRobin = true from hrr)] at hlt ⊢
        have hlt : b.toNat / c.ranks.toNat % c.domains.toNat < c.domains.toNat := hlt
        rw [if_pos hrr, UInt64.toNat_toUInt32, UInt64.toNat_mod, UInt64.toNat_div,
          UInt32.toNat_toUInt64, UInt32.toNat_toUInt64, Nat.mod_eq_of_lt (by omega)]
        rfl
      · rw [if_neg (show ¬ c.exact.roundRobin = true from hrr)] at hlt ⊢
        rw [if_neg hrr, UInt64.toNat_toUInt32, UInt64.toNat_mod, UInt64.toNat_div, eL,
          UInt32.toNat_toUInt64, ← hlt', Nat.mod_eq_of_lt (by omega)]
    have eoff : (c.blockOffset tm b).toNat = c.exact.blockOffset T b.toNat := by
      unfold MDist.blockOffset Dist.blockOffset
      by_cases hrr : c.roundRobin = true
      · rw [if_pos (show c.exact.roundRobin = true from hrr), if_pos hrr, UInt64.toNat_div,
          UInt64.toNat_div, UInt32.toNat_toUInt64, UInt32.toNat_toUInt64]; rfl
      · rw [if_neg (show ¬ c.exact.roundRobin = true from hrr), if_neg hrr, UInt64.toNat_mod, eL]
    refine ⟨erank, edom, eoff, ?_⟩
    unfold MDist.blockNodeOffset Dist.blockNodeOffset
    have hdm : c.exact.blockDomain T b.toNat + 1 ≤ c.domains.toNat := hown.2.1
    have hm := Nat.mul_le_mul_right (c.exact.localBlockCount T) hdm
    rw [Nat.add_mul, Nat.one_mul, Nat.mul_comm c.domains.toNat] at hm
    have ho := hown.2.2
    have e1 : ((c.blockDomain tm b).toUInt64 * c.localBlockCount tm).toNat =
        c.exact.blockDomain T b.toNat * c.exact.localBlockCount T := by
      rw [u64_mul] <;> rw [UInt32.toNat_toUInt64, edom, eL]
      omega
    rw [u64_add] <;> rw [e1, eoff]
    omega
  · intro r d i hrr hdd hii
    unfold MDist.local2global Dist.local2global
    have hi1 : i.toNat + 1 ≤ c.exact.localBlockCount T := hii
    have key : (i.toNat * c.domains.toNat + d.toNat + 1) * c.ranks.toNat < 2 ^ 63 := by
      refine lt_of_le_of_lt ?_ hLC
      have : i.toNat * c.domains.toNat + d.toNat + 1 ≤ c.exact.localBlockCount T * c.domains.toNat := by
        have := Nat.mul_le_mul_right c.domains.toNat hi1
        rw [Nat.add_mul, Nat.one_mul] at this; omega
      calc _ ≤ c.exact.localBlockCount T * c.domains.toNat * c.ranks.toNat :=
            Nat.mul_le_mul_right _ this
        _ = _ := by ring
    by_cases hrr' : c.roundRobin = true
    · rw [if_pos (show c.exact.roundRobin = true from hrr'), if_pos hrr']
      change _ = (i.toNat * c.domains.toNat + d.toNat) * c.ranks.toNat + r.toNat
      rw [Nat.add_mul, Nat.one_mul] at key
      have hle1 : i.toNat * c.domains.toNat + d.toNat ≤
          (i.toNat * c.domains.toNat + d.toNat) * c.ranks.toNat := Nat.le_mul_of_pos_right _ hr
      have e1 : (i * c.domains.toUInt64).toNat = i.toNat * c.domains.toNat := by
        rw [u64_mul] <;> rw [UInt32.toNat_toUInt64]; omega
      have e2 : (i * c.domains.toUInt64 + d.toUInt64).toNat = i.toNat * c.domains.toNat + d.toNat := by
        rw [u64_add] <;> rw [e1, UInt32.toNat_toUInt64]; omega
      have e3 : ((i * c.domains.toUInt64 + d.toUInt64) * c.ranks.toUInt64).toNat =
          (i.toNat * c.domains.toNat + d.toNat) * c.ranks.toNat := by
        rw [u64_mul] <;> rw [e2, UInt32.toNat_toUInt64]; omega
      rw [u64_add] <;> rw [e3, UInt32.toNat_toUInt64]
      omega
    · rw [if_neg (show ¬ c.exact.roundRobin = true from hrr'), if_neg hrr']
      have hk : d.toNat + r.toNat * c.domains.toNat + 1 ≤ c.domains.toNat * c.ranks.toNat := by
        have := Nat.mul_le_mul_right c.domains.toNat (show r.toNat + 1 ≤ c.ranks.toNat from hrr)
        rw [Nat.add_mul, Nat.one_mul, Nat.mul_comm c.ranks.toNat] at this; omega
      have e1 : (r * c.domains).toNat = r.toNat * c.domains.toNat := u32_mul (by omega)
      have e2 : (d + r * c.domains).toUInt64.toNat = d.toNat + r.toNat * c.domains.toNat := by
        rw [UInt32.toNat_toUInt64, u32_add] <;> rw [e1]
        omega
      have hm := Nat.mul_le_mul_left (c.exact.localBlockCount T) hk
      rw [Nat.mul_add, Nat.mul_one] at hm
      have hcomm : (d.toNat + r.toNat * c.domains.toNat) * c.exact.localBlockCount T =
          c.exact.localBlockCount T * (d.toNat + r.toNat * c.domains.toNat) := Nat.mul_comm _ _
      have e3 : ((d + r * c.domains).toUInt64 * c.localBlockCount tm).toNat =
          (d.toNat + r.toNat * c.domains.toNat) * c.exact.localBlockCount T := by
        rw [u64_mul] <;> rw [e2, eL]; omega
      rw [u64_add] <;> rw [e3]
      · rfl
      · omega

/-- **C48 (addresses).** Under the same bounds the sizes of the allocations and the addresses of the
blocks and the values are the exact ones. -/
theorem C48_addresses (hg : ∀ d ∈ g, 0 < d.bs.toNat ∧ d.bs.toNat ≤ d.size.toNat)
    (hr : 0 < c.ranks.toNat) (hd : 0 < c.domains.toNat) (ht : 0 < ts.toNat)
    (hc : c.domains.toNat * c.ranks.toNat < 2 ^ 32)
    (hp : paddedBytes g c ts < 2 ^ 63) :
    let be := totalBlockSize (g.map MDim.exact)
    let lb := c.exact.localBlockCount (totalBlocks (g.map MDim.exact))
    let mbe := mtotalBlockSize g
    let mlb := c.localBlockCount (mtotalBlocks g)
    (mallocSize (mfullSize ts mbe mlb) c.domains).toNat =
      allocSize (fullSize ts.toNat be lb) c.domains.toNat ∧
    (∀ i o : UInt64, ∀ d : UInt32, i.toNat < lb → o.toNat < be → d.toNat < c.domains.toNat →
      domainBase (fullSize ts.toNat be lb) d.toNat + (mfullBlockStart ts mbe i).toNat =
        (fullBlock ts.toNat be lb d.toNat i.toNat).start ∧
      domainBase (fullSize ts.toNat be lb) d.toNat + (mfullValueStart ts mbe i o).toNat =
        (fullValue ts.toNat be lb d.toNat i.toNat o.toNat).start ∧
      (mnumaFullStart ts mbe mlb d i).toNat = (numaFullBlock ts.toNat be lb d.toNat i.toNat).start) := by
  obtain ⟨hE, p1, p2, b1, b2, p3⟩ := C48_aux hg hr hd ht hp
  have eB := (C48_blocks hg hr hd ht hp).2.1
  have eL := (C48_owners hg hr hd ht hc hp).1
  intro be lb mbe mlb
  change mbe.toNat = be at eB
  change mlb.toNat = lb at eL
  have hbe : 0 < be := p2
  have hlb : 0 < lb := p3
  have hpad : lb * c.domains.toNat * be * ts.toNat < 2 ^ 63 := by
    refine lt_of_le_of_lt ?_ hp
    change _ ≤ lb * (c.domains.toNat * c.ranks.toNat) * be * ts.toNat
    apply Nat.mul_le_mul_right; apply Nat.mul_le_mul_right; apply Nat.mul_le_mul_left
    exact Nat.le_mul_of_pos_right _ hr
  clear_value be lb mbe mlb
  have et : ts.toUInt64.toNat = ts.toNat := UInt32.toNat_toUInt64 _
  have h1 : ts.toNat * be * (lb * c.domains.toNat) < 2 ^ 63 := by
    calc _ = lb * c.domains.toNat * be * ts.toNat := by ring
      _ < _ := hpad
  have h2 : ts.toNat * be * lb < 2 ^ 63 := lt_of_le_of_lt
    (Nat.mul_le_mul_left _ (Nat.le_mul_of_pos_right _ hd)) h1
  have h3 : ts.toNat * be < 2 ^ 63 := lt_of_le_of_lt (Nat.le_mul_of_pos_right _ hlb) h2
  have e1 : (ts.toUInt64 * mbe).toNat = ts.toNat * be := by
    rw [u64_mul] <;> rw [et, eB]; omega
  have e1' : (mbe * ts.toUInt64).toNat = be * ts.toNat := by
    rw [u64_mul] <;> rw [et, eB]; rw [Nat.mul_comm]; omega
  have e2 : (mfullSize ts mbe mlb).toNat = ts.toNat * be * lb := by
    unfold mfullSize; rw [u64_mul] <;> rw [e1, eL]; omega
  refine ⟨?_, ?_⟩
  · unfold mallocSize
    rw [u64_mul] <;> rw [e2, UInt32.toNat_toUInt64]
    · rfl
    · rw [Nat.mul_assoc]; omega
  · intro i o d hi ho hdd
    have hib : i.toNat * be + o.toNat + 1 ≤ lb * be := by
      have := Nat.mul_le_mul_right be (show i.toNat + 1 ≤ lb from hi)
      rw [Nat.add_mul, Nat.one_mul] at this; omega
    have h4 : ts.toNat * (i.toNat * be + o.toNat + 1) < 2 ^ 63 :=
      lt_of_le_of_lt (le_trans (Nat.mul_le_mul_left _ hib) (le_of_eq (by ring))) h2
    have h4' : i.toNat * be + o.toNat + 1 ≤ ts.toNat * (i.toNat * be + o.toNat + 1) :=
      Nat.le_mul_of_pos_left _ ht
    have h5 : ts.toNat * (i.toNat * be + o.toNat) < 2 ^ 63 :=
      lt_of_le_of_lt (Nat.mul_le_mul_left _ (Nat.le_succ _)) h4
    have h6 : ts.toNat * be * i.toNat < 2 ^ 63 :=
      lt_of_le_of_lt (Nat.mul_le_mul_left _ (by omega : i.toNat ≤ lb)) h2
    refine ⟨?_, ?_, ?_⟩
    · simp only [mfullBlockStart, fullBlock]
      rw [u64_mul] <;> rw [e1]; omega
    · simp only [mfullValueStart, fullValue]
      have e3 : (i * mbe).toNat = i.toNat * be := by rw [u64_mul] <;> rw [eB]; omega
      have e4 : (i * mbe + o).toNat = i.toNat * be + o.toNat := by
        rw [u64_add] <;> rw [e3]; omega
      rw [u64_mul] <;> rw [e4, et]; omega
    · simp only [mnumaFullStart, numaFullBlock]
      have hk : lb * d.toNat + i.toNat + 1 ≤ lb * c.domains.toNat := by
        have := Nat.mul_le_mul_left lb (show d.toNat + 1 ≤ c.domains.toNat from hdd)
        rw [Nat.mul_add, Nat.mul_one] at this; omega
      have h7 : (lb * d.toNat + i.toNat + 1) * (be * ts.toNat) < 2 ^ 63 :=
        lt_of_le_of_lt (le_trans (Nat.mul_le_mul_right _ hk) (le_of_eq (by ring))) h1
      have h8 : lb * d.toNat + i.toNat + 1 ≤ (lb * d.toNat + i.toNat + 1) * (be * ts.toNat) :=
        Nat.le_mul_of_pos_right _ (Nat.mul_pos hbe ht)
      have h9 : (lb * d.toNat + i.toNat) * (be * ts.toNat) < 2 ^ 63 :=
        lt_of_le_of_lt (Nat.mul_le_mul_right _ (Nat.le_succ _)) h7
      have e3 : (mlb * d.toUInt64).toNat = lb * d.toNat := by
        rw [u64_mul] <;> rw [eL, UInt32.toNat_toUInt64]; omega
      have e4 : (mlb * d.toUInt64 + i).toNat = lb * d.toNat + i.toNat := by
        rw [u64_add] <;> rw [e3]; omega
      rw [u64_mul] <;> rw [e4, e1']; omega

end

/-- **C48 (PASS_THROUGH).** The buffer addresses are computed in 32 bits; they are exact if all buffers
together have less than 2^32 bytes. -/
theorem C48_pass (ts threads t : UInt32) (h : ts.toNat * threads.toNat < 2 ^ 32)
    (ht : t.toNat < threads.toNat) :
    (mpassStart ts threads).toNat = ts.toNat * threads.toNat ∧
    (mpassStart ts t).toNat = (passBuffer ts.toNat t.toNat).start :=
  ⟨u32_mul h, u32_mul (lt_of_le_of_lt (Nat.mul_le_mul_left _ (by omega)) h)⟩

/-- The bound on the size is needed: with a dimension of 2^64 - 1 samples in blocks of 64 the number
of blocks is computed as 0. -/
theorem C48_wrap : (MDim.mk 18446744073709551615 64).blocks = 0 ∧
    (MDim.mk 18446744073709551615 64).exact.blocks = 288230376151711744 := by decide +kernel

/-- Non-trivial case: 1000 x 70000 samples of 8 bytes in 64 x 64 blocks on 3 processes with 2
NUMA domains. -/
example : (∀ d ∈ [MDim.mk 1000 64, MDim.mk 70000 64], 0 < d.bs.toNat ∧ d.bs.toNat ≤ d.size.toNat) ∧
    paddedBytes [MDim.mk 1000 64, MDim.mk 70000 64] ⟨3, 2, true⟩ 8 < 2 ^ 63 := by decide +kernel

end Asagi.Props
