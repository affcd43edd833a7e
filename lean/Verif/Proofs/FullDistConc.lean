import Verif.Model.FullDistConc
import Verif.Proofs.CacheDistLive
import Verif.Proofs.Levels
/-
Distributed FULL grids with concurrent accesses: the blocks that are copied are those of the file.
-/
namespace Asagi
open Spec
variable {α : Type}

/-- The memory of the processes after opening. -/
structure StaticOK (c : LevelCfg α) (ds : Dist) (data : Nat → Mem α) : Prop where
  data : ∀ b, b < c.totalBlocks →
    BlockOK c b (data (ds.blockRank c.totalBlocks b))
      (domainSize c ds * ds.blockDomain c.totalBlocks b +
        c.totalBlockSize * ds.blockOffset c.totalBlocks b) ∧
    domainSize c ds * ds.blockDomain c.totalBlocks b +
      c.totalBlockSize * ds.blockOffset c.totalBlocks b + c.totalBlockSize ≤
      (data (ds.blockRank c.totalBlocks b)).length

/-- A thread of any process finds every block. -/
theorem fullSource_spec {c : LevelCfg α} {F : FullCfg α} {data : Nat → Mem α}
    (ok : StaticOK c F.ds data) (hr : 0 < F.ds.ranks) (hd : 0 < F.ds.domains)
    (hreach : F.hasMpi = true ∨ (F.trans ≠ .no ∧ F.ds.ranks = 1)) {rank : Nat} (hrank : rank < F.ds.ranks)
    {b : Nat} (hb : b < c.totalBlocks) :
    ∃ src, fullSource c F data rank b = some src ∧ src.length = c.totalBlockSize ∧
      ∀ idx, InBox c.file.size idx → blockByCoords c.geom idx = b →
        calcOffsetInBlock c.geom idx < c.totalBlockSize →
        src[calcOffsetInBlock c.geom idx]? = some (c.file.val idx) := by
  obtain ⟨d1, d2⟩ := ok.data b hb
  obtain ⟨o1, o2, o3⟩ := Dist.owner_bounds hr hd hb
  have key : ∀ r base, r = F.ds.blockRank c.totalBlocks b →
      base = domainSize c F.ds * F.ds.blockDomain c.totalBlocks b +
        c.totalBlockSize * F.ds.blockOffset c.totalBlocks b →
      ∃ src, (data r).slice base c.totalBlockSize = some src ∧ src.length = c.totalBlockSize ∧
      ∀ idx, InBox c.file.size idx → blockByCoords c.geom idx = b →
        calcOffsetInBlock c.geom idx < c.totalBlockSize →
        src[calcOffsetInBlock c.geom idx]? = some (c.file.val idx) := by
    rintro r base rfl rfl
    simp only [Mem.slice, d2, if_true]
    refine ⟨_, rfl, by rw [List.length_take, List.length_drop]; omega, ?_⟩
    intro idx hi e hk
    rw [List.getElem?_take_of_lt hk, List.getElem?_drop, d1 idx hi e]
  unfold fullSource
  split
  · next hc =>
    refine key _ _ hc.2.symm ?_
    unfold domainSize
    rw [Nat.add_mul]
    congr 1
    · rw [Nat.mul_comm (_ * _) c.totalBlockSize, ← Nat.mul_assoc]
    · exact Nat.mul_comm _ _
  · next hc =>
    have hmpi : F.hasMpi = true := by
      rcases hreach with h1 | ⟨h1, h2⟩
      · exact h1
      · exfalso; apply hc
        exact ⟨h1, by omega⟩
    rw [if_pos hmpi]
    refine key _ _ rfl ?_
    unfold domainSize Dist.blockNodeOffset
    rw [Nat.add_mul, Nat.add_comm]
    congr 1
    · rw [Nat.mul_comm (_ * _) c.totalBlockSize, Nat.mul_comm (F.ds.blockDomain _ _),
        ← Nat.mul_assoc]
    · exact Nat.mul_comm _ _

end Asagi
