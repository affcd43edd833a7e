import Verif.Model.Levels
/-
Specification of C93: where the block of an access comes from.
-/
namespace Asagi.Spec
variable {α : Type}

/-- The cache has the block in one of its slots. -/
def InCache (bc : BlockCache α) (b : Nat) : Prop := some b ∈ bc.list.indexToBlock

/-- The sources of the value of an access. -/
inductive Source where
  /-- the memory or the cache of the own NUMA domain -/
  | here
  /-- the memory or the cache of another NUMA domain of the process -/
  | domain
  /-- another process -/
  | process
  /-- the file -/
  | file
deriving DecidableEq, Repr

/-- The counters after an access that was served by this source. -/
def Source.count (c : Counters) : Source → Counters
  | .here => c.inc .access
  | .domain => (c.inc .access).inc .numa
  | .process => (c.inc .access).inc .mpi
  | .file => (c.inc .access).inc .file

/-- The source that an access on process `rank` in domain `d` to block `b` should use in a
distributed FULL level: as close as the chosen way of NUMA communication allows. -/
inductive FullSource (c : LevelCfg α) (ds : Dist) (t : NumaTrans) (s : FullDist α)
    (canLock : Nat → Bool) (rank d b : Nat) : Source → Prop
  /-- the own memory or cache -/
  | here : (ds.blockRank c.totalBlocks b = rank ∧ ds.blockDomain c.totalBlocks b = d) ∨
      InCache (s.cache rank d) b → FullSource c ds t s canLock rank d b .here
  /-- memory of the same process -/
  | memory : ds.blockRank c.totalBlocks b = rank → ds.blockDomain c.totalBlocks b ≠ d →
      ¬ InCache (s.cache rank d) b → t ≠ .no → FullSource c ds t s canLock rank d b .domain
  /-- cache of another domain of the same process which nobody uses at the moment -/
  | cache (i : Nat) : ds.blockRank c.totalBlocks b ≠ rank → ¬ InCache (s.cache rank d) b →
      t = .fullCache → i < ds.domains → i ≠ d → InCache (s.cache rank i) b → canLock i = true →
      FullSource c ds t s canLock rank d b .domain
  /-- other process -/
  | process : ds.blockRank c.totalBlocks b ≠ rank → ¬ InCache (s.cache rank d) b →
      (t = .fullCache → ∀ i, i < ds.domains → i ≠ d → InCache (s.cache rank i) b →
        canLock i = false) →
      FullSource c ds t s canLock rank d b .process
  /-- memory of the same process if the domains do not communicate -/
  | self : ds.blockRank c.totalBlocks b = rank → ds.blockDomain c.totalBlocks b ≠ d →
      ¬ InCache (s.cache rank d) b → t = .no → FullSource c ds t s canLock rank d b .process

end Asagi.Spec
