import Verif.Model.FullDistConc
import Verif.Model.Counter
/-
The performance counters of the domains while threads access shared CACHE grids
(`Verif.Model.CacheDist`) and distributed FULL grids (`Verif.Model.FullDistConc`).

Each domain has its own level object and so its own counters. Simplification: an increment is one
action, together with the step of the access next to it; `Verif.Model.CountInc` has the increment as its
reads and writes, with and without the build option that it needs.
-/
namespace Asagi
variable {β α : Type}

/-- The counter that a thread increments when it goes from one position to the next. `ld`: the
counter for the last resort of block `b` (phase `load`): FILE for CACHE grids, MPI or NUMA for FULL
grids. FILE and MPI are incremented before the block is copied (cache.h 159, fulldist.h 181), NUMA
after the transfer (fulldist.h 176-179). cachedist.h 137, 160-161, 187-188, 194; fulldist.h 166,
176-181. -/
def pcCounts (ld : Nat → CounterType) : Pc β → Pc β → Option CounterType
  | .idle, .wantCm _ _ => some .access
  | .own _ _ _ (.numaCopy _ _ _), .own _ _ _ .add => some .numa
  | .own _ _ _ (.copy _ _), .own _ _ _ .fin => some .mpi
  | .own _ _ _ (.recv _ _), .own _ _ _ .fin => some .mpi
  | .own b _ _ (.xfer _), .own _ _ _ (.load _) => if ld b = .numa then none else some (ld b)
  | .own b _ _ (.load _), .own _ _ _ .fin => if ld b = .numa then some .numa else none
  | _, _ => none

/-- `incCounter`, grid/level/level.h 385-388, for domain `d`. -/
def bump (c : Nat → Counters) (d : Nat) : Option CounterType → Nat → Counters
  | none => c
  | some ty => upd c d ((c d).inc ty)

/-- The caches and the counters of each domain (`m_counter`, level.h 119). -/
structure CntState (β : Type) where
  st : DistState β
  c : Nat → Counters

/-- A step of thread `t` of a CACHE grid. cachedist.h 135-214. -/
def CacheCount (P : DistParams β) (t : Nat) (s s' : CntState β) : Prop :=
  UserStep P t s.st s'.st ∧
    s'.c = bump s.c (P.dom t) (pcCounts (fun _ => .file) (s.st.pc (.user t)) (s'.st.pc (.user t)))

/-- The counter for a block of a distributed FULL grid that is in no cache: `NumaFull::transfer`
succeeds for the blocks of the own process (numafull.h 108-119). fulldist.h 176-185. -/
def fullCounter (c : LevelCfg α) (F : FullCfg α) (t b : Nat) : CounterType :=
  if F.trans ≠ .no ∧ F.ds.blockRank c.totalBlocks b = F.dom t / F.ds.domains then .numa else .mpi

/-- A step of thread `t` of a distributed FULL grid: the step that changes its position.
fulldist.h 150-199. -/
def FullCount (c : LevelCfg α) (F : FullCfg α) (data : Nat → Mem α) (t : Nat)
    (s s' : CntState α) : Prop :=
  FullStep c F data s.st s'.st ∧ s'.st.pc (.user t) ≠ s.st.pc (.user t) ∧
    s'.c = bump s.c (F.dom t)
      (pcCounts (fullCounter c F t) (s.st.pc (.user t)) (s'.st.pc (.user t)))

/-- An access of thread `t` to block `b` of its own domain: reads the memory of the domain and counts the
access, fulldist.h 160-163 and full.h 137-139. One action. -/
def FullCountLocal (c : LevelCfg α) (F : FullCfg α) (t b : Nat) (s s' : CntState α) : Prop :=
  s.st.pc (.user t) = .idle ∧ F.isLocal c t b ∧
    s' = ⟨s.st, bump s.c (F.dom t) (some .access)⟩

end Asagi
