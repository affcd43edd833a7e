import Verif.Model.FullDistConc
/-
Specification vocabulary for concurrent accesses to distributed FULL grids.
-/
namespace Asagi.Spec
open Asagi
variable {α : Type}

/-- The distributed FULL level is opened: `s0` is the result of `FullDist::open` on all processes
(fulldist.h 99-144) with allocations `junk`, each thread belongs to one of the domains, and each block
can be fetched (with MPI, or there is one process and NUMA transfers; C30 shows that the library
selects only such implementations). -/
structure FullOpened (c : LevelCfg α) (F : FullCfg α) (s0 : FullDist α) : Prop where
  ranks : 0 < F.ds.ranks
  domains : 0 < F.ds.domains
  size : 0 < F.cacheSize
  hand : F.handDiff < F.cacheSize
  threads : ∀ t, F.dom t < F.ds.ranks * F.ds.domains
  reach : F.hasMpi = true ∨ (F.trans ≠ .no ∧ F.ds.ranks = 1)
  opened : ∃ junk : Nat → Mem α,
    (∀ r, r < F.ds.ranks → (junk r).length = domainSize c F.ds * F.ds.domains) ∧
    fullDistOpen c F.ds F.cacheSize F.handDiff F.zero junk = some s0

/-- From `st` to `st'` by any steps of any thread, while thread `t` stays inside of one call. -/
inductive FullDuring (c : LevelCfg α) (F : FullCfg α) (data : Nat → Mem α) (t : Nat) :
    DistState α → DistState α → Prop
  | refl (st : DistState α) : FullDuring c F data t st st
  | tail {st st1 st2 : DistState α} : FullDuring c F data t st st1 → FullStep c F data st1 st2 →
      st2.pc (.user t) ≠ .idle → FullDuring c F data t st st2

/-- A step without a new call. -/
def FullQuiet (c : LevelCfg α) (F : FullCfg α) (data : Nat → Mem α) (st st' : DistState α) : Prop :=
  FullStep c F data st st' ∧ ∀ t, st.pc (.user t) = .idle → st'.pc (.user t) = .idle

/-- `n` steps without new calls. -/
inductive FullQuietRun (c : LevelCfg α) (F : FullCfg α) (data : Nat → Mem α) :
    Nat → DistState α → DistState α → Prop
  | zero (st : DistState α) : FullQuietRun c F data 0 st st
  | succ {n : Nat} {st st1 st2 : DistState α} : FullQuietRun c F data n st st1 → FullQuiet c F data st1 st2 →
      FullQuietRun c F data (n + 1) st st2

end Asagi.Spec
