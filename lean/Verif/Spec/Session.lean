import Verif.Model.Session
import Verif.Model.PassConc
import Verif.Spec.FullConc
import Verif.Spec.SharedCache
import Verif.Spec.Text
/-
What a getter of an opened level can return, for each kind of grid.
-/
namespace Asagi.Spec
open Asagi
variable {α : Type}

/-- A getter of level `c` of the session, called by thread `t` for the position `pos`, can return the
value `v`: after any history of calls by all threads of all processes, and any interleaving with them
during the call. -/
inductive Returns (S : Session α) (sel : Selection) (c : LevelCfg α) (t : Nat) (pos : List Dbl)
    (v : α) : Prop
  /-- FULL on one process and domain: `open` loads all blocks (`mem0` is the content of the allocated
  memory), the getter reads one of them -/
  | full (mem0 m : Mem α) : sel.type = .FULL →
      mem0.length = domainSize c (S.dist sel) * (S.dist sel).domains →
      fullOpen c (S.dist sel) 0 mem0 = some m → fullGetAt c (S.dist sel) m 0 pos = some v →
      Returns S sel c t pos v
  /-- other FULL grids: the block is in the memory of the domain of the thread -/
  | fullLocal (s0 : FullDist α) (idx : List Nat) : sel.type.kind = .full → sel.type ≠ .FULL →
      FullOpened c (S.full sel) s0 → pos2index c.fp c.axes pos = some idx →
      (S.full sel).isLocal c t (blockByCoords c.geom idx) →
      fullGetAt c (S.dist sel) (s0.data (S.dom t / S.domains)) (S.dom t % S.domains) pos = some v →
      Returns S sel c t pos v
  /-- other FULL grids: the block is somewhere else -/
  | fullRemote (s0 : FullDist α) (st st1 st2 : DistState α) : sel.type.kind = .full →
      sel.type ≠ .FULL → FullOpened c (S.full sel) s0 → FullReach c (S.full sel) s0.data st →
      FullCalled c (S.full sel) t pos st st1 → FullDuring c (S.full sel) s0.data t st1 st2 →
      GetterReturns t st2 v → Returns S sel c t pos v
  /-- CACHE -/
  | cache (st st1 st2 : DistState α) : sel.type.kind = .cache →
      DistReach (c.shared (S.cache sel c)) st → GetterCalled c t pos st st1 →
      During (c.shared (S.cache sel c)) t st1 st2 → GetterReturns t st2 v → Returns S sel c t pos v
  /-- PASS_THROUGH: the application has `n` threads, which have taken part in `open`; `buf0` is the content of
  the buffer, one value for each of them -/
  | passThrough (n : Nat) (buf0 : Mem α) (st : PassState α) : sel.type.kind = .passThrough →
      buf0.length = n → PassReach c (passSlot n) (· < n) buf0 st → st.pc t = .ret pos v →
      Returns S sel c t pos v

/-- A session that can occur with the selected implementation: a possible machine, each thread belongs
to one of the domains, and the hand spread is below the cache size (see C13). -/
structure Possible (S : Session α) (sel : Selection) : Prop where
  someRank : 0 < S.commSize
  someDomain : 0 < S.domains
  noMpi : S.build.noMpi = true → S.commSize = 1
  noNuma : S.build.noNuma = true → S.domains = 1
  /-- with NUMA_COMMUNICATION=OFF there is one domain, numa.cpp 108-110 -/
  noDetection : numaDetection S.params = false → S.domains = 1
  hand : (openArgs S.params S.level).handSpread < (openArgs S.params S.level).cacheSize
  threads : ∀ t, S.dom t < sel.ranks * S.domains

/-- The session reads the variable `name`: it is the last setting of VARIABLE for the level, or the
default `z`. -/
def ReadsVariable (S : Session α) (name : List Char) : Prop :=
  (lastSetting S.calls "VARIABLE".toList S.level).getD "z".toList = name

end Asagi.Spec
