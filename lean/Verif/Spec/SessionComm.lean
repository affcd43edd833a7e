import Verif.Model.SessionComm
import Verif.Spec.Session
import Verif.Spec.WinCache
import Verif.Spec.MsgCache
import Verif.Spec.FullMsg
/-
What a getter of an opened level can return, with the communication as it is implemented.
-/
namespace Asagi.Spec
open Asagi
variable {α : Type}

/-- A getter of level `c` of the session, called by thread `t` for the position `pos`, can return the
value `v`: after any history of calls by all threads of all processes, and any interleaving with them
and with the communication threads during the call. -/
inductive ReturnsComm (S : Session α) (K : CommNumbers) (sel : Selection) (c : LevelCfg α) (t : Nat)
    (pos : List Dbl) (v : α) : Prop
  /-- FULL on one process and domain -/
  | full (mem0 m : Mem α) : sel.type = .FULL →
      mem0.length = domainSize c (S.dist sel) * (S.dist sel).domains →
      fullOpen c (S.dist sel) 0 mem0 = some m → fullGetAt c (S.dist sel) m 0 pos = some v →
      ReturnsComm S K sel c t pos v
  /-- other FULL grids: the block is in the memory of the domain of the thread -/
  | fullLocal (s0 : FullDist α) (idx : List Nat) : sel.type.kind = .full → sel.type ≠ .FULL →
      FullOpened c (S.full sel) s0 → pos2index c.fp c.axes pos = some idx →
      (S.full sel).isLocal c t (blockByCoords c.geom idx) →
      fullGetAt c (S.dist sel) (s0.data (S.dom t / S.domains)) (S.dom t % S.domains) pos = some v →
      ReturnsComm S K sel c t pos v
  /-- other FULL grids: the block is somewhere else -/
  | fullRemote (s0 : FullDist α) (x x1 x2 : XferSt α) : sel.type.kind = .full →
      sel.type ≠ .FULL → FullOpened c (S.full sel) s0 → XferReach c (S.xfer K sel) s0.data x →
      XferCalled c (S.xfer K sel) t pos x x1 → XferDuring c (S.xfer K sel) s0.data t x1 x2 →
      GetterReturns t x2.st v → ReturnsComm S K sel c t pos v
  /-- CACHE without communication between processes -/
  | cache (st st1 st2 : DistState α) : sel.type.kind = .cache → sel.type.mpi = .no →
      DistReach (c.shared (S.cache sel c)) st → GetterCalled c t pos st st1 →
      During (c.shared (S.cache sel c)) t st1 st2 → GetterReturns t st2 v →
      ReturnsComm S K sel c t pos v
  /-- CACHE with MPI windows -/
  | cacheWindow (ws ws1 ws2 : WinState α) : sel.type.kind = .cache → sel.type.mpi = .window →
      WinReach (S.win K sel c) ws → WinStep (S.win K sel c) ws ws1 →
      GetterCalled c t pos ws.st ws1.st → WinDuring (S.win K sel c) t ws1 ws2 →
      GetterReturns t ws2.st v → ReturnsComm S K sel c t pos v
  /-- CACHE with the communication thread -/
  | cacheThread (ms ms1 ms2 : MsgSt α) : sel.type.kind = .cache → sel.type.mpi = .thread →
      MsgReach (S.msg K sel c) ms → MsgCalled c t pos ms ms1 →
      MsgDuring (S.msg K sel c) t ms1 ms2 → GetterReturns t ms2.st v →
      ReturnsComm S K sel c t pos v
  /-- PASS_THROUGH -/
  | passThrough (n : Nat) (buf0 : Mem α) (st : PassState α) : sel.type.kind = .passThrough →
      buf0.length = n → PassReach c (passSlot n) (· < n) buf0 st → st.pc t = .ret pos v →
      ReturnsComm S K sel c t pos v

/-- The numbers that the library can give: different threads of a process have different numbers (C20),
receivers have different tags (C40). With the communication thread, the level is the first one of its
grid (see C38). -/
structure ProperNumbers (S : Session α) (K : CommNumbers) (sel : Selection) : Prop where
  threads : ∀ t u, K.tid t < K.total → S.dom t / S.domains = S.dom u / S.domains →
    K.tid t = K.tid u → t = u
  tags : [K.infoTag, K.xferTag, K.addTag, K.delTag].Nodup
  first : sel.type.mpi = .thread → K.tagOffset = 0

end Asagi.Spec
