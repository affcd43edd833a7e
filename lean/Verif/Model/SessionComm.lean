import Verif.Model.Session
import Verif.Model.WinCache
import Verif.Model.FullMsg
/-
One level of a grid from the first `setParam` to the getters, as in `Verif.Model.Session`, with the
communication between processes as it is implemented: the lock of the directory
(`Verif.Model.WinCache`), the messages of the communication thread (`Verif.Model.MsgCache`) and the
transfers of FULL grids (`Verif.Model.FullMsg`).
-/
namespace Asagi
variable {α : Type}

/-- The numbers that the library gives to the threads and messages of a level.
numa.cpp 100, mpicomm.h 159-164, commthread.h 229-238. -/
structure CommNumbers where
  /-- threads of each process, `m_numa.totalThreads()` -/
  total : Nat
  /-- the number of a thread (global number) in its process, `m_numa.threadId()` -/
  tid : Nat → Nat
  /-- first reserved tag, mpicomm.h `reserveTags` -/
  tagOffset : Nat
  /-- the tags of the receivers, commthread.h `registerReceiver`: mpithreadcache.h 270-289,
  mpithreadfull.h 143-144 -/
  infoTag : Nat
  xferTag : Nat
  addTag : Nat
  delTag : Nat
  fullTag : Nat

/-- The block whose directory entry has the number `o` in process `r`: the entries of a process are
those of the blocks of all its domains, blocked.h 268-271, 279-290. -/
def Dist.blockAtNode (ds : Dist) (total r o : Nat) : Nat :=
  ds.local2global total r (o / ds.localBlockCount total) (o % ds.localBlockCount total)

/-- The CACHE level with MPI windows, cachedist.h 217-239. -/
def Session.win (S : Session α) (K : CommNumbers) (sel : Selection) (c : LevelCfg α) : WinParams α :=
  { P := c.shared (S.cache sel c), total := K.total, tagOffset := K.tagOffset
    lib := S.build.threadsafeMpi, tid := K.tid }

/-- The CACHE level with the communication thread, cachedist.h 217-239. -/
def Session.msg (S : Session α) (K : CommNumbers) (sel : Selection) (c : LevelCfg α) : MsgParams α :=
  { P := c.shared (S.cache sel c)
    doff := fun b => (S.dist sel).blockNodeOffset c.totalBlocks b
    blockAt := (S.dist sel).blockAtNode c.totalBlocks
    infoTag := K.infoTag, xferTag := K.xferTag, addTag := K.addTag, delTag := K.delTag
    tagOffset := K.tagOffset }

/-- The distributed FULL level, fulldist.h 204-228. -/
def Session.xfer (S : Session α) (K : CommNumbers) (sel : Selection) : XferCfg α :=
  { F := S.full sel, win := decide (sel.type.mpi = .window), tag := K.fullTag }

end Asagi
