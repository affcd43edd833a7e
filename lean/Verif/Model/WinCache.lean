import Verif.Model.CacheDistLib
import Verif.Model.MpiMutex
/-
The shared caches of `Verif.Model.CacheDist` with MPI windows, together with the lock of the
directory as it is implemented (`Verif.Model.MpiMutex`): transfer/mpiwincache.h 243-572 and
mpi/mutex.h. There is no atomic lock of an entry here: a thread enters the functions of the lock,
reads the entry with `MPI_Get` as soon as it has the window, swaps its number into the queue, waits
with a synchronous send if there is a thread in front of it, reads the entry again, changes its copy
and writes it back.

Simplifications: those of the two models, except that the lock of the entry is no longer atomic. The
operations on one window between `MPI_Win_lock` and `MPI_Win_unlock` take effect in the order of the
calls; the memory of the own window is read and written directly (unified memory model of MPI). The
write of the entry and the next step of the lock are one step: nobody else can use the window in
between. The window of the dictionary is only used in the functions modelled here (the window of the
cache is another one, mpiwincache.h 84-87).
-/
namespace Asagi
variable {β : Type}

/-- `P`: the caches; `total`, `tagOffset`, `lib`: see `MtxParams`; `tid t` is the number of thread
`t` in its process (`NumaComm::threadId`). Numbers of threads with `total ≤ tid t` do not belong to
a thread. mpi/mutex.h 67-111, mpiwincache.h 74-102. -/
structure WinParams (β : Type) where
  P : DistParams β
  total : Nat
  tagOffset : Nat
  lib : Bool
  tid : Nat → Nat

/-- The parameters of the lock: entry and lock have the same home, mpiwincache.h 278 and 503. -/
def WinParams.M (C : WinParams β) : MtxParams :=
  { total := C.total, tagOffset := C.tagOffset, home := C.P.home, lib := C.lib }

/-- Rank and number of a thread. mpi/mutex.h 208-211. -/
def WinParams.thr (C : WinParams β) (t : Nat) : Thr := ⟨C.P.rankT t, C.tid t⟩

/-- `st`: the caches and the directory. The variable `st.dl` (who has the lock of an entry) is only
written, for the comparison with the model with an atomic lock; no step reads it. `mtx`: the lock.
`buf`: the variable `dictEntry` of each thread, mpiwincache.h 261, 486. -/
structure WinState (β : Type) where
  st : DistState β
  mtx : MtxState
  buf : Nat → List Int

/-- The lock that a thread at this position needs for its next step: `deleteBlock`, `addBlock`,
`startTransfer`. mpiwincache.h 243, 450, 465. -/
def Pc.wantsEntry : Pc β → Option Nat
  | .own _ _ _ (.del (some o)) => some o
  | .own b _ _ .add => some b
  | .own b _ _ .start => some b
  | _ => none

/-- Between these states, the functions of the lock do not return to their caller and do not look at
the entry. mpi/mutex.h 132-202. -/
def MtxPc.inside : MtxPc → Bool
  | .idle | .update _ | .held _ | .released _ => false
  | _ => true

/-- The `MPI_Get` after `MPI_Win_lock`, mpiwincache.h 266-276, 299-310 and 491-501, 528-541: the
threads that get the window in a step of the lock from `m` to `m'` read the entry. -/
def WinParams.fetch (C : WinParams β) (ws : WinState β) (m' : MtxState) (t : Nat) : List Int :=
  match ws.mtx.pc (C.thr t), m'.pc (C.thr t) with
  | .wantWin l, .swap _ => ws.st.dir l
  | .reWin l, .update _ => ws.st.dir l
  | _, _ => ws.buf t

/-- The entry that a thread changes: the memory itself if it belongs to the own process, otherwise
the copy, mpiwincache.h 316-334, 545-561. -/
def WinParams.entryFor (C : WinParams β) (ws : WinState β) (t l : Nat) : List Int :=
  if C.P.home l = C.P.rankT t then ws.st.dir l else ws.buf t

/-- One step of one thread, or of two threads that meet in a message of the lock.
cachedist.h 135-214, mpiwincache.h 243-572, mpi/mutex.h 132-202; lines at the steps. -/
inductive WinStep (C : WinParams β) : WinState β → WinState β → Prop
  /-- all steps of the getters that have nothing to do with the directory -/
  | plain (ws) (t : Nat) (st' : DistState β) : C.tid t < C.total →
      (ws.st.pc (.user t)).wantsEntry = none → (ws.st.pc (.user t)).leavesLib = false →
      UserStep C.P t ws.st st' → WinStep C ws { ws with st := st' }
  /-- `startTransfer` or `deleteBlock` is called -/
  | call (ws) (t l : Nat) (m' : MtxState) : (ws.st.pc (.user t)).wantsEntry = some l →
      ws.mtx.pc (C.thr t) = .idle → m'.pc (C.thr t) = .wantProc l → MtxStep C.M false ws.mtx m' →
      WinStep C ws { ws with mtx := m' }
  /-- a step inside of the functions of the lock -/
  | inside (ws) (m' : MtxState) : MtxStep C.M false ws.mtx m' → m'.pc ≠ ws.mtx.pc →
      (∀ u, m'.pc u ≠ ws.mtx.pc u → (ws.mtx.pc u).inside = true) →
      WinStep C ws { ws with mtx := m', buf := C.fetch ws m' }
  /-- `deleteBlock` writes the entry, mpiwincache.h 544-561 -/
  | delete (ws) (t b off s o : Nat) (m' : MtxState) :
      ws.st.pc (.user t) = .own b off s (.del (some o)) →
      ws.mtx.pc (C.thr t) = .update o → m'.pc (C.thr t) = .cas o → MtxStep C.M false ws.mtx m' →
      WinStep C ws { ws with
        st := { ws.st with
          dl := upd ws.st.dl o (some (.user t))
          dir := upd ws.st.dir o (dictDelete (C.entryFor ws t o) (C.P.entry (C.P.dom t) s))
          }.goto t b off s (.delLocked o)
        mtx := m' }
  /-- `startTransfer`, called by `addBlock`, writes the entry, mpiwincache.h 315-343, 450-455 -/
  | add (ws) (t b off s : Nat) (m' : MtxState) :
      ws.st.pc (.user t) = .own b off s .add →
      ws.mtx.pc (C.thr t) = .update b → m'.pc (C.thr t) = .held b → MtxStep C.M false ws.mtx m' →
      WinStep C ws { ws with
        st := { ws.st with
          dl := upd ws.st.dl b (some (.user t))
          dir := upd ws.st.dir b (dictAdd (C.entryFor ws t b) (C.P.entry (C.P.dom t) s))
          }.goto t b off s .addLocked
        mtx := m' }
  /-- `startTransfer`, mpiwincache.h 315-343; `rnd` is the result of `rand()` -/
  | start (ws) (t b off s rnd : Nat) (m' : MtxState) :
      ws.st.pc (.user t) = .own b off s .start →
      ws.mtx.pc (C.thr t) = .update b → m'.pc (C.thr t) = .held b → MtxStep C.M false ws.mtx m' →
      WinStep C ws { ws with
        st := { ws.st with
          dl := upd ws.st.dl b (some (.user t))
          dir := upd ws.st.dir b
            (dictFetchAndUpdate (C.entryFor ws t b) (C.P.entry (C.P.dom t) s) rnd).2
          }.goto t b off s
            (.xfer (dictFetchAndUpdate (C.entryFor ws t b) (C.P.entry (C.P.dom t) s) rnd).1)
        mtx := m' }
  /-- `endTransfer` is called, mpiwincache.h 415 and cachedist.h 200, or 454 -/
  | endCall (ws) (t l : Nat) (m' : MtxState) : (ws.st.pc (.user t)).leavesLib = true →
      ws.mtx.pc (C.thr t) = .held l → m'.pc (C.thr t) ≠ .held l → MtxStep C.M false ws.mtx m' →
      WinStep C ws { ws with mtx := m' }
  /-- `endTransfer` or `deleteBlock` return, mpiwincache.h 434-437, 566-571 -/
  | leave (ws) (t l : Nat) (m' : MtxState) (st' : DistState β) :
      (ws.st.pc (.user t)).leavesLib = true →
      ws.mtx.pc (C.thr t) = .released l → m'.pc (C.thr t) = .idle → MtxStep C.M false ws.mtx m' →
      UserStep C.P t ws.st st' → WinStep C ws { ws with st := st', mtx := m' }

/-- All domains are opened and the locks initialised. cachedist.h 96-129, mpiwincache.h 148-228. -/
def WinState.start (C : WinParams β) (c : CacheList) : WinState β :=
  { st := DistState.start C.P c, mtx := MtxState.start, buf := fun _ => [] }

/-- Reachable states. From cachedist.h 96-129 by any steps. -/
def WinReach (C : WinParams β) : WinState β → Prop :=
  Reachable (fun ws => ∃ c, CacheList.init C.P.size C.P.handDiff = some c ∧
    ws = WinState.start C c) (WinStep C)

end Asagi
