import Verif.Model.CommThread
/-
The life of the communication thread: `startCommThread`, `stopCommThread` (asagi.cpp 67-75,
mpi/commthread.h 130-208) and the grids that register at it when they are opened and closed
(commthread.h 220-255, transfer/mpithreadfull.h 109-160, transfer/mpithreadcache.h 324-338, 352-399).
Ranks are ranks of MPI_COMM_WORLD. A grid registers one receiver object; a grid that registers four
(mpithreadcache.h 380-399) is modelled as four grids.
-/
namespace Asagi

/-- `CommThread` on one process, with the tags that the grid objects of this process have stored.
commthread.h 96-114; the tags: mpithreadfull.h 93, mpithreadcache.h 271-289. -/
structure LifeState where
  /-- m_comm, `none` for MPI_COMM_NULL: the number of the communicator and its members -/
  comm : Option (Nat × List Nat)
  /-- the thread executes `commThreadHandler` -/
  running : Bool
  nextTag : Nat
  receiver : Nat → Option ReceiverDetail
  /-- m_tag of the transfer object of each grid, mpithreadfull.h 93 (-1 for `none`) -/
  tag : Nat → Option Nat

/-- All processes; `comms` counts the communicators that were created by `MPI_Comm_dup`. commthread.h 145. -/
structure LifeWorld where
  proc : Nat → LifeState
  comms : Nat

/-- After the constructor, commthread.h 117-121. -/
def LifeWorld.init : LifeWorld := ⟨fun _ => ⟨none, false, 0, fun _ => none, fun _ => none⟩, 0⟩

/-- The calls that concern the communication thread. asagi.cpp 67-75, commthread.h 220-255. -/
inductive LifeOp where
  /-- `startCommThread` by all members of `comm`; `created r`: pthread_create succeeds on `r` -/
  | start (comm : List Nat) (created : Nat → Bool)
  /-- `stopCommThread` on one process -/
  | stop (rank : Nat)
  /-- `open` of the grid `g` with MPI_COMMUNICATION=THREAD by all members of its communicator -/
  | «open» (g : Nat) (comm : List Nat)
  /-- `close` of the grid on one process -/
  | close (g rank : Nat)

/-- What happens to the caller. Return values of commthread.h 130-177, 220-241, or a call that does not return. -/
inductive LifeResult where
  | success
  | alreadyInitialized
  | notInitialized
  | threadError
  /-- the call does not return -/
  | hangs
  /-- a call of MPI with MPI_COMM_NULL -/
  | fault
deriving DecidableEq, Repr

/-- m_comm is not MPI_COMM_NULL. commthread.h 96, 136. -/
def LifeWorld.started (w : LifeWorld) (r : Nat) : Bool := (w.proc r).comm.isSome

/-- The result of each call, for each process that takes part in it. commthread.h 130-255. -/
def LifeWorld.result (w : LifeWorld) : LifeOp → Nat → LifeResult
  /- commthread.h 136-155 -/
  | .start comm created, r =>
    if comm.any w.started then .alreadyInitialized
    else if created r then .success else .threadError
  /- commthread.h 188-198: MPI_Issend with m_comm; the loop and pthread_join wait for the thread -/
  | .stop r, _ =>
    if w.started r = false then .fault
    else if (w.proc r).running then .success else .hangs
  /- commthread.h 225-230: the reduction needs all members -/
  | .open _ comm, r =>
    if w.started r = false then .notInitialized
    else if comm.all w.started then .success else .hangs
  /- mpithreadfull.h 109-116, commthread.h 246-255: a synchronous send to the own thread -/
  | .close g r, _ =>
    match (w.proc r).tag g with
    | none => .success
    | some _ =>
      if w.started r = false then .fault
      else if (w.proc r).running then .success else .hangs

/-- The result of `MPI_Allreduce(&m_nextTag, &tag, 1, MPI_INT, MPI_MAX, comm)`, commthread.h 229. -/
def LifeWorld.maxTag (w : LifeWorld) (comm : List Nat) : Nat :=
  comm.foldr (fun r a => max (w.proc r).nextTag a) 0

/-- The effect of each call that returns on all processes. commthread.h 130-255. -/
def LifeWorld.step (w : LifeWorld) : LifeOp → LifeWorld
  /- commthread.h 142-155 -/
  | .start comm created =>
    if comm.any w.started then w
    else
      { proc := fun r =>
          if r ∈ comm then { w.proc r with comm := some (w.comms, comm), running := created r }
          else w.proc r
        comms := w.comms + 1 }
  /- commthread.h 200-207; the tags in the grid objects stay as they are -/
  | .stop r =>
    let s := { w.proc r with comm := none, running := false, nextTag := 0, receiver := fun _ => none }
    { w with proc := upd w.proc r s }
  /- commthread.h 229-238 -/
  | .open g comm =>
    if comm.all w.started then
      { w with proc := fun r =>
          if r ∈ comm then
            { w.proc r with
                nextTag := w.maxTag comm + 1
                receiver := upd (w.proc r).receiver (w.maxTag comm) (some ⟨g, comm⟩)
                tag := upd (w.proc r).tag g (some (w.maxTag comm)) }
          else w.proc r }
    else w
  /- commthread.h 299: erase; the grid object is deleted -/
  | .close g r =>
    match (w.proc r).tag g with
    | none => w
    | some t =>
      let s := { w.proc r with
        receiver := upd (w.proc r).receiver t none
        tag := upd (w.proc r).tag g none }
      { w with proc := upd w.proc r s }

/-- The processes that make the call. Collective calls: commthread.h 145, 229. -/
def LifeOp.callers : LifeOp → List Nat
  | .start comm _ => comm
  | .stop r => [r]
  | .open _ comm => comm
  | .close _ r => [r]

/-- The calls in this order; `none` if one of them does not return on some process.
commthread.h 130-255, one call after the other. -/
def LifeWorld.run (w : LifeWorld) : List LifeOp → Option LifeWorld
  | [] => some w
  | op :: ops =>
    if op.callers.any (fun r => w.result op r == .hangs || w.result op r == .fault) then none
    else (w.step op).run ops

/-- `send` (commthread.h 264-274) by the grid `g` on process `r` to rank `k` of the communicator of
the grid. Both processes need the same m_comm. `none`: the warning of line 268, or a rank that is
MPI_UNDEFINED in m_group (line 272). -/
def LifeWorld.send (w : LifeWorld) (r g k data : Nat) : Option CommMsg := do
  let t ← (w.proc r).tag g
  let d ← (w.proc r).receiver t
  let dest ← d.group[k]?
  let mc ← (w.proc r).comm
  if dest ∈ mc.2 then some ⟨r, dest, t, data⟩ else none

/-- `commThreadHandler`, commthread.h 280-315, on the destination. `none`: there is no thread that
receives messages of this communicator. -/
def LifeWorld.handle (w : LifeWorld) (m : CommMsg) : Option Handled :=
  if (w.proc m.dest).running ∧ (w.proc m.dest).comm = (w.proc m.source).comm then
    some (if m.tag = exitTag then .exit
      else if m.tag = unregTag then .unregister m.data
      else
        match (w.proc m.dest).receiver m.tag with
        | none => .dropped
        | some d => .delivered d.recv (d.group.idxOf m.source) m.data)
  else none

end Asagi
