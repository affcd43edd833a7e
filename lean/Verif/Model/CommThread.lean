import Verif.Model.Trans
/-
The communication thread: mpi/commthread.h 220-315. All processes use the same communicator m_comm
for requests; ranks are ranks of m_comm. A grid's communicator is the list of its members in the
order of their ranks.
-/
namespace Asagi

/-- Tags with a special meaning, commthread.h 322, 325. -/
def exitTag : Nat := 32767
/-- The tag of the message of `unregisterReceiver`, commthread.h 325. -/
def unregTag : Nat := 32767 - 1

/-- `ReceiverDetail`, commthread.h 87-92: the receiver object (a number) and the group. -/
structure ReceiverDetail where
  recv : Nat
  group : List Nat
deriving DecidableEq, Repr

/-- Members of `CommThread` on one process: m_nextTag and m_receiver (as a map). commthread.h 108-111. -/
structure CommState where
  nextTag : Nat
  receiver : Nat → Option ReceiverDetail

/-- The communication threads of all processes, by rank. commthread.h 81, 318. -/
abbrev CommWorld := Nat → CommState

/-- After the constructor, commthread.h 117-121. -/
def CommWorld.init : CommWorld := fun _ => ⟨0, fun _ => none⟩

/-- The result of `MPI_Allreduce(&m_nextTag, &tag, 1, MPI_INT, MPI_MAX, comm)`. commthread.h 229. -/
def maxNextTag (w : CommWorld) (comm : List Nat) : Nat :=
  comm.foldr (fun r a => max (w r).nextTag a) 0

/-- `registerReceiver`, commthread.h 220-241, called by all members of `comm`; `recv r` is the
receiver object of rank `r`. One step for all members; what can happen between the reduction and
the insertion into m_receiver is modelled in `Model/Races`. -/
def registerReceiver (w : CommWorld) (comm : List Nat) (recv : Nat → Nat) : CommWorld :=
  fun r =>
    if r ∈ comm then
      let tag := maxNextTag w comm
      ⟨tag + 1, upd (w r).receiver tag (some ⟨recv r, comm⟩)⟩
    else w r

/-- `unregisterReceiver`, commthread.h 246-255, with the handling by the thread, 299-300. -/
def unregisterReceiver (w : CommWorld) (rank tag : Nat) : CommWorld :=
  upd w rank { w rank with receiver := upd (w rank).receiver tag none }

/-- A message on m_comm. commthread.h 264-274, 286. -/
structure CommMsg where
  source : Nat
  dest : Nat
  tag : Nat
  data : Nat
deriving DecidableEq, Repr

/-- `send`, commthread.h 264-274: `recvRank` is a rank in the grid's communicator;
MPI_Group_translate_ranks maps it to a rank of m_comm. `none`: the warning of line 268. -/
def commSend (w : CommWorld) (rank tag recvRank data : Nat) : Option CommMsg := do
  let d ← (w rank).receiver tag
  let dest ← d.group[recvRank]?
  some ⟨rank, dest, tag, data⟩

/-- What the communication thread does with a message. commthread.h 288-311. -/
inductive Handled where
  | exit
  | unregister (tag : Nat)
  | dropped
  | delivered (recv : Nat) (sender : Nat) (data : Nat)
deriving DecidableEq, Repr

/-- `commThreadHandler`, commthread.h 280-315. -/
def commHandle (w : CommWorld) (m : CommMsg) : Handled :=
  if m.tag = exitTag then .exit
  else if m.tag = unregTag then .unregister m.data
  else
    match (w m.dest).receiver m.tag with
    | none => .dropped
    | some d => .delivered d.recv (d.group.idxOf m.source) m.data

/-- A history: registrations and removals. commthread.h 220, 246. -/
inductive CommOp where
  | register (comm : List Nat) (recv : Nat → Nat)
  | unregister (rank tag : Nat)

/-- The effect of one operation, commthread.h 220-255. -/
def CommWorld.apply (w : CommWorld) : CommOp → CommWorld
  | .register comm recv => registerReceiver w comm recv
  | .unregister rank tag => unregisterReceiver w rank tag

/-- The operations in this order, commthread.h 220-255. -/
def CommWorld.run (w : CommWorld) (ops : List CommOp) : CommWorld :=
  ops.foldl CommWorld.apply w

end Asagi
