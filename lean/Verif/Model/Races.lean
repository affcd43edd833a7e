import Verif.Model.Trans
/-
Orders of events while grids are opened: loading and publishing the blocks of a FULL grid,
registering at the communication threads, and creating the MPI data type of a grid.
-/
namespace Asagi

/-! ### FULL grid with MPI: grid/level/fulldist.h 99-144 -/

/-- `n` processes with `doms` NUMA domains each. `loaded p d`: domain master `d` of process `p` has
loaded its blocks (full.h 107-125); `entered p`: the master of domain 0 of process `p` has called the
collective MPI function of the transfer class (MPI_Win_create, mpiwinfull.h 134, or
MPI_Allreduce, commthread.h 229); `returned p`: open has returned on process `p`. -/
structure FullOpenState where
  loaded : Nat → Nat → Prop
  entered : Nat → Prop
  returned : Nat → Prop

/-- Before fulldist.h 99. -/
def FullOpenState.init (s : FullOpenState) : Prop :=
  (∀ p d, ¬ s.loaded p d) ∧ (∀ p, ¬ s.entered p) ∧ (∀ p, ¬ s.returned p)

/-- fulldist.h 99-144, full.h 86-130. -/
inductive FullOpenStep (n doms : Nat) : FullOpenState → FullOpenState → Prop
  /-- The loading loop of `Full::open`. -/
  | load {s : FullOpenState} (p d : Nat) (hp : p < n) (hd : d < doms) :
      FullOpenStep n doms s { s with
        loaded := fun p' d' => (p' = p ∧ d' = d) ∨ s.loaded p' d' }
  /-- Domain 0 calls the collective function after it has loaded its own blocks (there is a barrier
  between the domains before loading, in `NumaComm::allocate`, but none after it). -/
  | enter {s : FullOpenState} (p : Nat) (hp : p < n) (hl : s.loaded p 0) :
      FullOpenStep n doms s { s with entered := fun p' => p' = p ∨ s.entered p' }
  /-- The collective function returns after all processes have called it; the broadcasts between the
  domains (mpiwinfull.h 143-149, mpithreadfull.h 151-157) and the broadcast of the result
  (grid.cpp 244) wait for all domains of this process, which have loaded their blocks before. -/
  | ret {s : FullOpenState} (p : Nat) (hp : p < n) (hl : ∀ d, d < doms → s.loaded p d)
      (he : ∀ q, q < n → s.entered q) :
      FullOpenStep n doms s { s with returned := fun p' => p' = p ∨ s.returned p' }

/-! ### Registration at the communication thread: mpi/commthread.h 220-241, 280-315 -/

/-- `n` processes that register receivers 1, 2, 3, ... of one communicator. `entered p` is the number
of calls of MPI_Allreduce (line 229) of process `p`, `inserted p` the number of receivers in
m_receiver (line 238), `lost` the requests that were dropped (line 306): (source, destination,
receiver). (commthread.h 220-241, 280-315) -/
structure RegState where
  entered : Nat → Nat
  inserted : Nat → Nat
  msgs : List (Nat × Nat × Nat)
  delivered : List (Nat × Nat × Nat)
  lost : List (Nat × Nat × Nat)

/-- The constructor, commthread.h 117-121. -/
def RegState.init (s : RegState) : Prop :=
  (∀ p, s.entered p = 0) ∧ (∀ p, s.inserted p = 0) ∧ s.msgs = [] ∧ s.delivered = [] ∧ s.lost = []

/-- commthread.h 220-241, 264-314. -/
inductive RegStep (n : Nat) : RegState → RegState → Prop
  /-- Call of MPI_Allreduce for the next receiver. -/
  | enter {s : RegState} (p : Nat) (hp : p < n) (h : s.entered p = s.inserted p) :
      RegStep n s { s with entered := upd s.entered p (s.entered p + 1) }
  /-- MPI_Allreduce returns (all processes have called it) and the receiver is inserted. -/
  | insert {s : RegState} (p : Nat) (hp : p < n) (h : s.inserted p < s.entered p)
      (hall : ∀ q, q < n → s.entered p ≤ s.entered q) :
      RegStep n s { s with inserted := upd s.inserted p (s.inserted p + 1) }
  /-- A request with the tag of receiver `k`, after `total` receivers were registered (open has
  returned). -/
  | send {s : RegState} (p q k : Nat) (hp : p < n) (hq : q < n) (hk : 1 ≤ k)
      (h : k ≤ s.inserted p) :
      RegStep n s { s with msgs := s.msgs ++ [(p, q, k)] }
  /-- The communication thread of `q` handles the message. -/
  | handle {s : RegState} (m1 m2 : List (Nat × Nat × Nat)) (p q k : Nat)
      (h : s.msgs = m1 ++ (p, q, k) :: m2) :
      RegStep n s { s with
        msgs := m1 ++ m2
        delivered := if k ≤ s.inserted q then s.delivered ++ [(p, q, k)] else s.delivered
        lost := if k ≤ s.inserted q then s.lost else s.lost ++ [(p, q, k)] }

/-! ### The MPI data type of array and struct grids: types/arraytype.h 90-121,
types/structtype.h 143-192 -/

/-- Where the master of a NUMA domain is while it opens a level. arraytype.h 90-121, structtype.h 143-192. -/
inductive TypePc where
  | start
  /-- has set the size and released the lock, before MPI_Type_commit -/
  | creating
  | checked
  /-- in the broadcast of `NumaComm::allocate` (numacomm.h 142), called by all levels that communicate
  (full.h 101-103, cache.h 102-104) before the transfer classes are initialised -/
  | barrier
  /-- has left this broadcast -/
  | passed
  /-- has read the type in `init` of the transfer class (mpiwinfull.h 124 and others) -/
  | used
deriving DecidableEq, Repr

/-- `size`: m_arraySize or m_size is not zero; `created`: m_mpiType is complete; `bad`: the type was
read before it was complete. arraytype.h 59-68, structtype.h 62-80. -/
structure TypeState where
  pc : Nat → TypePc
  size : Bool
  created : Bool
  bad : Bool

/-- arraytype.h 71-77, structtype.h 89-126, or after an earlier `open`. -/
def TypeState.init (s : TypeState) : Prop :=
  (∀ d, s.pc d = .start) ∧ s.size = s.created ∧ s.bad = false

/-- arraytype.h 90-121, structtype.h 143-192. -/
inductive TypeStep (doms : Nat) : TypeState → TypeState → Prop
  /-- The critical section of `check` for the first domain. -/
  | first {s : TypeState} (d : Nat) (hd : d < doms) (h : s.pc d = .start) (hs : s.size = false) :
      TypeStep doms s { s with pc := upd s.pc d .creating, size := true }
  /-- The critical section of `check` for the other domains (the result is SUCCESS; a domain that gets
  an error leaves open and never reaches the barrier). -/
  | other {s : TypeState} (d : Nat) (hd : d < doms) (h : s.pc d = .start) (hs : s.size = true) :
      TypeStep doms s { s with pc := upd s.pc d .checked }
  /-- MPI_Type_contiguous and MPI_Type_commit. -/
  | create {s : TypeState} (d : Nat) (h : s.pc d = .creating) :
      TypeStep doms s { s with pc := upd s.pc d .checked, created := true }
  | enter {s : TypeState} (d : Nat) (h : s.pc d = .checked) :
      TypeStep doms s { s with pc := upd s.pc d .barrier }
  /-- Leaving the broadcast (C21: not before all domains have arrived). -/
  | pass {s : TypeState} (d : Nat) (h : s.pc d = .barrier)
      (hall : ∀ e, e < doms → s.pc e = .barrier ∨ s.pc e = .passed ∨ s.pc e = .used) :
      TypeStep doms s { s with pc := upd s.pc d .passed }
  /-- Reading the type. -/
  | use {s : TypeState} (d : Nat) (h : s.pc d = .passed) :
      TypeStep doms s { s with pc := upd s.pc d .used, bad := s.bad || !s.created }

end Asagi
