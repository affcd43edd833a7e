import Verif.Model.Trans
import Verif.Model.Types
/-
The element type of array and struct grids is shared by the NUMA domains of a process: `check`
(types/arraytype.h 90-121, types/structtype.h 143-192) is called by the master threads of all domains at the
same time, and creates the MPI data type after it has released its lock. The transfer classes read the
data type later (`getMPIType` in mpiwinfull.h 124, mpithreadfull.h 140, mpiwincache.h 160, mpithreadcache.h
361), after the broadcast in `NumaComm::allocate` (numacomm.h 131-150; full.h 101, cache.h 102).
The MPI functions are assumed to succeed. The barriers have the meaning of C21.
-/
namespace Asagi

/-- `m_mpiType`. arraytype.h 64, structtype.h 76. -/
inductive MpiType where
  /-- MPI_DATATYPE_NULL -/
  | null
  /-- created with this size in bytes, but not committed -/
  | made (bytes : Nat)
  | committed (bytes : Nat)
deriving DecidableEq, Repr

/-- `doms` domains open levels together; `varSize k` is the size of the variable in the k-th file.
arraytype.h 90-95, structtype.h 143-145. -/
structure ElemParams where
  cls : TypeClass
  doms : Nat
  calls : Nat
  varSize : Nat → Nat

/-- Where the master of a domain is. arraytype.h 90-121, structtype.h 143-192; lines as indicated. -/
inductive ElemPc where
  /-- before `check` -/
  | idle
  /-- before locking, arraytype.h 98, structtype.h 147 -/
  | want
  /-- before MPI_Type_contiguous, arraytype.h 107; MPI_Type_create_struct, structtype.h 158 -/
  | create
  /-- before MPI_Type_commit, arraytype.h 110; structtype.h 169 -/
  | commit
  /-- `check` returned SUCCESS -/
  | checked
  /-- in the broadcast of `NumaComm::allocate` -/
  | waitSync
  /-- before `getMPIType` -/
  | use
  /-- in the broadcast of the result, grid.cpp 244 -/
  | waitEnd
deriving DecidableEq, Repr

/-- The members of the type object, arraytype.h 59-68, structtype.h 62-80, and the positions of the masters. -/
structure ElemState where
  /-- m_arraySize or m_size -/
  fixed : Nat
  mpi : MpiType
  /-- number of data types created -/
  created : Nat
  call : Nat → Nat
  pc : Nat → ElemPc
  /-- The domain has arrived at the broadcast in `allocate` in call k -/
  synced : Nat → Nat → Bool
  /-- The domain has arrived at the broadcast of the result in call k -/
  ended : Nat → Nat → Bool
  /-- Result of `check` in call k -/
  verdict : Nat → Nat → Option Error
  /-- Data type read in call k -/
  used : Nat → Nat → Option MpiType

/-- New type object, arraytype.h 71-77, structtype.h 89-126. -/
def ElemState.fresh : ElemState :=
  ⟨0, .null, 0, fun _ => 0, fun _ => .idle, fun _ _ => false, fun _ _ => false, fun _ _ => none, fun _ _ => none⟩

/-- arraytype.h 92-93: the size is no multiple of the size of an element. Other types accept every size. -/
def TypeClass.accepts (c : TypeClass) (varSize : Nat) : Bool :=
  match c with
  | .array s => varSize % s.size == 0
  | _ => true

/-- `arraySize`, arraytype.h 95; `size`, structtype.h 145. -/
def TypeClass.count (c : TypeClass) (varSize : Nat) : Nat :=
  match c with
  | .array s => varSize / s.size
  | _ => varSize

/-- Size of the data type: MPI_Type_contiguous(m_arraySize, ...), arraytype.h 107;
MPI_Type_create_resized(..., size, ...), structtype.h 165. -/
def TypeClass.mpiBytes (c : TypeClass) (fixed varSize : Nat) : Nat :=
  match c with
  | .array s => fixed * s.size
  | _ => varSize

/-- Update of a variable that exists once per domain and call.
No code of its own: local variables of grid.cpp 214-249 in each domain. -/
def updAt {β : Type} (f : Nat → Nat → β) (d k : Nat) (v : β) : Nat → Nat → β :=
  fun x y => if x = d ∧ y = k then v else f x y

/-- Steps of the master threads. arraytype.h 90-121, structtype.h 143-192; lines at the steps. -/
inductive ElemStep (P : ElemParams) : ElemState → ElemState → Prop
  /-- arraytype.h 92-93 -/
  | invalid (s : ElemState) (d : Nat) : d < P.doms → s.pc d = .idle → s.call d < P.calls →
      P.cls.accepts (P.varSize (s.call d)) = false →
      ElemStep P s { s with
        verdict := updAt s.verdict d (s.call d) (some .INVALID_VAR_SIZE)
        ended := updAt s.ended d (s.call d) true
        pc := upd s.pc d .waitEnd }
  | start (s : ElemState) (d : Nat) : d < P.doms → s.pc d = .idle → s.call d < P.calls →
      P.cls.accepts (P.varSize (s.call d)) = true →
      ElemStep P s { s with pc := upd s.pc d .want }
  /-- arraytype.h 98-103, structtype.h 147-152: the first one stores the size and releases the lock -/
  | lockFirst (s : ElemState) (d : Nat) : d < P.doms → s.pc d = .want → s.fixed = 0 →
      ElemStep P s { s with
        fixed := P.cls.count (P.varSize (s.call d))
        pc := upd s.pc d .create }
  /-- arraytype.h 113-118, structtype.h 184-189 -/
  | lockOther (s : ElemState) (d : Nat) : d < P.doms → s.pc d = .want → s.fixed ≠ 0 →
      P.cls.count (P.varSize (s.call d)) = s.fixed →
      ElemStep P s { s with
        verdict := updAt s.verdict d (s.call d) (some .SUCCESS)
        pc := upd s.pc d .checked }
  | lockWrong (s : ElemState) (d : Nat) : d < P.doms → s.pc d = .want → s.fixed ≠ 0 →
      P.cls.count (P.varSize (s.call d)) ≠ s.fixed →
      ElemStep P s { s with
        verdict := updAt s.verdict d (s.call d) (some .WRONG_SIZE)
        ended := updAt s.ended d (s.call d) true
        pc := upd s.pc d .waitEnd }
  /-- arraytype.h 107-109, structtype.h 158-167 -/
  | create (s : ElemState) (d : Nat) : d < P.doms → s.pc d = .create →
      ElemStep P s { s with
        mpi := .made (P.cls.mpiBytes s.fixed (P.varSize (s.call d)))
        created := s.created + 1
        pc := upd s.pc d .commit }
  /-- arraytype.h 110-111, structtype.h 169-170 -/
  | commit (s : ElemState) (d b : Nat) : d < P.doms → s.pc d = .commit → s.mpi = .made b →
      ElemStep P s { s with
        mpi := .committed b
        verdict := updAt s.verdict d (s.call d) (some .SUCCESS)
        pc := upd s.pc d .checked }
  /-- the broadcast of the memory, numacomm.h 142 -/
  | arrive (s : ElemState) (d : Nat) : d < P.doms → s.pc d = .checked →
      ElemStep P s { s with
        synced := updAt s.synced d (s.call d) true
        pc := upd s.pc d .waitSync }
  | leave (s : ElemState) (d : Nat) : d < P.doms → s.pc d = .waitSync →
      (∀ d' < P.doms, s.synced d' (s.call d) = true) →
      ElemStep P s { s with pc := upd s.pc d .use }
  /-- `m_mpiType = type.getMPIType()` -/
  | use (s : ElemState) (d : Nat) : d < P.doms → s.pc d = .use →
      ElemStep P s { s with
        used := updAt s.used d (s.call d) (some s.mpi)
        ended := updAt s.ended d (s.call d) true
        pc := upd s.pc d .waitEnd }
  /-- all domains have the result of this call -/
  | «return» (s : ElemState) (d : Nat) : d < P.doms → s.pc d = .waitEnd →
      (∀ d' < P.doms, s.ended d' (s.call d) = true) →
      ElemStep P s { s with call := upd s.call d (s.call d + 1), pc := upd s.pc d .idle }

/-- All states the domains can reach. From arraytype.h 71-77, structtype.h 89-126 by any steps. -/
def ElemReach (P : ElemParams) : ElemState → Prop :=
  Reachable (fun s => s = ElemState.fresh) (ElemStep P)

end Asagi
