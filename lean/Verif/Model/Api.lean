import Verif.Model.Counter
/-
Models of small parts of the public interface: error codes, access counters of a grid, Fortran
handles, node-local ranks, pinning of the communication thread and the result of `open`.
-/
namespace Asagi

/-! ### Error codes -/

/-- The errors named by any of the three interfaces: include/asagi.h 92-119 (C++), 428-443
(C), include/asagi.f90 63-78 (Fortran). -/
inductive Error where
  | SUCCESS | MPI_ERROR | THREAD_ERROR | NUMA_ERROR | UNKNOWN_PARAM | INVALID_VALUE
  | NOT_INITIALIZED | ALREADY_INITIALIZED | NOT_OPEN | VAR_NOT_FOUND | WRONG_SIZE
  | UNSUPPORTED_DIMENSIONS | INVALID_VAR_SIZE
  /-- only in the C interface, never returned by the library -/
  | MULTIPLE_TOPGRIDS
deriving DecidableEq, Repr

/-- `enum asagi::Grid::Error`, include/asagi.h 92-119: position = value. -/
def cxxErrors : List Error :=
  [.SUCCESS, .MPI_ERROR, .THREAD_ERROR, .NUMA_ERROR, .UNKNOWN_PARAM, .INVALID_VALUE,
   .NOT_INITIALIZED, .ALREADY_INITIALIZED, .NOT_OPEN, .VAR_NOT_FOUND, .WRONG_SIZE,
   .UNSUPPORTED_DIMENSIONS, .INVALID_VAR_SIZE]

/-- `enum` in the C part, include/asagi.h 428-443. -/
def cErrors : List Error :=
  [.SUCCESS, .MPI_ERROR, .THREAD_ERROR, .NUMA_ERROR, .UNKNOWN_PARAM, .INVALID_VALUE,
   .NOT_INITIALIZED, .ALREADY_INITIALIZED, .NOT_OPEN, .VAR_NOT_FOUND, .WRONG_SIZE,
   .UNSUPPORTED_DIMENSIONS, .MULTIPLE_TOPGRIDS, .INVALID_VAR_SIZE]

/-- `enum, bind(c)`, include/asagi.f90 63-78. -/
def fortranErrors : List Error :=
  [.SUCCESS, .MPI_ERROR, .THREAD_ERROR, .NUMA_ERROR, .UNKNOWN_PARAM, .INVALID_VALUE,
   .NOT_INITIALIZED, .ALREADY_INITIALIZED, .NOT_OPEN, .VAR_NOT_FOUND, .WRONG_SIZE,
   .UNSUPPORTED_DIMENSIONS, .INVALID_VAR_SIZE]

/-- The number returned by the C and Fortran functions for an error of the library: the C++
value is passed on unchanged (asagi.cpp 152-274, asagi_f90.cpp). -/
def errorNumber (e : Error) : Option Nat := cxxErrors.idxOf? e

/-! ### Counters of a grid -/

/-- `Grid::getCounter`, grid.cpp 251-263: `containers` holds for each NUMA domain the counters
of its levels. The call `(*it)->getCounter(type)` leaves the level at its default 0
(container.h 188-189). `none`: the domain has no level 0 (out-of-bounds access). -/
def gridGetCounter (containers : List (List Counters)) (name : String) (_level : Nat) : Option Nat :=
  containers.foldlM (fun sum (levels : List Counters) => do
    let c ← levels[0]?
    pure ((sum + c.get (name2type name)) % ulongRange)) 0

/-! ### Fortran handles: fortran/pointerarray.h -/

/-- `PointerArray::m_pointers`, pointerarray.h 61. `none` = null pointer, grids are numbers. -/
abbrev PointerArray := List (Option Nat)

/-- `add`, pointerarray.h 73-81: the new array and the handle. -/
def PointerArray.add (a : PointerArray) (p : Nat) : PointerArray × Nat :=
  (a ++ [some p], (a ++ [some p]).length - 1)

/-- `get`, pointerarray.h 86-92. Outer `none`: index out of bounds (undefined behaviour). -/
def PointerArray.get (a : PointerArray) (i : Nat) : Option (Option Nat) := a[i]?

/-- `remove`, pointerarray.h 97-103. -/
def PointerArray.remove (a : PointerArray) (i : Nat) : Option PointerArray :=
  if i < a.length then some (a.set i none) else none

/-- Creating a grid (constructor, grid.cpp 269-273) or closing the grid with the given handle
(destructor, grid.cpp 189-190). -/
inductive HandleOp where
  | create (grid : Nat)
  | close (handle : Nat)
deriving DecidableEq, Repr

/-- One operation; the second component is the handle given out by a `create`. fortran/pointerarray.h 73-103. -/
def handleStep (a : PointerArray) : HandleOp → Option (PointerArray × Option Nat)
  | .create g => some ((a.add g).1, some (a.add g).2)
  | .close h => (a.remove h).map fun a' => (a', none)

/-- A sequence of operations starting without grids. fortran/pointerarray.h 73-103, one operation after the other. -/
def handleRun (a : PointerArray) : List HandleOp → Option (PointerArray × List (Option Nat))
  | [] => some (a, [])
  | o :: os => do
    let (a1, r) ← handleStep a o
    let (a2, rs) ← handleRun a1 os
    pure (a2, r :: rs)

/-! ### nodeLocalRank: asagi.cpp 77-144 -/

/-- The Adler-32 loop, asagi.cpp 96-104 (`uint32_t` arithmetic never wraps here: the sums stay
below 2·65521). -/
def adlerLoop : List Nat → Nat → Nat → Nat × Nat
  | [], s1, s2 => (s1, s2)
  | b :: bs, s1, s2 =>
    let s1 := (s1 + b) % 65521
    let s2 := (s2 + s1) % 65521
    adlerLoop bs s1 s2

/-- `hash`, asagi.cpp 106: `(s2 << 16) | s1`. -/
def adler32 (name : List Nat) : Nat :=
  let (s1, s2) := adlerLoop name 1 0
  (s2 <<< 16) ||| s1

/-- Conversion of the `uint32_t` hash to the `int` parameter `color` of `MPI_Comm_split`,
asagi.cpp 112. -/
def splitColor (name : List Nat) : Int :=
  if adler32 name < 2 ^ 31 then adler32 name else (adler32 name : Int) - 2 ^ 32

/-- The ranks in `nodeComm` of process `r`, asagi.cpp 111-113: all processes with the same
colour, ordered by the key `rank`. `names` holds the processor name of each rank. -/
def nodeComm (names : List (List Nat)) (r : Nat) : List Nat :=
  (List.range names.length).filter fun q =>
    splitColor (names.getD q []) = splitColor (names.getD r [])

/-- The loop asagi.cpp 132-136 over the gathered names. -/
def countEqual (name : List Nat) : List (List Nat) → Nat → Nat
  | [], n => n
  | x :: xs, n => countEqual name xs (if name = x then n + 1 else n)

/-- `nodeLocalRank` on process `r`. MPI_Allgather (asagi.cpp 122-124) delivers the names in the
order of the ranks of `nodeComm`; `nodeRank` is the position of the process in it. -/
def nodeLocalRank (names : List (List Nat)) (r : Nat) : Nat :=
  let group := nodeComm names r
  let procNames := group.map fun q => names.getD q []
  let nodeRank := group.idxOf r
  countEqual (names.getD r []) (procNames.take nodeRank) 0

/-! ### Pinning of the communication thread -/

/-- commthread.h 158-174: the CPU the communication thread is pinned to; `none`: not pinned. -/
def pinnedCpu (numCPUs schedCPU : Int) : Option Int :=
  if schedCPU < numCPUs ∧ -schedCPU ≤ numCPUs then
    if schedCPU ≥ 0 then some schedCPU
    else some (numCPUs - schedCPU)
  else none

/-! ### Registration of threads: numa/numa.cpp 75-154 -/

/-- Members of `numa::Numa` used while registering: `m_domains` (in insertion order; the domain
identifier of a node is its position) and `m_masterThreads`. numa/numa.h 80-96. -/
structure NumaState where
  domains : List Int
  masters : List Bool
deriving DecidableEq, Repr

/-- What one thread learns: its number, its domain identifier and whether it is the master. numa/numa.cpp 100-151. -/
structure Registration where
  thread : Nat
  domain : Nat
  master : Bool
deriving DecidableEq, Repr

/-- The part of `registerThread` protected by the lock, numa.cpp 100-135. `waiting` is
`m_syncThreads.waiting()`, `node` the NUMA node of the CPU, `detect` the parameter
`detectNumaDomains`. -/
def registerThread (s : NumaState) (waiting : Nat) (node : Int) (detect : Bool) :
    NumaState × Registration :=
  let threadId := waiting
  let domain := if detect then node else 0
  let masters := if s.masters.length ≤ threadId then
      s.masters ++ List.replicate (threadId + 1 - s.masters.length) false
    else s.masters
  match s.domains.idxOf? domain with
  | none =>
    ({ domains := s.domains ++ [domain], masters := masters.set threadId true },
     { thread := threadId, domain := s.domains.length, master := true })
  | some domainId =>
    ({ s with masters }, { thread := threadId, domain := domainId, master := false })

/-- All threads register one after the other (they hold the barrier's lock, which also counts
them); `nodes` are the NUMA nodes in the order in which the threads get the lock. numa/numa.cpp 96-138. -/
def registerAll (detect : Bool) (nodes : List Int) : NumaState × List Registration :=
  nodes.foldl (fun (acc : NumaState × List Registration) node =>
    let r := registerThread acc.1 acc.2.length node detect
    (r.1, acc.2 ++ [r.2])) (⟨[], []⟩, [])

/-! ### Result of open -/

/-- `Grid::open`, grid.cpp 214-241, after the threads registered with the results `regs`:
the value of `err` on thread `t` before the broadcast. Masters initialise the container of
their domain (`initResult d` is the result of `Container::init` on domain `d`), the others keep
SUCCESS. -/
def threadError (regs : List Registration) (initResult : Nat → Error) (t : Nat) : Error :=
  match regs[t]? with
  | some r => if r.master then initResult r.domain else .SUCCESS
  | none => .SUCCESS

/-- grid.cpp 243-249: the value returned to thread `t`. `m_numa.broadcast(err)` overwrites
`err` of all threads with the value of thread 0 (numa.h 163-172, sync.h 220-234; see
`Verif.Props.Sync`). -/
def openResult (regs : List Registration) (initResult : Nat → Error) (_t : Nat) : Error :=
  threadError regs initResult 0

/-- `ids`, numa.cpp 148: `(threadId << 32) | domainId`. -/
def packIds (threadId domainId : Nat) : Nat := (threadId <<< 32) ||| domainId

/-- `threadId()`, numa.h 138-142. -/
def unpackThread (ids : Nat) : Nat := ids >>> 32

/-- `domainId()`, numa.h 147-151. -/
def unpackDomain (ids : Nat) : Nat := ids &&& ((1 <<< 32) - 1)

end Asagi
