/-
Model of the performance counters, perf/counter.h and perf/counter.cpp.
-/
namespace Asagi

/-- `CounterType`, counter.h 74-91. -/
inductive CounterType where
  | access | numa | mpi | file | hit | nodeHit | miss | invalid
deriving DecidableEq, Repr

/-- `m_counter`, counter.h 115: the native counters, `unsigned long`. -/
structure Counters where
  access : Nat := 0
  numa : Nat := 0
  mpi : Nat := 0
  file : Nat := 0
deriving DecidableEq, Repr

/-- The range of `unsigned long`. counter.h 115. -/
def ulongRange : Nat := 2 ^ 64

/-- `inc`, counter.h 125-135: `unsigned long` increments wrap around. Only native counters
are ever incremented (assertion in line 128); the others are left alone here. -/
def Counters.inc (c : Counters) : CounterType → Counters
  | .access => { c with access := (c.access + 1) % ulongRange }
  | .numa => { c with numa := (c.numa + 1) % ulongRange }
  | .mpi => { c with mpi := (c.mpi + 1) % ulongRange }
  | .file => { c with file := (c.file + 1) % ulongRange }
  | _ => c

/-- `unsigned long` subtraction. Used in counter.cpp 58-75. -/
def ulongSub (a b : Nat) : Nat := (a + (ulongRange - b % ulongRange)) % ulongRange

/-- `get`, counter.cpp 58-75. -/
def Counters.get (c : Counters) : CounterType → Nat
  | .access => c.access
  | .numa => c.numa
  | .mpi => c.mpi
  | .file => c.file
  | .hit => ulongSub (ulongSub (ulongSub c.access c.numa) c.mpi) c.file
  | .nodeHit => ulongSub (ulongSub c.access c.mpi) c.file
  | .miss => (c.numa + c.mpi + c.file) % ulongRange
  | .invalid => 0

/-- `name2type`, counter.cpp 83-93 with the table counter.h 102-108. -/
def name2type (name : String) : CounterType :=
  if name = "accesses" then .access
  else if name = "numa_transfers" then .numa
  else if name = "mpi_transfers" then .mpi
  else if name = "file_loads" then .file
  else if name = "local_hits" then .hit
  else if name = "node_hits" then .nodeHit
  else if name = "local_misses" then .miss
  else .invalid

end Asagi
