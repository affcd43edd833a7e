import Verif.Model.OpenSync
/-
Vocabulary for the statements about the tables threads register in.
-/
namespace Asagi.Spec

/-- The thread has left the registration: it reads the tables of domains and masters without a lock from now on
(numa.h 130-151, numa.cpp 78, numacomm.h 115-122). -/
def UsesTables (s : OSState) (x : Nat) : Prop :=
  (∃ i, s.pc x = .ops i) ∨ (∃ e, s.pc x = .final e) ∨ 0 < s.call x

/-- The thread may read the flag m_initialized without a lock (numa.cpp 77) as its next step. -/
def MayReadFlag (P : OpenParams) (s : OSState) (x : Nat) : Prop := s.pc x = .start ∧ s.call x < P.calls

/-- The thread is in the barrier of the registration: it has read the flag, and has locked and released the mutex
since. -/
def InRegBarrier (s : OSState) (x : Nat) : Prop := s.pc x = .reg ∧ (s.th.pc x).inside = true

end Asagi.Spec
