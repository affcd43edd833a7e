import Verif.Proofs.CacheDistLib
import Verif.Props.SharedLive
/-
C18 and C64 for builds with THREADSAFE_MPI (the default): the calls of MPI are protected by one lock
per process.
-/
namespace Asagi.Props
open Asagi Asagi.Spec
variable {β : Type} {P : DistParams β} {ls : LibState β}

theorem inMpi_inLib {p : Pc β} (h : InMpi p) : p.inLib = true := by
  cases h <;> rfl

/-- **C64** (the getters of CACHE grids with MPI windows; opening and closing are not
covered, see DESIGN.md). In a build with THREADSAFE_MPI, in every reachable state, at most one
thread of each process is at a position where it calls MPI. -/
theorem C64_one_thread_in_mpi (hl : Legal P) (hm : P.mode = .window) (h : LibReach P ls)
    (t u : Nat) (ht : InMpi (ls.st.pc (.user t))) (hu : InMpi (ls.st.pc (.user u)))
    (hr : P.rankOf (P.dom t) = P.rankOf (P.dom u)) : t = u := by
  have hI := h.inv hl hm
  have h1 := hI.held t (inMpi_inLib ht)
  have h2 := hI.held u (inMpi_inLib hu)
  have hr' : P.rankT t = P.rankT u := hr
  rw [hr', h2] at h1
  injection h1 with h1
  exact h1.symm

/-- The lock of the library only removes executions: everything that holds in all states of the
shared caches (C09, C17-C21, C63) holds with it, too. -/
theorem C64_refines (h : LibReach P ls) : DistReach P ls.st := h.dist

/-- **C18** with THREADSAFE_MPI: in every reachable state in which a thread is inside of a getter,
somebody inside of a getter, or a communication thread, can continue, although the threads wait for
the locks of directory entries with the lock of the library. -/
theorem C18_no_deadlock_mpilock (hl : Legal P) (h : LibReach P ls) (t : Nat)
    (hn : ls.st.pc (.user t) ≠ .idle) : ∃ ls', LibQuiet P ls ls' :=
  LibInv.progress (hl.inv h.dist) (fun hm => h.inv hl hm) hn

/-- **C18** with THREADSAFE_MPI, without the communication thread: from every reachable state, every
execution without new calls has at most `N` steps, and when it cannot be continued, all calls have
returned. -/
theorem C18_every_access_returns_mpilock (hl : Legal P) (hm : P.mode ≠ .thread) (h : LibReach P ls) :
    ∃ N, ∀ n ls', LibQuietRun P n ls ls' → n ≤ N ∧
      ((∀ ls'', ¬ LibQuiet P ls' ls'') → ∀ t, ls'.st.pc (.user t) = .idle) := by
  obtain ⟨L, hL⟩ := busy_finite h.dist
  refine ⟨libLeft P L ls, fun n ls' hq => ?_⟩
  obtain ⟨h1, h2, h3⟩ := libQuietRun_le hl hm h hL hq
  refine ⟨by omega, fun hend t => ?_⟩
  by_contra hn
  obtain ⟨ls'', hq'⟩ := C18_no_deadlock_mpilock hl h1 t hn
  exact hend ls'' hq'

/-- `n` steps of thread `t`. -/
def libSteps (t n : Nat) : List LibCmd := List.replicate n (.step (.user t 0))

/-- Thread 2 (process 1) copies block 5 with the lock of its entry and the lock of the library of
process 1; thread 0 (process 0) has evicted block 5 and waits for the lock of this entry, with the
lock of the library of process 0; thread 1 (the other domain of process 0) is about to look up block
6 and has to wait for the lock of the library. Thread 2 can continue, thread 0 and 1 cannot. -/
example : ∃ ls, LibReach (exShared .window false false) ls ∧
    ls.st.pc (.user 2) = .own 5 1 0 (.copy 0 1) ∧ InMpi (ls.st.pc (.user 2)) ∧
    ls.st.pc (.user 0) = .own 7 0 0 (.del (some 5)) ∧ ls.st.dl 5 = some (.user 2) ∧
    ls.mp 0 = some 0 ∧ ls.mp 1 = some 2 ∧ ls.st.pc (.user 1) = .own 6 0 0 .start := by
  have hx : (libRun (exShared .window false false)
      ([.step (.call 0 5 0)] ++ libSteps 0 4 ++ [.take 0] ++ libSteps 0 8 ++ [.step (.call 0 6 0)] ++
        libSteps 0 4 ++ [.take 0] ++ libSteps 0 8 ++ [.step (.call 2 5 1)] ++
        libSteps 2 4 ++ [.take 2] ++ libSteps 2 3 ++ [.step (.call 1 6 0)] ++ libSteps 1 4 ++
        [.step (.call 0 7 0)] ++ libSteps 0 2 ++ [.take 0])).any
      (fun ls => match ls.st.pc (.user 2), ls.st.pc (.user 0), ls.st.pc (.user 1) with
        | .own 5 1 0 (.copy 0 1), .own 7 0 0 (.del (some 5)), .own 6 0 0 .start =>
          decide (ls.st.dl 5 = some (.user 2) ∧ ls.mp 0 = some 0 ∧ ls.mp 1 = some 2)
        | _, _, _ => false) = true := by decide +kernel
  revert hx
  generalize hr : libRun _ _ = x
  cases x with
  | none => intro h; cases h
  | some ls =>
    intro hx
    refine ⟨ls, libRun_reach (fun _ _ => trivial) hr, ?_⟩
    revert hx
    simp only [Option.any_some]
    split
    · next h1 h2 h3 =>
      intro hx
      obtain ⟨h4, h5, h6⟩ := of_decide_eq_true hx
      exact ⟨h1, by rw [h1]; exact .copy .., h2, h4, h5, h6, h3⟩
    · intro hx; cases hx

end Asagi.Props
