import Verif.Model.CacheDistLib
import Verif.Spec.SharedCache
/-
Specification vocabulary for builds with the lock of the MPI library.
-/
namespace Asagi.Spec
open Asagi
variable {β : Type}

/-- The thread, at position `p`, is (with MPI windows) inside of calls of MPI or between them: it
works on a directory entry or copies or loads a block between `startTransfer` and `endTransfer`. -/
inductive InMpi : (p : Pc β) → Prop
  | delete (b off s o : Nat) : InMpi (.own b off s (.delLocked o))
  | add (b off s : Nat) : InMpi (.own b off s .addLocked)
  | started (b off s : Nat) (e : Int) : InMpi (.own b off s (.xfer e))
  | copy (b off s e k : Nat) : InMpi (.own b off s (.copy e k))
  | load (b off s k : Nat) : InMpi (.own b off s (.load k))
  | finish (b off s : Nat) : InMpi (.own b off s .fin)

/-- A step without a new call. -/
def LibQuiet (P : DistParams β) (ls ls' : LibState β) : Prop :=
  LibStep P ls ls' ∧ ∀ t, ls.st.pc (.user t) = .idle → ls'.st.pc (.user t) = .idle

/-- `n` steps without new calls. -/
inductive LibQuietRun (P : DistParams β) : Nat → LibState β → LibState β → Prop
  | zero (ls : LibState β) : LibQuietRun P 0 ls ls
  | succ {n : Nat} {ls ls1 ls2 : LibState β} : LibQuietRun P n ls ls1 → LibQuiet P ls1 ls2 → LibQuietRun P (n + 1) ls ls2

end Asagi.Spec
