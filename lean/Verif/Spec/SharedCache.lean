import Verif.Model.CacheDist
/-
Specification vocabulary for caches shared between threads, NUMA domains and processes: who reads
and writes which slot, in terms of the position of a thread in the program. The positions are those
of `Verif.Model.CacheDist`; nothing here refers to locks or to the bookkeeping.
-/
namespace Asagi.Spec
open Asagi
variable {β : Type}

/-- A legal configuration: at least one domain and one slot, and a hand spread below the number of
slots (see C13 for what happens otherwise). -/
structure Legal (P : DistParams β) : Prop where
  domains : 0 < P.domains
  size : 0 < P.size
  hand : P.handDiff < P.size

/-- The agent `a`, at position `p`, is reading slot `s` of domain `d` and takes it for block `b`. -/
inductive Reads (P : DistParams β) : (a : Agent) → (p : Pc β) → (d s b : Nat) → Prop
  /-- converts a value for the user -/
  | use (t b off s : Nat) : Reads P (.user t) (.own b off s .use) (P.dom t) s b
  /-- copies from another NUMA domain of the process -/
  | numa (t b off s i s' k : Nat) :
      Reads P (.user t) (.own b off s (.numaCopy i s' k)) (P.rankOf (P.dom t) * P.domains + i) s' b
  /-- copies from another process through the MPI window -/
  | window (t b off s e k : Nat) :
      Reads P (.user t) (.own b off s (.copy e k)) (P.entryDom e) (P.entrySlot e) b
  /-- the communication thread sends a block to another process -/
  | send (r t b i s k : Nat) (buf : Nat → β) :
      Reads P (.comm r) (.send t b i s k buf) (r * P.domains + i) s b

/-- The agent `a`, at position `p`, is writing slot `s` of domain `d`. -/
inductive Writes (P : DistParams β) : (a : Agent) → (p : Pc β) → (d s : Nat) → Prop
  | numa (t b off s i s' k : Nat) :
      Writes P (.user t) (.own b off s (.numaCopy i s' k)) (P.dom t) s
  | window (t b off s e k : Nat) : Writes P (.user t) (.own b off s (.copy e k)) (P.dom t) s
  | recv (t b off s k : Nat) (buf : Nat → β) :
      Writes P (.user t) (.own b off s (.recv buf k)) (P.dom t) s
  | load (t b off s k : Nat) : Writes P (.user t) (.own b off s (.load k)) (P.dom t) s

/-- The agent `a`, at position `p`, works with slot `s` of domain `d` of its own process: it is
between the return of the function that gave it the slot and the release of the slot. -/
inductive Uses (P : DistParams β) : (a : Agent) → (p : Pc β) → (d s : Nat) → Prop
  /-- the slot of the block that the user wants -/
  | own (t b off s : Nat) (ph : Phase β) : Uses P (.user t) (.own b off s ph) (P.dom t) s
  /-- the slot of another domain, while copying from it -/
  | numa (t b off s i s' k : Nat) :
      Uses P (.user t) (.own b off s (.numaCopy i s' k)) (P.rankOf (P.dom t) * P.domains + i) s'
  /-- the communication thread, while sending a block -/
  | send (r t b i s k : Nat) (buf : Nat → β) :
      Uses P (.comm r) (.send t b i s k buf) (r * P.domains + i) s

/-- Steps of the agent `a`. -/
def StepOf (P : DistParams β) : Agent → DistState β → DistState β → Prop
  | .user t => UserStep P t
  | .comm r => CommStep P r

/-- Slot `s` of domain `d` contains all values of block `b` that belong to the grid. -/
def Holds (P : DistParams β) (st : DistState β) (d s b : Nat) : Prop :=
  ∀ k, P.valid b k → st.data d s k = P.file b k

/-- The same state with another value in one cell of a slot of the caches. -/
def _root_.Asagi.DistState.poke (st : DistState β) (d s k : Nat) (v : β) : DistState β :=
  { st with data := setCell st.data d s k v }

/-- From `st` to `st'` by any steps of any thread, while thread `t` stays inside of one call of a
getter. -/
inductive During (P : DistParams β) (t : Nat) : DistState β → DistState β → Prop
  | refl (st) : During P t st st
  | tail {st st1 st2} : During P t st st1 → DistStep P st1 st2 → st2.pc (.user t) ≠ .idle →
      During P t st st2

/-- A step in which no new getter is called. -/
def Quiet (P : DistParams β) (st st' : DistState β) : Prop :=
  DistStep P st st' ∧ ∀ t, st.pc (.user t) = .idle → st'.pc (.user t) = .idle

/-- `n` steps without new calls. -/
inductive QuietRun (P : DistParams β) : Nat → DistState β → DistState β → Prop
  | zero (st) : QuietRun P 0 st st
  | succ {n st st1 st2} : QuietRun P n st st1 → Quiet P st1 st2 → QuietRun P (n + 1) st st2

/-- A step in which a request for a block is refused: a negative answer is sent to a thread. -/
def Refused (st st' : DistState β) : Prop :=
  ∃ t, st.box t ≠ some none ∧ st'.box t = some none

/-- `n` steps without new calls, among them `f` refusals. -/
inductive QuietRunF (P : DistParams β) : (n f : Nat) → DistState β → DistState β → Prop
  | zero (st) : QuietRunF P 0 0 st st
  | served {n f st st1 st2} : QuietRunF P n f st st1 → Quiet P st1 st2 → ¬ Refused st1 st2 →
      QuietRunF P (n + 1) f st st2
  | refused {n f st st1 st2} : QuietRunF P n f st st1 → Quiet P st1 st2 → Refused st1 st2 →
      QuietRunF P (n + 1) (f + 1) st st2

/-- An execution without new calls that ends only when nobody can continue: `σ n` is the state after
`n` steps, or the last state. -/
def Execution (P : DistParams β) (σ : Nat → DistState β) : Prop :=
  ∀ n, Quiet P (σ n) (σ (n + 1)) ∨ (σ (n + 1) = σ n ∧ ∀ st', ¬ Quiet P (σ n) st')

/-- A fair execution: no thread inside of a getter and no communication thread is stopped forever
while it can continue, and messages arrive. -/
structure Fair (P : DistParams β) (σ : Nat → DistState β) : Prop where
  users : ∀ t n, ∃ m, n ≤ m ∧ ((σ m).pc (.user t) = .idle ∨ UserStep P t (σ m) (σ (m + 1)) ∨
    ∀ st', ¬ UserStep P t (σ m) st')
  comm : ∀ r n, ∃ m, n ≤ m ∧ (CommStep P r (σ m) (σ (m + 1)) ∨ ∀ st', ¬ CommStep P r (σ m) st')
  mail : ∀ r r' n, (σ n).net r r' ≠ [] → ∃ m, n ≤ m ∧
    ((σ (m + 1)).net r r').length < ((σ m).net r r').length

end Asagi.Spec
