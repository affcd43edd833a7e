import Verif.Model.OpenWhile
import Verif.Spec.ManyLevels
/-
Specification vocabulary for grids that are opened and closed while other grids are used.
-/
namespace Asagi.Spec
open Asagi
variable {α : Type} {G : Many α}

/-- Thread `t` calls collective operations. -/
def CallsCollective (P : MixParams) (prog : Nat → List Nat) (t : Nat) : Prop := ∃ c ∈ prog t, 0 < (P.kind c).rounds

/-- All processes open and close the grids in the same order (that of the numbers), and everybody who takes part in a
section does so. With THREADSAFE_MPI one thread of each process calls the collective operations (others may allocate
memory and create types, as the masters of the other domains do). `closes` are barriers. -/
structure OrderlyProgram (G : Many α) (P : MixParams) (prog : Nat → List Nat) : Prop where
  finite : ∃ M, ∀ t, M ≤ t → prog t = []
  sorted : ∀ t, (prog t).Pairwise (· < ·)
  members : ∀ c t, t ∈ P.members c ↔ c ∈ prog t
  one : P.lib = true → ∀ t u, CallsCollective P prog t → CallsCollective P prog u → G.rank t = G.rank u → t = u
  barrier : ∀ i, i < G.n → P.kind (P.closes i) = .barrier

/-- Thread `t` is inside of the MPI library: in a getter, or in a section of a kind in `K` while it opens or closes a
grid. -/
inductive InsideMpi (G : Many α) (P : MixParams) (K : MpiSection → Prop) (s : MixState G) (t : Nat) : Prop
  | getter (i : Nat) : i < G.n → InLibrary .mpi (G.L i) (s.lv i) t → InsideMpi G P K s t
  | opening (c : Nat) (rest : List Nat) : s.prog t = c :: rest → s.at_ t ≠ none → K (P.kind c) → InsideMpi G P K s t

/-- Thread `u` has not yet begun section `c`. -/
def NotBegun (s : MixState G) (c u : Nat) : Prop :=
  c ∈ s.prog u ∧ (s.at_ u ≠ none → (s.prog u).head? ≠ some c)

/-- Thread `u` has called the last collective operation of section `c`. -/
def CalledLast (P : MixParams) (s : MixState G) (c u : Nat) : Prop :=
  c ∈ s.prog u → ∃ rest j, s.prog u = c :: rest ∧ s.at_ u = some j ∧ (P.kind c).rounds ≤ j + 1

/-- Thread `t` is inside of a call: of a getter, or it has not yet completed the opening and closing of grids. -/
def StillBusy (G : Many α) (s : MixState G) (t : Nat) : Prop := ManyBusy G s.lv t ∨ s.prog t ≠ []

/-- A step without a new call of a getter. -/
def MixQuiet (G : Many α) (P : MixParams) (s s' : MixState G) : Prop :=
  MixStep G P s s' ∧ ∀ t, ManyBusy G s'.lv t → ManyBusy G s.lv t

/-- `n` steps without new calls of getters. -/
inductive MixQuietRun (G : Many α) (P : MixParams) : Nat → MixState G → MixState G → Prop
  | zero (s) : MixQuietRun G P 0 s s
  | succ {n s s1 s2} : MixQuietRun G P n s s1 → MixQuiet G P s1 s2 → MixQuietRun G P (n + 1) s s2

/-- Any steps while thread `t` stays inside of its call of a getter of level `i`. -/
inductive MixDuring (G : Many α) (P : MixParams) (i t : Nat) : MixState G → MixState G → Prop
  | refl (s) : MixDuring G P i t s s
  | tail {s s1 s2} : MixDuring G P i t s s1 → MixStep G P s1 s2 → (G.L i).busy (s2.lv i) t →
      MixDuring G P i t s s2

/-- A sequence of calls that all processes make in the same order. With THREADSAFE_MPI one thread of each process makes them.
`op i` is the call that opens level `i` and `cl i` the one that closes its grid. -/
structure OrderlyHistory (G : Many α) (lib : Bool) (cs : List LifeCall) (op cl : Nat → Option Nat) : Prop where
  one : lib = true → ∀ c ∈ cs, ∀ d ∈ cs, ∀ t ∈ c.threads, ∀ u ∈ d.threads, G.rank t = G.rank u → t = u
  opened : ∀ i k, i < G.n → op i = some k → ∃ ts hs l, cs[k]? = some (.open_ ts hs l)
  closed : ∀ i k, i < G.n → cl i = some k → ∃ ts ls, cs[k]? = some (.close ts ls)

end Asagi.Spec
