import Verif.Model.FailedOpen
/-
Specification of C94: an open that fails changes nothing.
-/
namespace Asagi.Spec
variable {α : Type}

/-- The errors that tell that something is wrong with the file or the variable. -/
def fileErrors : List Error :=
  [.NOT_OPEN, .VAR_NOT_FOUND, .UNSUPPORTED_DIMENSIONS, .INVALID_VAR_SIZE, .WRONG_SIZE]

/-- Memory allocation and MPI report errors of their own: numacomm.h 119, allocator/mpialloc.h 72,
transfer/mpiwinfull.h 140, transfer/mpiwincache.h 183-199, mpi/mpicomm.h 111-116, mpi/commthread.h 226-230. -/
def Resources.Real (res : Resources) : Prop :=
  res.alloc ∉ fileErrors ∧ res.cacheAlloc ∉ fileErrors ∧ res.transfer ∉ fileErrors

/-- The file cannot be opened, has no such variable or the variable has too many dimensions: no
failure because of the type. -/
def OnlyReader (es : List (KeptEv α)) : Prop := ∀ e ∈ es, ∀ f, e = .fail f → f = .reader

/-- The positions of the getters of a history. -/
def gets : List (KeptEv α) → List (List Dbl)
  | [] => []
  | .fail _ :: es => gets es
  | .get pos :: es => pos :: gets es

/-- The successful opens since the vector of levels was last enlarged beyond its capacity, with the
capacity, and whether or not the open that enlarged it failed. -/
def keptOpens : List (Nat × Option Nat × Nat) → Nat × List (Nat × Nat) :=
  List.foldl (fun x o =>
    let x := if o.1 < x.1 then x else (max (o.1 + 1) o.2.2, [])
    match o.2.1 with
    | some file => (x.1, x.2 ++ [(o.1, file)])
    | none => x) (0, [])

/-- The file opened last for a level. -/
def lastFile (opens : List (Nat × Nat)) (level : Nat) : Option Nat :=
  (opens.reverse.find? (fun o => o.1 = level)).map (fun o => o.2)

/-- The file opened last, successfully, for a level. -/
def lastSuccess (ops : List (Nat × Option Nat × Nat)) (level : Nat) : Option Nat :=
  lastFile (ops.filterMap fun o => o.2.1.map (fun f => (o.1, f))) level

end Asagi.Spec
