import Verif.Model.ManyComm
import Verif.Model.ManySessions
/-
Several grids, each from its `setParam` calls to the getters, some of them with the communication thread
(`Verif.Model.ManyComm`, `Verif.Model.ManySessions`).
-/
namespace Asagi
variable {α : Type}

/-- A level in which some accesses are only a read of memory that nobody writes (`LevelSys.withLocal`), fulldist.h
159-163. Such an access sends no message and does not wait for the communication thread. -/
def CommSys.withLocal (L : CommSys α) (read : Nat → List Dbl → Option α) : CommSys α :=
  { L.toLevelSys.withLocal read with
    sync := fun s s' =>
      (L.sync s.1 s'.1 ∧ s'.2 = s.2 ∧ ∀ t, L.busy s'.1 t → s.2 t = none) ∨
      (s'.1 = s.1 ∧ ∃ t, (¬ L.busy s.1 t ∧ s.2 t = none ∧ ∃ pos v, read t pos = some v ∧
          s'.2 = upd s.2 t (some v)) ∨
        (s.2 t ≠ none ∧ s'.2 = upd s.2 t none))
    tags := L.tags
    inbox := fun s => L.inbox s.1
    serving := fun s => L.serving s.1
    refused := fun s s' => L.refused s.1 s'.1 }

/-- A level whose getters are called by some threads only (`LevelSys.only`).
`threadId()` is defined only after numa.cpp 150. -/
def CommSys.only (L : CommSys α) (team : Nat → Prop) : CommSys α :=
  { L.toLevelSys.only team with
    sync := fun s s' => L.sync s s' ∧ ∀ t, L.busy s' t → ¬ L.busy s t → team t
    tags := L.tags
    inbox := L.inbox
    serving := L.serving
    refused := L.refused }

end Asagi
