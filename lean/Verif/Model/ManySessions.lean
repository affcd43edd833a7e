import Verif.Model.ManyLevels
import Verif.Model.SessionComm
/-
Several levels, of one or of several grids, each from its `setParam` calls to the getters, that are used at the
same time by the threads of several processes (`Verif.Model.Session`, `Verif.Model.ManyLevels`).

Levels with the communication thread are not included, as in `Verif.Model.ManyLevels`. If a level does not
communicate (MPI_COMMUNICATION=OFF, PASS_THROUGH), then each process has its own level object: it is one level of
the model for each process.
-/
namespace Asagi
variable {α : Type}

/-- A level in which some accesses are only a read of memory that nobody writes, and need no lock and no cache:
full.h 137-163, fulldist.h 159-163. `read t pos` is the value that thread `t` reads for a position, if it is such
an access. A thread that has read a value is about to return it. -/
def LevelSys.withLocal (L : LevelSys α) (read : Nat → List Dbl → Option α) : LevelSys α :=
  { S := L.S × (Nat → Option α)
    start := fun s => L.start s.1 ∧ ∀ t, s.2 t = none
    step := fun s s' =>
      (L.step s.1 s'.1 ∧ s'.2 = s.2 ∧ ∀ t, L.busy s'.1 t → s.2 t = none) ∨
      (s'.1 = s.1 ∧ ∃ t, (¬ L.busy s.1 t ∧ s.2 t = none ∧ ∃ pos v, read t pos = some v ∧
          s'.2 = upd s.2 t (some v)) ∨
        (s.2 t ≠ none ∧ s'.2 = upd s.2 t none))
    busy := fun s t => L.busy s.1 t ∨ s.2 t ≠ none
    uses := fun k s t => L.uses k s.1 t
    called := fun t pos s s' => (L.called t pos s.1 s'.1 ∧ s.2 t = none ∧ s'.2 = s.2) ∨
      (s'.1 = s.1 ∧ ¬ L.busy s.1 t ∧ s.2 t = none ∧ ∃ v, read t pos = some v ∧ s'.2 = upd s.2 t (some v))
    returns := fun t s v => L.returns t s.1 v ∨ s.2 t = some v }

/-- A level without any other accesses: FULL on one process and domain, full.h 137-163. -/
def LevelSys.none : LevelSys α :=
  { S := Unit, start := fun _ => True, step := fun _ _ => False, busy := fun _ _ => False,
    uses := fun _ _ _ => False, called := fun _ _ _ _ => False, returns := fun _ _ _ => False }

/-- A level whose getters are called by some threads only: those of the process of the level object, and only those
that have taken part in `open`. `threadId()` is defined only after numa.cpp 150. -/
def LevelSys.only (L : LevelSys α) (team : Nat → Prop) : LevelSys α :=
  { L with step := fun s s' => L.step s s' ∧ ∀ t, L.busy s' t → ¬ L.busy s t → team t }

instance (F : FullCfg α) (c : LevelCfg α) (t id : Nat) : Decidable (F.isLocal c t id) :=
  inferInstanceAs (Decidable (_ ∧ _))

/-- An opened level. grid.cpp 214-249. -/
structure OpenLevel (α : Type) where
  S : Session α
  K : CommNumbers
  sel : Selection
  c : LevelCfg α
  /-- the threads that call the getters -/
  team : Nat → Prop
  /-- the processes of the communicator with which the grid was opened, mpi/mpicomm.h 104-119 -/
  group : Ranks

/-- The value that a thread reads directly for a position, fulldist.h 151-163: if the block is in the memory of its
domain. -/
def OpenLevel.localRead (V : OpenLevel α) (s0 : FullDist α) (t : Nat) (pos : List Dbl) : Option α :=
  (pos2index V.c.fp V.c.axes pos).bind fun idx =>
    if (V.S.full V.sel).isLocal V.c t (blockByCoords V.c.geom idx) then
      fullGetAt V.c (V.S.dist V.sel) (s0.data (V.S.dom t / V.S.domains)) (V.S.dom t % V.S.domains) pos
    else none

end Asagi
