import Verif.Model.Levels
import Verif.Model.Trans
/-
PASS_THROUGH grids with several threads: `grid/level/passthrough.h` 97-122, one step per atomic action.
-/
namespace Asagi
variable {α : Type}

/-- Where a thread is in `PassThrough::getAt` (passthrough.h 105-122). -/
inductive PassPc (α : Type)
  | idle
  /-- before the lock of netCDF (netcdfreader.h 215) -/
  | want (pos : List Dbl)
  /-- in `nc_get_varm_*`, the lock is held -/
  | loading (pos : List Dbl)
  /-- before `convert` (passthrough.h 121) -/
  | loaded (pos : List Dbl)
  /-- `convert` has copied the value to the memory of the caller -/
  | ret (pos : List Dbl) (v : α)
  /-- an access outside of the buffer or an undefined position -/
  | fault (pos : List Dbl)

/-- The buffer of the level (`m_buf`, one value for each thread, passthrough.h 95-96), the owner of
`netcdfLock` (io/netcdfreader.h 215) and the threads. -/
structure PassState (α : Type) where
  buf : Mem α
  lock : Option Nat
  pc : Nat → PassPc α

/-- After passthrough.h 82-99, before the first getter. -/
def PassState.start (buf0 : Mem α) : PassState α := ⟨buf0, none, fun _ => .idle⟩

/-- `numa().threadId()` (numa.h 138-142) of thread `t`, if the threads `0 .. n - 1` have been registered, in
this order: `pthread_getspecific` returns a null pointer in the others. -/
def passSlot (n t : Nat) : Nat := if t < n then t else 0

/-- One step of a thread `t` with `may t`; `slot t` is its `threadId()`. passthrough.h 105-122. -/
inductive PassStep (c : LevelCfg α) (slot : Nat → Nat) (may : Nat → Prop) :
    PassState α → PassState α → Prop
  /-- a getter is called, passthrough.h 105 -/
  | call {s : PassState α} (t : Nat) (pos : List Dbl) (ht : may t) (hp : s.pc t = .idle) :
      PassStep c slot may s { s with pc := upd s.pc t (.want pos) }
  /-- the lock guard of `getBlock`, netcdfreader.h 215 -/
  | acquire {s : PassState α} (t : Nat) (pos : List Dbl) (hp : s.pc t = .want pos)
      (hl : s.lock = none) :
      PassStep c slot may s { s with pc := upd s.pc t (.loading pos), lock := some t }
  /-- `nc_get_varm_*` writes the buffer of this thread, not at once: meanwhile it may contain anything -/
  | scribble {s : PassState α} (t : Nat) (pos : List Dbl) (v : α) (hp : s.pc t = .loading pos) :
      PassStep c slot may s { s with buf := s.buf.set (slot t) v }
  /-- the value is complete and the lock is released, netcdfreader.h 215-218, passthrough.h 120 -/
  | load {s : PassState α} (t : Nat) (pos : List Dbl) (idx : List Nat) (buf' : Mem α)
      (hp : s.pc t = .loading pos) (hi : pos2index c.fp c.axes pos = some idx)
      (hb : getBlock c.file c.basic idx (c.file.size.map fun _ => 1) s.buf (slot t) = some buf') :
      PassStep c slot may s { s with buf := buf', lock := none, pc := upd s.pc t (.loaded pos) }
  /-- the position is undefined or the buffer is too small -/
  | loadFault {s : PassState α} (t : Nat) (pos : List Dbl) (hp : s.pc t = .loading pos)
      (hb : ∀ idx, pos2index c.fp c.axes pos = some idx →
        getBlock c.file c.basic idx (c.file.size.map fun _ => 1) s.buf (slot t) = none) :
      PassStep c slot may s { s with pc := upd s.pc t (.fault pos) }
  /-- `convert`, passthrough.h 121 -/
  | convert {s : PassState α} (t : Nat) (pos : List Dbl) (v : α) (hp : s.pc t = .loaded pos)
      (hv : s.buf.read (slot t) = some v) :
      PassStep c slot may s { s with pc := upd s.pc t (.ret pos v) }
  /-- the getter returns -/
  | leave {s : PassState α} (t : Nat) (pos : List Dbl) (v : α) (hp : s.pc t = .ret pos v) :
      PassStep c slot may s { s with pc := upd s.pc t .idle }

/-- The states of a PASS_THROUGH level whose buffer had the content `buf0` after `open`. passthrough.h 82-122. -/
def PassReach (c : LevelCfg α) (slot : Nat → Nat) (may : Nat → Prop) (buf0 : Mem α) :
    PassState α → Prop :=
  Reachable (· = PassState.start buf0) (PassStep c slot may)

end Asagi
