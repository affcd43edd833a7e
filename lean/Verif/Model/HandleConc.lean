import Verif.Model.Trans
/-
The table of the Fortran handles with several threads: fortran/pointerarray.h as atomic actions. `add`
(lines 73-81) holds `m_lock`; `get` (86-92) and `remove` (97-103) do not. `std::vector::push_back` writes
the new entry if the capacity suffices; otherwise it fills a larger array, frees the old one and then
exchanges the pointers (the order of libstdc++). `m_pointers[i]` reads the pointer to the array, then the
entry.

The client keeps to the rules for handles: a handle is used after `create` has returned it, and not by
anybody else once its `close` has begun.
-/
namespace Asagi

/-- What a thread does. pointerarray.h 73-103. -/
inductive HPc where
  | idle
  /-- `create`, before the lock, pointerarray.h 77 -/
  | wait (p : Nat)
  /-- with the lock, before line 79 -/
  | locked (p : Nat)
  /-- the entry is written, the size is not changed yet -/
  | put (p : Nat)
  /-- the larger array `b` is filled -/
  | grown (p b : Nat)
  /-- the old array is freed -/
  | freed (p b : Nat)
  /-- `f2c` before the pointer to the array is read; `close`: it is the `f2c` of asagi_f90.cpp 210 -/
  | getting (h : Nat) (close : Bool)
  /-- before the entry is read -/
  | reading (h : Nat) (close : Bool) (b : Nat)
  /-- `remove`, before the pointer is read -/
  | removing (h : Nat)
  /-- before the entry is set to null -/
  | clearing (h b : Nat)
deriving DecidableEq, Repr

/-- The life of a handle. asagi_f90.cpp 46-75, 208-211. -/
inductive HSt where
  | unborn
  | «open»
  | closing (t : Nat)
  | closed
deriving DecidableEq, Repr

/-- `bufs`: the arrays (`none`: not allocated or freed), `len`: their lengths; `cur`, `size`, `cap`: the
vector; `made`: the handles returned so far with their grids; `log`: the results of `f2c`; `fault`: freed
memory or memory behind an array was used. pointerarray.h 61-66. -/
structure HState where
  bufs : Nat → Option (Nat → Option Nat)
  len : Nat → Nat
  cur : Nat
  size : Nat
  cap : Nat
  lock : Option Nat
  pc : Nat → HPc
  st : Nat → HSt
  made : List (Nat × Nat)
  log : List (Nat × Option Nat)
  fault : Bool

/-- The empty vector: no array (address 0). pointerarray.h 61. -/
def HState.init (s : HState) : Prop :=
  s = ⟨upd (fun _ => none) 0 (some fun _ => none), fun _ => 0, 0, 0, 0, none, fun _ => .idle, fun _ => .unborn, [], [], false⟩

/-- The handle that a thread reads or removes. pointerarray.h 86-103. -/
def HPc.uses : HPc → Option Nat
  | .getting h _ | .reading h _ _ | .removing h | .clearing h _ => some h
  | _ => none

/-- The thread is exchanging the array. pointerarray.h 79. -/
def HPc.grows : HPc → Bool
  | .grown _ _ | .freed _ _ => true
  | _ => false

/-- The steps. `rule`: handles are not used while the table grows. `newCap`: the growth of the vector.
pointerarray.h 73-103; lines at the steps. -/
inductive HStep (rule : Bool) (newCap : Nat → Nat) : HState → HState → Prop
  | create {s : HState} (t p : Nat) : s.pc t = .idle →
      HStep rule newCap s { s with pc := upd s.pc t (.wait p) }
  | lock {s : HState} (t p : Nat) : s.pc t = .wait p → s.lock = none →
      HStep rule newCap s { s with pc := upd s.pc t (.locked p), lock := some t }
  /-- `push_back` with room -/
  | put {s : HState} (t p : Nat) (f : Nat → Option Nat) : s.pc t = .locked p → s.size ≠ s.cap →
      s.bufs s.cur = some f →
      HStep rule newCap s { s with
        pc := upd s.pc t (.put p), bufs := upd s.bufs s.cur (some (upd f s.size (some p)))
        fault := s.fault || decide (s.len s.cur ≤ s.size) }
  /-- the size; `return m_pointers.size() - 1`, the end of the lock -/
  | bump {s : HState} (t p : Nat) : s.pc t = .put p →
      HStep rule newCap s { s with
        pc := upd s.pc t .idle, lock := none, size := s.size + 1, st := upd s.st s.size .open
        made := (s.size, p) :: s.made }
  /-- `push_back` without room: a larger array -/
  | grow {s : HState} (t p b : Nat) (f : Nat → Option Nat) : s.pc t = .locked p → s.size = s.cap →
      s.bufs s.cur = some f → s.bufs b = none → (rule = true → ∀ u, (s.pc u).uses = none) →
      HStep rule newCap s { s with
        pc := upd s.pc t (.grown p b)
        bufs := upd s.bufs b (some fun i => if i < s.size then f i else if i = s.size then some p else none)
        len := upd s.len b (newCap s.cap), fault := s.fault || decide (newCap s.cap ≤ s.size) }
  | free {s : HState} (t p b : Nat) : s.pc t = .grown p b →
      HStep rule newCap s { s with pc := upd s.pc t (.freed p b), bufs := upd s.bufs s.cur none }
  | exchange {s : HState} (t p b : Nat) : s.pc t = .freed p b →
      HStep rule newCap s { s with
        pc := upd s.pc t .idle, lock := none, cur := b, cap := newCap s.cap, size := s.size + 1
        st := upd s.st s.size .open, made := (s.size, p) :: s.made }
  /-- a function of the grid `h` is called -/
  | use {s : HState} (t h : Nat) : s.pc t = .idle → s.st h = .open →
      (rule = true → ∀ u, (s.pc u).grows = false) →
      HStep rule newCap s { s with pc := upd s.pc t (.getting h false) }
  /-- the grid `h` is closed; no other thread uses it -/
  | close {s : HState} (t h : Nat) : s.pc t = .idle → s.st h = .open → (∀ u, (s.pc u).uses ≠ some h) →
      (rule = true → ∀ u, (s.pc u).grows = false) →
      HStep rule newCap s { s with pc := upd s.pc t (.getting h true), st := upd s.st h (.closing t) }
  | readPtr {s : HState} (t h : Nat) (c : Bool) : s.pc t = .getting h c →
      HStep rule newCap s { s with pc := upd s.pc t (.reading h c s.cur) }
  | readEntry {s : HState} (t h b : Nat) (c : Bool) (f : Nat → Option Nat) : s.pc t = .reading h c b →
      s.bufs b = some f →
      HStep rule newCap s { s with
        pc := upd s.pc t (if c then .removing h else .idle), log := (h, f h) :: s.log
        fault := s.fault || decide (s.len b ≤ h) }
  | readFreed {s : HState} (t h b : Nat) (c : Bool) : s.pc t = .reading h c b → s.bufs b = none →
      HStep rule newCap s { s with pc := upd s.pc t .idle, fault := true }
  /-- `remove`; the array is read again -/
  | removePtr {s : HState} (t h : Nat) : s.pc t = .removing h →
      HStep rule newCap s { s with pc := upd s.pc t (.clearing h s.cur) }
  | clear {s : HState} (t h b : Nat) (f : Nat → Option Nat) : s.pc t = .clearing h b → s.bufs b = some f →
      HStep rule newCap s { s with
        pc := upd s.pc t .idle, bufs := upd s.bufs b (some (upd f h none)), st := upd s.st h .closed
        fault := s.fault || decide (s.len b ≤ h) }
  | clearFreed {s : HState} (t h b : Nat) : s.pc t = .clearing h b → s.bufs b = none →
      HStep rule newCap s { s with pc := upd s.pc t .idle, fault := true }

end Asagi
