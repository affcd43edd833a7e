import Verif.Model.MsgCache
import Verif.Spec.SharedCache
import Verif.Model.CacheDistLevel
/-
Specification vocabulary for the caches with the communication thread and the implemented messages.
-/
namespace Asagi.Spec
open Asagi
variable {β : Type}

/-- A legal configuration with the communication thread: legal caches; the four registered tags are
different (C37); the position of the directory entry of a block belongs to this block (C21); the
first level of the grid (`tagOffset` 0, see C38 for other levels). -/
structure LegalMsg (C : MsgParams β) : Prop where
  legal : Legal C.P
  thread : C.P.mode = .thread
  tags : [C.infoTag, C.xferTag, C.addTag, C.delTag].Nodup
  entry : ∀ b k, C.P.valid b k → C.blockAt (C.P.home b) (C.doff b) = b
  first : C.tagOffset = 0

/-- A step without a new call of a getter. -/
def MsgQuiet (C : MsgParams β) (early : Bool) (ms ms' : MsgSt β) : Prop :=
  MsgCacheStep C early ms ms' ∧ ∀ t, ms.st.pc (.user t) = .idle → ms'.st.pc (.user t) = .idle

/-- A negative answer to a request for a block is sent. -/
def MsgRefused (ms ms' : MsgSt β) : Prop :=
  ∃ r q m, ms'.mail r q = ms.mail r q ++ [m] ∧ m.val = .ack

/-- `n` steps without new calls, among them `f` refusals. -/
inductive MsgQuietRunF (C : MsgParams β) (early : Bool) : (n f : Nat) → MsgSt β → MsgSt β → Prop
  | zero (ms) : MsgQuietRunF C early 0 0 ms ms
  | served {n f ms ms1 ms2} : MsgQuietRunF C early n f ms ms1 → MsgQuiet C early ms1 ms2 →
      ¬ MsgRefused ms1 ms2 → MsgQuietRunF C early (n + 1) f ms ms2
  | refused {n f ms ms1 ms2} : MsgQuietRunF C early n f ms ms1 → MsgQuiet C early ms1 ms2 →
      MsgRefused ms1 ms2 → MsgQuietRunF C early (n + 1) (f + 1) ms ms2

/-- From `ms` to `ms'` by any steps of any thread, while thread `t` stays inside of one call of a
getter. -/
inductive MsgDuring (C : MsgParams β) (t : Nat) : MsgSt β → MsgSt β → Prop
  | refl (ms) : MsgDuring C t ms ms
  | tail {ms ms1 ms2} : MsgDuring C t ms ms1 → MsgCacheStep C true ms1 ms2 →
      ms2.st.pc (.user t) ≠ .idle → MsgDuring C t ms ms2

/-- The same contents of the caches, bookkeeping, directories and mutexes. -/
structure SameCaches (st a : DistState β) : Prop where
  cl : a.cl = st.cl
  cm : a.cm = st.cm
  lk : a.lk = st.lk
  data : a.data = st.data
  dir : a.dir = st.dir
  dl : a.dl = st.dl
  blk : a.blk = st.blk

/-- Thread `t` has asked process `r` for the directory entry of block `b`, and has no answer yet. -/
def AwaitsEntry (C : MsgParams β) (ms : MsgSt β) (r t b : Nat) : Prop :=
  C.P.home b = r ∧ (∃ off s, ms.st.pc (.user t) = .own b off s .start) ∧
    (ms.call t = .waitInfo ∨ ∃ k, ms.call t = .sendInfo k)

/-- Thread `t` has asked process `r` for block `b`, and has no answer yet. -/
def AwaitsBlock (ms : MsgSt β) (r t b : Nat) : Prop :=
  (∃ off s, ms.st.pc (.user t) = .own b off s (.ask r)) ∧
    (ms.call t = .waitXfer ∨ ∃ k, ms.call t = .sendXfer k)

/-- Thread `t` calls a getter for `pos`; nothing else happens. -/
def MsgCalled (c : LevelCfg β) (t : Nat) (pos : List Dbl) (ms ms' : MsgSt β) : Prop :=
  ∃ st', GetterCalled c t pos ms.st st' ∧ ms' = { ms with st := st' }

end Asagi.Spec
