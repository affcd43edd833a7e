import Verif.Spec.CacheCount
/-
Specification of C98: what happens to the blocks of a CACHE grid, in the order in which it happens, kept
beside the execution.
-/
namespace Asagi.Spec
open Asagi
variable {β : Type}

/-- Something that happens to block `b` in domain `d`. -/
inductive Event where
  /-- a getter is called that needs the block -/
  | ask (d b : Nat)
  /-- a thread begins to copy the block into the cache of the domain, from here -/
  | fill (d b : Nat) (from_ : Source)
  /-- a thread takes the slot of the block for another block -/
  | evict (d b : Nat)
  /-- the getter returns -/
  | ret (d b : Nat)
deriving DecidableEq, Repr

/-- What a step of a thread of domain `d` from position `p` to `p'` does. -/
def events (d : Nat) : Pc β → Pc β → List Event
  | .idle, .wantCm b _ => [.ask d b]
  | .wantSlot b _ _ (some o), .own _ _ _ _ => if o = b then [] else [.evict d o]
  | .own b _ _ _, .idle => [.ret d b]
  | .own b off s ph, p' =>
    match copiesFrom (fun _ => .file) p' with
    | none => []
    | some k => if copiesFrom (fun _ => .file) (Pc.own b off s ph) = some k then [] else [.fill d b k]
  | _, _ => []

/-- An execution of a CACHE grid with all its domains and processes, from opening, with all events. -/
inductive EventHistory (P : DistParams β) : CntState β → List Event → Prop
  | opened (c : CacheList) : CacheList.init P.size P.handDiff = some c →
      EventHistory P ⟨DistState.start P c, fun _ => {}⟩ []
  | user {s s' : CntState β} {ev : List Event} (t : Nat) : EventHistory P s ev → CacheCount P t s s' →
      EventHistory P s' (ev ++ events (P.dom t) (s.st.pc (.user t)) (s'.st.pc (.user t)))
  | comm {s : CntState β} {ev : List Event} {st' : DistState β} (r : Nat) : EventHistory P s ev →
      CommStep P r s.st st' → EventHistory P ⟨st', s.c⟩ ev

/-- In a distributed FULL grid no block is read from the file after opening: a block that no cache has comes from the
memory of the own process if the domains communicate, else from the memory of another process. -/
def Event.inFull {α : Type} (c : LevelCfg α) (F : FullCfg α) : Event → Event
  | .fill d b .file => .fill d b
      (if F.trans ≠ .no ∧ F.ds.blockRank c.totalBlocks b = d / F.ds.domains then .domain else .process)
  | x => x

/-- An execution of a distributed FULL grid with all its domains and processes, from opening, with all events.
Accesses to blocks of the own domain do nothing with the cache and are left out. -/
inductive FullEvents {α : Type} (c : LevelCfg α) (F : FullCfg α) (data : Nat → Mem α) :
    DistState α → List Event → Prop
  | opened (cl : CacheList) : CacheList.init F.cacheSize F.handDiff = some cl →
      FullEvents c F data (DistState.start (c.fullShared F) cl) []
  | user {st st' : DistState α} {ev : List Event} (t : Nat) : FullEvents c F data st ev →
      FullStep c F data st st' → st'.pc (.user t) ≠ st.pc (.user t) →
      FullEvents c F data st'
        (ev ++ (events (F.dom t) (st.pc (.user t)) (st'.pc (.user t))).map (Event.inFull c F))

/-- Between two events of the first kind there is always one of the second kind. -/
def Between (R E : Event → Prop) (ev : List Event) : Prop :=
  ∀ pre x mid y post, ev = pre ++ x :: mid ++ y :: post → R x → R y → ∃ z ∈ mid, E z

/-- Block `b` is copied into the cache of domain `d`. -/
def FillOf (d b : Nat) (x : Event) : Prop := ∃ k, x = .fill d b k

/-- Block `b` is read from the file, by any domain of any process. -/
def ReadOf (b : Nat) (x : Event) : Prop := ∃ d, x = .fill d b .file

/-- Block `b` leaves the cache of any domain of any process. -/
def GoneOf (b : Nat) (x : Event) : Prop := ∃ d, x = .evict d b

/-- The blocks that a domain accesses fit into its cache, in each domain. -/
def Fits (P : DistParams β) (ev : List Event) : Prop :=
  ∀ d, ∃ S : List Nat, S.length ≤ P.size ∧ ∀ b, Event.ask d b ∈ ev → b ∈ S

/-- How often block `b` was read from the file. -/
def readCount (b : Nat) (ev : List Event) : Nat :=
  ev.countP fun x => match x with
    | .fill _ b' .file => decide (b' = b)
    | _ => false

/-- How often block `b` was copied into the cache of domain `d`. -/
def copyCount (d b : Nat) (ev : List Event) : Nat :=
  ev.countP fun x => match x with
    | .fill d' b' _ => decide (d' = d ∧ b' = b)
    | _ => false

/-- How many blocks were copied into the cache of domain `d`. -/
def fillCount (d : Nat) (ev : List Event) : Nat :=
  ev.countP fun x => match x with
    | .fill d' _ _ => decide (d' = d)
    | _ => false

/-- How many blocks domain `d` has read from the file. -/
def fileCount (d : Nat) (ev : List Event) : Nat :=
  ev.countP fun x => match x with
    | .fill d' _ .file => decide (d' = d)
    | _ => false

end Asagi.Spec
