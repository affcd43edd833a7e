import Verif.Model.CacheCount
import Verif.Spec.Sources
/-
Specification of C97: a record of all accesses, kept beside the execution. For each call of a getter it
notes the domain and the block, whether the cache of the domain had the block, and from where the
thread copied it. Nothing here refers to the counters.
-/
namespace Asagi.Spec
open Asagi
variable {β α : Type}

/-- One call of a getter. -/
structure Access where
  dom : Nat
  block : Nat
  /-- the domain itself had the block -/
  found : Bool
  /-- the places from which the thread copied the block, in order -/
  copies : List Source
deriving DecidableEq, Repr

/-- All calls: `calls d` for domain `d`; `run t` the call in which thread `t` is; `done` those that
have returned. -/
structure Ledger where
  calls : Nat → Nat
  run : Nat → Option Access
  done : List Access

/-- Nothing was called. -/
def Ledger.empty : Ledger := ⟨fun _ => 0, fun _ => none, []⟩

/-- The thread at this position copies the block from here. `ld`: where the blocks come from that no
cache has. -/
def copiesFrom (ld : Nat → Source) : Pc β → Option Source
  | .own _ _ _ (.numaCopy _ _ _) => some .domain
  | .own _ _ _ (.copy _ _) => some .process
  | .own _ _ _ (.recv _ _) => some .process
  | .own b _ _ (.load _) => some (ld b)
  | _ => none

/-- A step of thread `t` of domain `d` from position `p` to `p'`; `has b`: the cache of the domain has
block `b` before the step. -/
def Ledger.move (l : Ledger) (d t : Nat) (ld : Nat → Source) (has : Nat → Bool) :
    Pc β → Pc β → Ledger
  | .idle, .wantCm b _ =>
    { l with calls := upd l.calls d (l.calls d + 1), run := upd l.run t (some ⟨d, b, false, []⟩) }
  | .wantCm b _, .wantSlot _ _ _ _ =>
    { l with run := upd l.run t ((l.run t).map fun a => { a with found := has b }) }
  | .own _ _ _ _, .idle =>
    { l with run := upd l.run t none, done := l.done ++ (l.run t).toList }
  | p, p' =>
    if copiesFrom ld p' = copiesFrom ld p then l
    else match copiesFrom ld p' with
      | none => l
      | some k => { l with
          run := upd l.run t ((l.run t).map fun a => { a with copies := a.copies ++ [k] }) }

/-- An execution of a CACHE grid with all its domains and processes, from opening, with the record. -/
inductive CacheHistory (P : DistParams β) : CntState β → Ledger → Prop
  | opened (c : CacheList) : CacheList.init P.size P.handDiff = some c →
      CacheHistory P ⟨DistState.start P c, fun _ => {}⟩ .empty
  | user {s s' : CntState β} {l : Ledger} (t : Nat) : CacheHistory P s l → CacheCount P t s s' →
      CacheHistory P s' (l.move (P.dom t) t (fun _ => .file)
        (fun b => decide (some b ∈ (s.st.cl (P.dom t)).indexToBlock))
        (s.st.pc (.user t)) (s'.st.pc (.user t)))
  | comm {s : CntState β} {l : Ledger} {st' : DistState β} (r : Nat) : CacheHistory P s l →
      CommStep P r s.st st' → CacheHistory P ⟨st', s.c⟩ l

/-- Where a block of a distributed FULL grid comes from that no cache has: from the memory of the own
process if the domains communicate (`F.trans`), else by MPI. -/
def fullPlace (c : LevelCfg α) (F : FullCfg α) (t b : Nat) : Source :=
  if F.trans ≠ .no ∧ F.ds.blockRank c.totalBlocks b = F.dom t / F.ds.domains then .domain
  else .process

/-- An execution of a distributed FULL grid, from opening, with the record. -/
inductive FullHistory (c : LevelCfg α) (F : FullCfg α) (data : Nat → Mem α) :
    CntState α → Ledger → Prop
  | opened (cl : CacheList) : CacheList.init F.cacheSize F.handDiff = some cl →
      FullHistory c F data ⟨DistState.start (c.fullShared F) cl, fun _ => {}⟩ .empty
  | user {s s' : CntState α} {l : Ledger} (t : Nat) : FullHistory c F data s l →
      FullCount c F data t s s' →
      FullHistory c F data s' (l.move (F.dom t) t (fullPlace c F t)
        (fun b => decide (some b ∈ (s.st.cl (F.dom t)).indexToBlock))
        (s.st.pc (.user t)) (s'.st.pc (.user t)))
  /-- an access to a block of the own domain -/
  | own {s s' : CntState α} {l : Ledger} (t b : Nat) : FullHistory c F data s l →
      FullCountLocal c F t b s s' →
      FullHistory c F data s' { l with
        calls := upd l.calls (F.dom t) (l.calls (F.dom t) + 1)
        done := l.done ++ [⟨F.dom t, b, true, []⟩] }

/-- No getter is running in domain `d`. -/
def NoneIn (dom : Nat → Nat) (st : DistState β) (d : Nat) : Prop :=
  ∀ t, dom t = d → st.pc (.user t) = .idle

/-- The number of calls that have returned in domain `d` with a block copied from exactly these
places. -/
def Ledger.served (l : Ledger) (d : Nat) (from_ : List Source) : Nat :=
  l.done.countP fun a => decide (a.dom = d ∧ a.copies = from_)

/-- The number of calls that have returned in domain `d`. -/
def Ledger.returned (l : Ledger) (d : Nat) : Nat := l.done.countP fun a => decide (a.dom = d)

/-- The counter of a source. -/
def Source.counter : Source → CounterType
  | .here => .invalid
  | .domain => .numa
  | .process => .mpi
  | .file => .file

/-- The counters report these numbers of accesses, in total and by the place that served them
(`unsigned long`: modulo 2^64). -/
structure CountersTell (c : Counters) (calls here domain process file : Nat) : Prop where
  access : c.get .access = calls % ulongRange
  numa : c.get .numa = domain % ulongRange
  mpi : c.get .mpi = process % ulongRange
  fileLoads : c.get .file = file % ulongRange
  hit : c.get .hit = here % ulongRange
  nodeHit : c.get .nodeHit = (here + domain) % ulongRange
  miss : c.get .miss = (domain + process + file) % ulongRange

end Asagi.Spec
