import Verif.Model.CountInc
import Verif.Spec.CacheCount
/-
Executions of CACHE grids and distributed FULL grids with the record of all accesses of `Verif.Spec.CacheCount`, with increments of the counters as
in `Verif.Model.CountInc`.
-/
namespace Asagi.Spec
open Asagi
variable {β α : Type}

/-- An execution of a CACHE grid with all its domains and processes, from opening, with the record. The record depends on
the positions of the threads in the getters only, not on the counters. -/
inductive AddHistory (P : DistParams β) (locked : Bool) : AddState β → Ledger → Prop
  | opened (c : CacheList) : CacheList.init P.size P.handDiff = some c →
      AddHistory P locked ⟨DistState.start P c, fun _ => {}, fun _ _ => none, fun _ => .out⟩ .empty
  | user {s s' : AddState β} {l : Ledger} (t : Nat) : AddHistory P locked s l → AddUser P t s s' →
      AddHistory P locked s' (l.move (P.dom t) t (fun _ => .file)
        (fun b => decide (some b ∈ (s.st.cl (P.dom t)).indexToBlock))
        (s.st.pc (.user t)) (s'.st.pc (.user t)))
  | inc {s s' : AddState β} {l : Ledger} : AddHistory P locked s l → IncStep P.dom locked s s' →
      AddHistory P locked s' l
  | comm {s : AddState β} {l : Ledger} {st' : DistState β} (r : Nat) : AddHistory P locked s l →
      CommStep P r s.st st' → AddHistory P locked { s with st := st' } l

/-- An execution of a distributed FULL grid, from opening, with the record. -/
inductive AddFullHistory (c : LevelCfg α) (F : FullCfg α) (data : Nat → Mem α) (locked : Bool) :
    AddState α → Ledger → Prop
  | opened (cl : CacheList) : CacheList.init F.cacheSize F.handDiff = some cl →
      AddFullHistory c F data locked
        ⟨DistState.start (c.fullShared F) cl, fun _ => {}, fun _ _ => none, fun _ => .out⟩ .empty
  | user {s s' : AddState α} {l : Ledger} (t : Nat) : AddFullHistory c F data locked s l →
      AddFullUser c F data t s s' →
      AddFullHistory c F data locked s' (l.move (F.dom t) t (fullPlace c F t)
        (fun b => decide (some b ∈ (s.st.cl (F.dom t)).indexToBlock))
        (s.st.pc (.user t)) (s'.st.pc (.user t)))
  /-- an access to a block of the own domain -/
  | own {s s' : AddState α} {l : Ledger} (t b : Nat) : AddFullHistory c F data locked s l →
      AddFullLocal c F t b s s' →
      AddFullHistory c F data locked s' { l with
        calls := upd l.calls (F.dom t) (l.calls (F.dom t) + 1)
        done := l.done ++ [⟨F.dom t, b, true, []⟩] }
  | inc {s s' : AddState α} {l : Ledger} : AddFullHistory c F data locked s l → IncStep F.dom locked s s' →
      AddFullHistory c F data locked s' l

/-- Thread `t` has to increment counter `ty` and has not written it yet. -/
def Owes (s : AddState β) (t : Nat) (ty : CounterType) : Prop :=
  s.add t = .want ty ∨ s.add t = .locked ty ∨ ∃ v, s.add t = .got ty v

end Asagi.Spec
