import Verif.Model.Blocked
/-
Specification vocabulary: how the blocks of a distributed grid are dealt out, one after the other. The
procedure is the one of `preprocess/test/test_index.py` 56-95, the tabulation against which the project
compares its formulas, for five sizes.
-/
namespace Asagi.Spec
open Asagi

/-- Process, domain of the process, place in the memory of the domain. -/
structure Place where
  node : Nat
  core : Nat
  offset : Nat
deriving Repr, DecidableEq

/-- Round robin: the process that gets the next block, the domain that gets the next block of each process, and how
many blocks each domain has got. -/
structure Dealer where
  node : Nat
  core : Nat → Nat
  offset : Nat → Nat → Nat

/-- Nobody has a block. -/
def Dealer.start : Dealer := ⟨0, fun _ => 0, fun _ _ => 0⟩

/-- Where the next block goes. -/
def Dealer.place (d : Dealer) : Place :=
  ⟨d.node, d.core d.node, d.offset d.node (d.core d.node)⟩

/-- The next block is given away, test_index.py 61-73. -/
def Dealer.next (nodes cores : Nat) (d : Dealer) : Dealer :=
  { node := (d.node + 1) % nodes
    core := fun n => if n = d.node then (d.core n + 1) % cores else d.core n
    offset := fun n c => if n = d.node ∧ c = d.core d.node then d.offset n c + 1 else d.offset n c }

/-- The dealer after `i` blocks. -/
def dealt (nodes cores : Nat) : Nat → Dealer
  | 0 => .start
  | i + 1 => (dealt nodes cores i).next nodes cores

/-- Block after block: a domain gets `size` blocks before the next one, test_index.py 84-95. -/
def Place.next (cores size : Nat) (p : Place) : Place :=
  if p.offset + 1 < size then { p with offset := p.offset + 1 }
  else if p.core + 1 < cores then { p with core := p.core + 1, offset := 0 }
  else ⟨p.node + 1, 0, 0⟩

/-- The place of block `i`. -/
def filled (cores size : Nat) : Nat → Place
  | 0 => ⟨0, 0, 0⟩
  | i + 1 => (filled cores size i).next cores size

/-- Where the library stores block `b`. -/
def placeOf (ds : Dist) (total b : Nat) : Place :=
  ⟨ds.blockRank total b, ds.blockDomain total b, ds.blockOffset total b⟩

/-- The number of blocks of domain `d` of process `r`. -/
def blocksOf (ds : Dist) (total r d : Nat) : Nat :=
  (List.range total).countP fun b => decide (ds.blockRank total b = r ∧ ds.blockDomain total b = d)

end Asagi.Spec
