import Verif.Model.CacheDist
import Verif.Model.Levels
/-
The shared caches of an opened level: grid/level/cachedist.h.
-/
namespace Asagi
variable {α : Type}

/-- What the user and the system choose for a shared cache level, see `DistParams`.
Arguments of `CacheDist::open`, cachedist.h 96-129. -/
structure SharedCfg (α : Type) where
  domains : Nat
  cacheSize : Nat
  handDiff : Int
  zero : α
  dom : Nat → Nat
  home : Nat → Nat
  mode : DistMode
  numa : Bool
  noop : Bool

/-- The shared caches of level `c`: a block is what `loadBlock` (cachedist.h 194, cache.h 157-171)
stores for it in an empty slot, `getBlock` is `NetCdfReader::getBlock`. Values outside of the grid
are not `inside`. -/
def LevelCfg.shared (c : LevelCfg α) (S : SharedCfg α) : DistParams α :=
  { domains := S.domains, size := S.cacheSize, handDiff := S.handDiff, cells := c.totalBlockSize
    file := fun b k =>
      match getBlock c.file c.basic (blockOrigin c.geom b) (c.geom.map Dim.bs)
        (List.replicate c.totalBlockSize S.zero) 0 with
      | some m => m.getD k S.zero
      | none => S.zero
    inside := fun b k => ∃ idx : List Nat, idx.length = c.file.size.length ∧
      (∀ (n i x : Nat), c.file.size[n]? = some i → idx[n]? = some x → x < i) ∧
      blockByCoords c.geom idx = b ∧ calcOffsetInBlock c.geom idx = k
    zero := S.zero, dom := S.dom, home := S.home, mode := S.mode, numa := fun _ _ => S.numa, noop := S.noop }

/-- A getter of a shared CACHE level is called by thread `t` for `pos`, cachedist.h 135-146: from
`st` to `st'`. -/
def GetterCalled (c : LevelCfg α) (t : Nat) (pos : List Dbl) (st st' : DistState α) : Prop :=
  ∃ idx, pos2index c.fp c.axes pos = some idx ∧ st.pc (.user t) = .idle ∧
    st' = { st with
      pc := upd st.pc (.user t) (.wantCm (blockByCoords c.geom idx) (calcOffsetInBlock c.geom idx)) }

/-- The getter of thread `t` returns the value `v` (cachedist.h 204-214): the next step of the
thread unlocks the slot and returns. -/
def GetterReturns (t : Nat) (st : DistState α) (v : α) : Prop :=
  ∃ b off s, st.pc (.user t) = .own b off s (.out v)

end Asagi
