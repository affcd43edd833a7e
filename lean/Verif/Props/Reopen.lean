import Verif.Model.Reopen
import Verif.Props.Values
/-
C74: opening a level again.

The property: after a successful `open` of a level, the getters of this level return the values of
the file opened last, whatever was done with the level before. It holds for FULL levels on one
process and for PASS_THROUGH levels (`C74_full`, `C74_pass`). For CACHE levels the theorems say
exactly which getters are right: those for blocks that the cache did not hold when the level was
opened again (`C74_cache_partial`); a block it held is delivered as zeros or from outside of
the cache (`C74_cache_stale_violated`).
-/
namespace Asagi.Props
open Asagi Asagi.Spec
variable {α : Type}

/-! ### FULL and PASS_THROUGH -/

/-- **C74**, FULL on one process: in any state `s`, that is after any history, a successful open and
any getters: the values are those of the file opened last. -/
theorem C74_full {fp : Fp} {cc : Bool} {nc : List NcAxis} {val : List Nat → α}
    {c : LevelCfg α} (h : Opened fp cc nc val c) (junk : α) (s : FullObj α) (cacheSize : Nat) (handDiff : Int)
    (ps : List (List Dbl)) (idxs : List (List Nat))
    (hidx : ps.map (pos2index fp (openAxes fp cc nc)) = idxs.map some) :
    ∃ s', s.run junk (.openOk c cacheSize handDiff :: ps.map .get) =
      some (s', none :: idxs.map (fun i => some (val i))) := by
  obtain ⟨m, e, hget⟩ := C05_full_value h ⟨1, 1, true⟩ rfl rfl
    (List.replicate (domainSize c ⟨1, 1, true⟩) junk) (by simp)
  have hrun : ∀ (ps : List (List Dbl)) (idxs : List (List Nat)),
      ps.map (pos2index fp (openAxes fp cc nc)) = idxs.map some →
      FullObj.run junk ⟨some c, m⟩ (ps.map .get) =
        some (⟨some c, m⟩, idxs.map (fun i => some (val i))) := by
    intro ps
    induction ps with
    | nil => intro idxs hi; cases idxs <;> simp_all [FullObj.run]
    | cons p ps ih =>
      intro idxs hi
      cases idxs with
      | nil => simp at hi
      | cons idx idxs =>
        simp only [List.map_cons, List.cons.injEq] at hi
        have h1 := hget p idx hi.1
        simp [FullObj.run, FullObj.step, h1, ih idxs hi.2]
  exact ⟨_, by simp [FullObj.run, FullObj.step, e, hrun ps idxs hidx]; rfl⟩

/-- **C74**, PASS_THROUGH. -/
theorem C74_pass {fp : Fp} {cc : Bool} {nc : List NcAxis} {val : List Nat → α}
    {c : LevelCfg α} (h : Opened fp cc nc val c) (junk : α) (s : PassObj α) (cacheSize : Nat) (handDiff : Int)
    (ps : List (List Dbl)) (idxs : List (List Nat))
    (hidx : ps.map (pos2index fp (openAxes fp cc nc)) = idxs.map some) :
    ∃ s', s.run junk (.openOk c cacheSize handDiff :: ps.map .get) =
      some (s', none :: idxs.map (fun i => some (val i))) := by
  obtain ⟨wf, hx, hfp, hax, hval⟩ := h.spec
  have hrun : ∀ (ps : List (List Dbl)) (idxs : List (List Nat)) (t : PassObj α),
      t.cfg = some c → t.buf.length = 1 →
      ps.map (pos2index fp (openAxes fp cc nc)) = idxs.map some →
      ∃ t', PassObj.run junk t (ps.map .get) = some (t', idxs.map (fun i => some (val i))) := by
    intro ps
    induction ps with
    | nil => intro idxs t _ _ hi; cases idxs <;> simp_all [PassObj.run]
    | cons p ps ih =>
      intro idxs t ht hl hi
      cases idxs with
      | nil => simp at hi
      | cons idx idxs =>
        simp only [List.map_cons, List.cons.injEq] at hi
        have hp := hi.1
        rw [← hax, ← hfp] at hp
        obtain ⟨buf', e, hl', -⟩ := passThroughGetAt_spec wf hx t.buf t.cnt 0 (by omega) hp
        obtain ⟨t', e'⟩ := ih idxs ⟨some c, buf', (t.cnt.inc .access).inc .file⟩ rfl
          (by simp [hl', hl]) hi.2
        exact ⟨t', by simp [PassObj.run, PassObj.step, ht, e, e', hval]⟩
  obtain ⟨t', e⟩ := hrun ps idxs ⟨some c, [junk], s.cnt⟩ rfl rfl hidx
  exact ⟨t', by simp [PassObj.run, PassObj.step, e]⟩

/-! ### CACHE -/

/-- Invariant of a cache that was initialised when `m_blockToIndex` had the entries `st`. -/
structure StaleOK (st : Nat → Option Nat) (c : LevelCfg α) (bc : BlockCache α) (h : Nat) :
    Prop where
  lru : LruInv bc.list.lru h
  tab : bc.list.indexToBlock.length = bc.list.lru.size
  len : bc.mem.length = bc.list.lru.size * c.totalBlockSize
  stale : ∀ b i, st b = some i → bc.list.blockToIndex b = some i
  back : ∀ (i b : Nat), bc.list.indexToBlock[i]? = some (some b) →
    st b = none ∧ bc.list.blockToIndex b = some i ∧ BlockOK c b bc.mem (i * c.totalBlockSize)
  fwd : ∀ b i, st b = none → bc.list.blockToIndex b = some i →
    bc.list.indexToBlock[i]? = some (some b)

theorem _root_.Asagi.BlockCache.reinit_ok (c : LevelCfg α) {cacheSize : Nat} {handDiff : Int} (zero : α)
    (hs : 0 < cacheSize) (hd : handDiff < cacheSize) (bc : BlockCache α) :
    ∃ bc' h, bc.reinit cacheSize c.totalBlockSize handDiff zero = some bc' ∧
      StaleOK bc.list.blockToIndex c bc' h ∧ bc'.list.lru.size = cacheSize ∧
      bc'.list.blockToIndex = bc.list.blockToIndex ∧
      bc'.mem = List.replicate (cacheSize * c.totalBlockSize) zero := by
  obtain ⟨l, h, e, inv, hsz, -⟩ := Lru.init_inv hs hd
  refine ⟨{ list := { lru := l, indexToBlock := List.replicate cacheSize none
                      blockToIndex := bc.list.blockToIndex }
            mem := List.replicate (cacheSize * c.totalBlockSize) zero }, h,
    by simp [BlockCache.reinit, CacheList.reinit, e],
    ⟨inv, by simp [hsz], by simp [hsz], fun _ _ h => h, ?_, ?_⟩, hsz, rfl, rfl⟩
  · intro i b hb
    simp only [List.getElem?_replicate] at hb
    split at hb <;> simp at hb
  · intro b i h1 h2
    rw [h1] at h2; simp at h2

/-- One getter on such a cache. -/
theorem StaleOK.getAt {st : Nat → Option Nat} {c : LevelCfg α} (wf : c.WF)
    (hx : SizesExact c.fp c.file.size) {s : CacheLevel α} {h : Nat} (ok : StaleOK st c s.cache h)
    {pos : List Dbl} {idx : List Nat} (hp : pos2index c.fp c.axes pos = some idx) :
    (st (blockByCoords c.geom idx) = none →
      ∃ s', cacheGetAt c s pos = some (s', c.file.val idx) ∧ StaleOK st c s'.cache h ∧
        s'.cache.list.lru.size = s.cache.list.lru.size) ∧
    (∀ i, st (blockByCoords c.geom idx) = some i → i < s.cache.list.lru.size →
      ∃ s' v, cacheGetAt c s pos = some (s', v) ∧ StaleOK st c s'.cache h ∧
        s'.cache.list.lru.size = s.cache.list.lru.size ∧
        s.cache.mem[i * c.totalBlockSize + calcOffsetInBlock c.geom idx]? = some v) ∧
    (∀ i, st (blockByCoords c.geom idx) = some i → s.cache.list.lru.size ≤ i →
      cacheGetAt c s pos = none) := by
  have hin := pos2index_inBox wf hx hp
  generalize hb : blockByCoords c.geom idx = b
  have hslot : ∀ i, i < s.cache.list.lru.size →
      i * c.totalBlockSize + c.totalBlockSize ≤ s.cache.mem.length := by
    intro i hi
    rw [ok.len]
    have : (i + 1) * c.totalBlockSize ≤ s.cache.list.lru.size * c.totalBlockSize :=
      Nat.mul_le_mul_right _ hi
    rw [Nat.add_mul] at this; omega
  -- the block has an entry in the table
  have hhit : ∀ i, s.cache.list.blockToIndex b = some i → i < s.cache.list.lru.size →
      ∃ l', s.cache.list.get b = .ok ({ s.cache.list with lru := l' }, i, some b) ∧
        StaleOK st c ⟨{ s.cache.list with lru := l' }, s.cache.mem⟩ h ∧
        l'.size = s.cache.list.lru.size := by
    intro i hi hlt
    obtain ⟨l', e, inv', s', -, -⟩ := ok.lru.access hlt
    refine ⟨l', by simp [CacheList.get, CacheList.getIndex, hi, e],
      ⟨inv', by simpa [s'] using ok.tab, by simpa [s'] using ok.len, ok.stale, ok.back, ok.fwd⟩, s'⟩
  have hread : ∀ i, s.cache.list.blockToIndex b = some i → i < s.cache.list.lru.size →
      ∃ s' v, cacheGetAt c s pos = some (s', v) ∧ StaleOK st c s'.cache h ∧
        s'.cache.list.lru.size = s.cache.list.lru.size ∧
        s.cache.mem[i * c.totalBlockSize + calcOffsetInBlock c.geom idx]? = some v := by
    intro i hi hlt
    obtain ⟨l', e, ok', hs'⟩ := hhit i hi hlt
    have hoff := (block_lt wf hin).2
    have hm := hslot i hlt
    obtain ⟨v, hv⟩ : ∃ v, s.cache.mem[i * c.totalBlockSize + calcOffsetInBlock c.geom idx]? =
        some v := ⟨_, List.getElem?_eq_getElem (by omega)⟩
    refine ⟨⟨⟨{ s.cache.list with lru := l' }, s.cache.mem⟩, s.cnt.inc .access⟩, v, ?_, ok', hs', hv⟩
    simp only [cacheGetAt, hp, Option.bind_eq_bind, Option.bind_some, hb, e, Res.toOption]
    simp [Mem.read, hv]
  refine ⟨?_, ?_, ?_⟩
  · intro hfresh
    cases hbi : s.cache.list.blockToIndex b with
    | some i =>
      have htab := ok.fwd b i hfresh hbi
      have hlt : i < s.cache.list.lru.size := by
        rw [← ok.tab]; exact (List.getElem?_eq_some_iff.mp htab).1
      obtain ⟨s', v, e1, e2, e3, e4⟩ := hread i hbi hlt
      have := (ok.back i b htab).2.2 idx hin hb
      rw [this] at e4
      injection e4 with e4
      exact ⟨s', by rw [e1, e4], e2, e3⟩
    | none =>
      obtain ⟨l1, k, f1, f2, f3, f4, f5, f6, f7, -⟩ :=
        getFreeLoop_spec h s.cache.list.lru ok.lru 0 (s.cache.list.lru.size + 1) (Nat.zero_le _)
          (by have := ok.lru.hsize; omega) (by intro j hj; omega)
      have hpg : l1.nextPage < l1.size := f2.page
      obtain ⟨l2, e2, inv2, s2, p2, r2⟩ := f2.access hpg
      have hlt : l1.nextPage < s.cache.list.indexToBlock.length := by
        rw [ok.tab, ← f3]; exact hpg
      obtain ⟨old, hold⟩ : ∃ o, s.cache.list.indexToBlock[l1.nextPage]? = some o :=
        ⟨_, List.getElem?_eq_getElem hlt⟩
      have hne : old ≠ some b := by
        intro he
        rw [he] at hold
        rw [(ok.back _ b hold).2.1] at hbi
        simp at hbi
      have hm := hslot l1.nextPage (by rw [← ok.tab]; exact hlt)
      have hlb : cacheLoadBlock c idx s.cache.mem (l1.nextPage * c.totalBlockSize) =
          getBlock c.file c.basic (blockOrigin c.geom b)
            (c.geom.map Dim.bs) s.cache.mem (l1.nextPage * c.totalBlockSize) := by
        unfold cacheLoadBlock
        rw [← hb, (addPos_origin wf.geom (by rw [wf.size]; exact hin)).1]
      obtain ⟨m', g1, g2, g3, g4⟩ := loadBlock_spec wf (hb ▸ (block_lt wf hin).1) s.cache.mem
        (l1.nextPage * c.totalBlockSize) hm
      have hv := g3 idx hin hb
      refine ⟨⟨⟨{ lru := l2
                  indexToBlock := s.cache.list.indexToBlock.set l1.nextPage (some b)
                  blockToIndex := fun x => if x = b then some l1.nextPage else
                    if some x = old then none else s.cache.list.blockToIndex x }, m'⟩,
        (s.cnt.inc .access).inc .file⟩, ?_, ?_, by simp [s2, f3]⟩
      · have hget : s.cache.list.get b = .ok (⟨l2, s.cache.list.indexToBlock.set l1.nextPage (some b),
            fun x => if x = b then some l1.nextPage else
              if some x = old then none else s.cache.list.blockToIndex x⟩, l1.nextPage, old) := by
          simp [CacheList.get, CacheList.getIndex, hbi, CacheList.getFreeIndex, Lru.getFree, f1,
            e2, hold]
        simp only [cacheGetAt, hp, Option.bind_eq_bind, Option.bind_some, hb, hget, Res.toOption,
          hne, ne_eq, not_false_eq_true, if_true, hlb, g1]
        simp [Mem.read, hv]
      · refine ⟨inv2, by simp [ok.tab, s2, f3], by simp [g2, ok.len, s2, f3], ?_, ?_, ?_⟩
        · intro x i hxi
          have hxb : x ≠ b := by rintro rfl; rw [hfresh] at hxi; simp at hxi
          have hxo : some x ≠ old := by
            intro he
            rw [← he] at hold
            rw [(ok.back _ x hold).1] at hxi; simp at hxi
          simp only [if_neg hxb, if_neg hxo]
          exact ok.stale x i hxi
        · intro i x hix
          simp only [List.getElem?_set] at hix
          split at hix
          · rename_i hpi
            subst hpi
            injection hix with hix; injection hix with hix; subst hix
            exact ⟨hfresh, by simp, g3⟩
          · rename_i hpi
            obtain ⟨q1, q2, q3⟩ := ok.back i x hix
            have hxb : x ≠ b := by rintro rfl; rw [hbi] at q2; simp at q2
            have hxo : some x ≠ old := by
              intro he
              rw [← he] at hold
              rw [(ok.back _ x hold).2.1] at q2
              injection q2 with q2
              exact hpi q2
            refine ⟨q1, by simp only [if_neg hxb, if_neg hxo]; exact q2, ?_⟩
            apply q3.mono wf
            intro y hy1 hy2
            exact g4 y (slot_disjoint hpi hy1 hy2)
        · intro x i hsx hxi
          simp only at hxi
          by_cases hxb : x = b
          · subst hxb
            simp only [if_true] at hxi
            injection hxi with hxi; subst hxi
            simp [hlt]
          · rw [if_neg hxb] at hxi
            split at hxi
            · simp at hxi
            · rename_i hxo
              have hxt := ok.fwd x i hsx hxi
              rw [List.getElem?_set_ne]
              · exact hxt
              · rintro rfl
                rw [hxt] at hold
                injection hold with hold
                exact hxo hold
  · intro i hi hlt
    exact hread i (ok.stale b i hi) hlt
  · intro i hi hge
    have hbi := ok.stale b i hi
    have : s.cache.list.get b = .ub := by
      simp only [CacheList.get, CacheList.getIndex, hbi, if_true, Lru.access, ok.lru.len]
      rw [if_neg (by omega)]
      rfl
    simp [cacheGetAt, hp, hb, this, Res.toOption]

/-- The block that holds the sample selected for `pos`, with the block structure of `c`. -/
def blockOf (c : LevelCfg α) (pos : List Dbl) : Option Nat :=
  (pos2index c.fp c.axes pos).map (blockByCoords c.geom)

/-- The object holds block `b` in its cache. -/
def _root_.Asagi.CacheObj.holds (s : CacheObj α) (b : Nat) : Prop := s.level.cache.list.blockToIndex b ≠ none

theorem _root_.Asagi.CacheObj.run_gets {st : Nat → Option Nat} {c : LevelCfg α} (wf : c.WF)
    (hx : SizesExact c.fp c.file.size) (zero : α) {h : Nat} (ps : List (List Dbl))
    (idxs : List (List Nat)) (s : CacheObj α)
    (hc : s.cfg = some c) (ok : StaleOK st c s.level.cache h)
    (hidx : ps.map (pos2index c.fp c.axes) = idxs.map some)
    (hst : ∀ idx ∈ idxs, ∀ i, st (blockByCoords c.geom idx) = some i →
      i < s.level.cache.list.lru.size) :
    ∃ s' vs, s.run zero (ps.map .get) = some (s', vs) ∧ vs.length = ps.length ∧
      ∀ (k : Nat) idx, idxs[k]? = some idx → st (blockByCoords c.geom idx) = none →
        vs[k]? = some (some (c.file.val idx)) := by
  induction ps generalizing idxs s with
  | nil =>
    cases idxs with
    | nil => exact ⟨s, [], by simp [CacheObj.run], rfl, by simp⟩
    | cons _ _ => simp at hidx
  | cons p ps ih =>
    cases idxs with
    | nil => simp at hidx
    | cons idx idxs =>
      simp only [List.map_cons, List.cons.injEq] at hidx
      obtain ⟨g1, g2, -⟩ := ok.getAt wf hx hidx.1
      have : ∃ l' v, cacheGetAt c s.level p = some (l', v) ∧ StaleOK st c l'.cache h ∧
          l'.cache.list.lru.size = s.level.cache.list.lru.size ∧
          (st (blockByCoords c.geom idx) = none → v = c.file.val idx) := by
        cases hb : st (blockByCoords c.geom idx) with
        | none =>
          obtain ⟨l', e1, e2, e3⟩ := g1 hb
          exact ⟨l', _, e1, e2, e3, fun _ => rfl⟩
        | some i =>
          obtain ⟨l', v, e1, e2, e3, -⟩ := g2 i hb (hst idx (by simp) i hb)
          exact ⟨l', v, e1, e2, e3, fun h => by simp at h⟩
      obtain ⟨l', v, e1, e2, e3, e4⟩ := this
      obtain ⟨s', vs, f1, f2, f3⟩ := ih idxs ⟨some c, l'⟩ rfl e2 hidx.2 (by
        intro idx' hi' i hi
        simp only [e3]
        exact hst idx' (by simp [hi']) i hi)
      refine ⟨s', some v :: vs, ?_, by simp [f2], ?_⟩
      · simp only [List.map_cons, CacheObj.run, CacheObj.step, hc, Option.bind_eq_bind,
          Option.bind_some, e1, Option.pure_def]
        rw [f1]; rfl
      · intro k idx' hk hst'
        cases k with
        | zero => simp at hk; subst hk; simp [e4 hst']
        | succ k => simp at hk; simpa using f3 k idx' hk hst'

/-- **C74**, CACHE, partial. The level object is in any state `s`, after any history, then it is opened
successfully and read. As long as no position is read whose block sits in a slot beyond the new
cache, all getters return, and each getter for a block that was not in the cache at the time of
the open returns the value of the file opened last. Missing: the blocks that were in the cache. -/
theorem C74_cache_partial {fp : Fp} {cc : Bool} {nc : List NcAxis} {val : List Nat → α}
    {c : LevelCfg α} (h : Opened fp cc nc val c) (zero : α) (s : CacheObj α)
    (cacheSize : Nat) (handDiff : Int) (h1 : 0 < cacheSize) (h2 : handDiff < cacheSize)
    (ps : List (List Dbl)) (idxs : List (List Nat))
    (hidx : ps.map (pos2index fp (openAxes fp cc nc)) = idxs.map some)
    (hslot : ∀ idx ∈ idxs, ∀ i,
      s.level.cache.list.blockToIndex (blockByCoords c.geom idx) = some i → i < cacheSize) :
    ∃ s' vs, s.run zero (.openOk c cacheSize handDiff :: ps.map .get) = some (s', none :: vs) ∧
      vs.length = ps.length ∧
      ∀ (k : Nat) idx, idxs[k]? = some idx → ¬ s.holds (blockByCoords c.geom idx) →
        vs[k]? = some (some (val idx)) := by
  obtain ⟨wf, hx, hfp, hax, hval⟩ := h.spec
  obtain ⟨bc', h', e, ok, hsz, hm, -⟩ := BlockCache.reinit_ok c zero h1 h2 s.level.cache
  rw [← hax, ← hfp] at hidx
  obtain ⟨s', vs, f1, f2, f3⟩ := CacheObj.run_gets wf hx zero ps idxs
    ⟨some c, ⟨bc', s.level.cnt⟩⟩ rfl ok hidx (by simpa [hsz] using hslot)
  refine ⟨s', vs, ?_, f2, ?_⟩
  · simp [CacheObj.run, CacheObj.step, e, f1]
  · intro k idx hk hn
    rw [← hval]
    exact f3 k idx hk (by simpa [CacheObj.holds] using hn)

/-- No getter in the history. -/
def NoGet (es : List (LevelEv α)) : Prop := ∀ e ∈ es, ∀ p, e ≠ .get p

theorem _root_.Asagi.CacheObj.noGet_empty (zero : α) (es : List (LevelEv α)) (hn : NoGet es)
    (s s' : CacheObj α) (out : List (Option α)) (hs : ∀ b, ¬ s.holds b)
    (hr : s.run zero es = some (s', out)) : ∀ b, ¬ s'.holds b := by
  induction es generalizing s out with
  | nil => simp [CacheObj.run] at hr; rw [← hr.1]; exact hs
  | cons e es ih =>
    simp only [CacheObj.run, Option.bind_eq_bind, Option.bind_eq_some_iff] at hr
    obtain ⟨⟨s1, o⟩, e1, ⟨s2, os⟩, e2, e3⟩ := hr
    simp at e3; obtain ⟨rfl, -⟩ := e3
    refine ih (fun x hx => hn x (by simp [hx])) s1 os ?_ e2
    cases e with
    | openFail =>
      simp [CacheObj.step] at e1; rw [← e1.1]; exact hs
    | openOk cfg cs hd =>
      simp only [CacheObj.step, Option.bind_eq_bind, Option.bind_eq_some_iff] at e1
      obtain ⟨bc, e1, e4⟩ := e1
      simp at e4; rw [← e4.1]
      simp only [BlockCache.reinit, CacheList.reinit, Option.bind_eq_bind,
        Option.bind_eq_some_iff] at e1
      obtain ⟨l, ⟨lru, -, e5⟩, e6⟩ := e1
      simp at e5 e6
      intro b
      have := hs b
      rw [← e6, ← e5]
      exact this
    | get p => exact absurd rfl (hn _ (by simp) p)

/-- **C74**, CACHE, in terms of the interface: an open may be repeated, in particular after
failures, as long as the level was not read before; then all getters return the values of the file
opened last. -/
theorem C74_cache_retry_partial {fp : Fp} {cc : Bool} {nc : List NcAxis} {val : List Nat → α}
    {c : LevelCfg α} (h : Opened fp cc nc val c) (zero : α) (before : List (LevelEv α))
    (hn : NoGet before) (s : CacheObj α) (out : List (Option α))
    (hs : CacheObj.constructed.run zero before = some (s, out))
    (cacheSize : Nat) (handDiff : Int) (h1 : 0 < cacheSize) (h2 : handDiff < cacheSize)
    (ps : List (List Dbl)) (idxs : List (List Nat))
    (hidx : ps.map (pos2index fp (openAxes fp cc nc)) = idxs.map some) :
    ∃ s', s.run zero (.openOk c cacheSize handDiff :: ps.map .get) =
      some (s', none :: idxs.map (fun i => some (val i))) := by
  have hempty := CacheObj.noGet_empty zero before hn _ s out
    (by simp [CacheObj.holds, CacheObj.constructed, BlockCache.constructed]) hs
  have hnone : ∀ b, s.level.cache.list.blockToIndex b = none := by
    intro b; simpa [CacheObj.holds] using hempty b
  obtain ⟨s', vs, e1, e2, e3⟩ := C74_cache_partial h zero s cacheSize handDiff h1 h2
    ps idxs hidx (by intro idx _ i hi; rw [hnone] at hi; simp at hi)
  have hlen : idxs.length = ps.length := by
    have := congrArg List.length hidx; simpa using this.symm
  refine ⟨s', ?_⟩
  rw [e1]
  congr 3
  apply List.ext_getElem?
  intro k
  rw [List.getElem?_map]
  cases hk : idxs[k]? with
  | none =>
    rw [List.getElem?_eq_none_iff] at hk
    simp; omega
  | some idx => simpa using e3 k idx hk (hempty _)

/-- **C74 is violated** for CACHE: a block that the cache held in slot `i` when the level was opened
again is not read from the new file. If the new cache has this slot, the first getter for any
position of the block returns zero whatever the new file contains; if it does not, the getter
accesses memory outside of the arrays. -/
theorem C74_cache_stale_violated {fp : Fp} {cc : Bool} {nc : List NcAxis} {val : List Nat → α}
    {c : LevelCfg α} (h : Opened fp cc nc val c) (zero : α) (s : CacheObj α)
    (cacheSize : Nat) (handDiff : Int) (h1 : 0 < cacheSize) (h2 : handDiff < cacheSize)
    (pos : List Dbl) (b i : Nat) (hpos : blockOf c pos = some b)
    (hheld : s.level.cache.list.blockToIndex b = some i) :
    (i < cacheSize → ∃ s', s.run zero [.openOk c cacheSize handDiff, .get pos] =
      some (s', [none, some zero])) ∧
    (cacheSize ≤ i → s.run zero [.openOk c cacheSize handDiff, .get pos] = none) := by
  obtain ⟨wf, hx, hfp, hax, hval⟩ := h.spec
  obtain ⟨bc', h', e, ok, hsz, hm, hmem⟩ := BlockCache.reinit_ok c zero h1 h2 s.level.cache
  simp only [blockOf, Option.map_eq_some_iff] at hpos
  obtain ⟨idx, hp, hb⟩ := hpos
  obtain ⟨-, g2, g3⟩ := StaleOK.getAt (s := ⟨bc', s.level.cnt⟩) wf hx ok hp
  rw [hb] at g2 g3
  constructor
  · intro hi
    obtain ⟨s', v, e1, -, -, e4⟩ := g2 i hheld (by simpa [hsz] using hi)
    simp only [hmem] at e4
    have hv : v = zero := by
      rw [List.getElem?_replicate] at e4
      split at e4
      · injection e4 with e4; exact e4.symm
      · simp at e4
    exact ⟨_, by simp [CacheObj.run, CacheObj.step, e, e1, hv]; rfl⟩
  · intro hi
    have := g3 i hheld (by simpa [hsz] using hi)
    simp [CacheObj.run, CacheObj.step, e, this]

/-! ### A concrete history -/

/-- The example file, opened with block size 2; its values are `f`. -/
def reopenCfg (f : List Nat → Nat) : LevelCfg Nat :=
  { fp := .exact, axes := openAxes .exact false exFile, file := ⟨[3, 5], f⟩,
    geom := [⟨3, 3⟩, ⟨5, 2⟩], basic := true, totalBlockSize := 6, totalBlocks := 3 }

theorem reopenCfg_opened (f : List Nat → Nat) :
    Opened .exact false exFile f (reopenCfg f) := by
  refine ⟨by simp [exFile], ?_, true, [2, 0, 0, 0], -1, ⟨[0,0,0,0], [0,0,0,0], 0, 0⟩, rfl⟩
  apply sizesExact_exact
  simp [exFile]

/-- The values delivered by a history. -/
def reopenOut (es : List (LevelEv Nat)) : Option (List (Option Nat)) :=
  (CacheObj.constructed.run 0 es).map Prod.snd

/-- **C74 is violated**: the level is opened with a file of ones, one value is read, then the
level is opened with a file of twos. A value of the same block is 0, a value of another block is
2. With a smaller cache than before the getter leaves the arrays. -/
theorem C74_cache_violated :
    reopenOut [.openFail, .openOk (reopenCfg fun _ => 1) 2 (-1), .get [.fin 0, .fin 10],
      .openOk (reopenCfg fun _ => 2) 2 (-1), .get [.fin 0, .fin 10], .get [.fin 4, .fin 7.5]] =
      some [none, none, some 1, none, some 0, some 2] ∧
    reopenOut [.openOk (reopenCfg fun _ => 1) 2 (-1), .get [.fin 0, .fin 10],
      .get [.fin 4, .fin 7.5], .openOk (reopenCfg fun _ => 2) 1 (-1), .get [.fin 4, .fin 7.5]] =
      none := by
  constructor <;> decide +kernel

/-- The hypotheses of the theorems are met by this history: retry after a failure. -/
example : ∃ s out, (CacheObj.constructed (α := Nat)).run 0 [.openFail, .openFail] = some (s, out) ∧
    NoGet ([.openFail, .openFail] : List (LevelEv Nat)) ∧
    ([[.fin 0, .fin 10], [.fin 4, .fin 7.5]] : List (List Dbl)).map
      (pos2index .exact (openAxes .exact false exFile)) = [[0, 0], [1, 4]].map some := by
  refine ⟨_, _, rfl, ?_, by decide +kernel⟩
  intro e he p
  simp at he
  subst he
  simp

/-- ... and reading between the opens. -/
example : ∃ s out, (CacheObj.constructed (α := Nat)).run 0
      [.openOk (reopenCfg fun _ => 1) 2 (-1), .get [.fin 0, .fin 10]] = some (s, out) ∧
    s.level.cache.list.blockToIndex 0 = some 0 ∧ s.level.cache.list.blockToIndex 2 = none ∧
    blockOf (reopenCfg fun _ => 2) [.fin 0, .fin 10] = some 0 := by
  have h : ((CacheObj.constructed (α := Nat)).run 0
      [.openOk (reopenCfg fun _ => 1) 2 (-1), .get [.fin 0, .fin 10]]).map
      (fun r => (r.1.level.cache.list.blockToIndex 0, r.1.level.cache.list.blockToIndex 2)) =
      some (some 0, none) := by decide +kernel
  cases hr : (CacheObj.constructed (α := Nat)).run 0
      [.openOk (reopenCfg fun _ => 1) 2 (-1), .get [.fin 0, .fin 10]] with
  | none => rw [hr] at h; simp at h
  | some r =>
    rw [hr] at h
    simp only [Option.map_some, Option.some.injEq, Prod.mk.injEq] at h
    exact ⟨r.1, r.2, rfl, h.1, h.2, by decide +kernel⟩

/-! ### Distributed FULL -/

/-- **C74**, FULL on several processes and domains, partial: opening again works if no process
holds a block of another one in its cache (that is, there were local accesses only). -/
theorem C74_fulldist_partial {fp : Fp} {cc : Bool} {nc : List NcAxis} {val : List Nat → α}
    {c : LevelCfg α} (h : Opened fp cc nc val c) (ds : Dist) (hr : 0 < ds.ranks)
    (hd : 0 < ds.domains) (t : NumaTrans) (hasMpi : Bool)
    (hreach : hasMpi = true ∨ (t ≠ .no ∧ ds.ranks = 1))
    (cacheSize : Nat) (handDiff : Int) (zero : α) (junk : Nat → Mem α) (h1 : 0 < cacheSize)
    (h2 : handDiff < cacheSize)
    (h3 : ∀ r, r < ds.ranks → (junk r).length = domainSize c ds * ds.domains)
    (s : FullDist α) (hempty : ∀ r d b, (s.cache r d).list.blockToIndex b = none)
    (ops : List DistOp) (idxs : List (List Nat)) (hops : ∀ o ∈ ops, o.rank < ds.ranks)
    (hidx : ops.map (fun o => pos2index fp (openAxes fp cc nc) o.pos) = idxs.map some) :
    ∃ s1 s2, fullDistReopen c ds cacheSize handDiff zero junk s = some s1 ∧
      fullDistRun c ds t hasMpi s1 ops = some (s2, idxs.map val) := by
  obtain ⟨wf, hx, hfp, hax, hval⟩ := h.spec
  obtain ⟨s0, e0, ok0, -⟩ := fullDistOpen_spec wf ds hr hd zero junk h1 h2 h3
  simp only [fullDistOpen, BlockCache.init, CacheList.init, Option.bind_eq_bind,
    Option.bind_eq_some_iff] at e0
  obtain ⟨data, ed, bc, ⟨cl, ⟨lru, el, ec⟩, eb⟩, es⟩ := e0
  simp at ec eb es
  refine ⟨{ s0 with cnt := s.cnt }, ?_⟩
  obtain ⟨s', e', -⟩ := fullDistRun_spec (s := { s0 with cnt := s.cnt }) wf hx ds hr hd t hasMpi
    hreach ops idxs ⟨ok0.len, ok0.data, ok0.cache⟩ hops (by rw [hax, hfp]; exact hidx)
  refine ⟨s', ?_, by rw [e', hval]⟩
  simp only [fullDistReopen, ed, el, Option.bind_eq_bind, Option.bind_some, Option.pure_def,
    Option.some.injEq]
  rw [← es, ← eb, ← ec]
  simp only [FullDist.mk.injEq, and_true]
  refine ⟨by simp, ?_⟩
  funext r d
  have : (s.cache r d).list.blockToIndex = fun _ => none := funext (hempty r d)
  rw [this]

/-- Values of a history on two processes: open, accesses `a`, open again, accesses `b`. -/
def reopenDist (f g : List Nat → Nat) (a b : List DistOp) : Option (List Nat × List Nat) := do
  let ds : Dist := ⟨2, 1, true⟩
  let junk : Nat → Mem Nat := fun _ => List.replicate 12 7
  let s ← fullDistOpen (reopenCfg f) ds 2 (-1) 0 junk
  let (s, u) ← fullDistRun (reopenCfg f) ds .no true s a
  let s ← fullDistReopen (reopenCfg g) ds 2 (-1) 0 junk s
  let (_, v) ← fullDistRun (reopenCfg g) ds .no true s b
  pure (u, v)

/-- **C74 is violated** for FULL on two processes: process 1 reads a value of process 0 before and
after the level is opened again; the second value is 0. The value it owns is right. -/
theorem C74_fulldist_violated :
    reopenDist (fun _ => 1) (fun _ => 2)
      [⟨1, 0, [.fin 0, .fin 10], fun _ => true⟩]
      [⟨1, 0, [.fin 0, .fin 10], fun _ => true⟩, ⟨0, 0, [.fin 0, .fin 10], fun _ => true⟩,
       ⟨1, 0, [.fin 4, .fin 7.5], fun _ => true⟩] =
      some ([1], [0, 2, 2]) := by
  decide +kernel

/-- A state without cached blocks: directly after the first open. -/
example : ∃ s : FullDist Nat, fullDistOpen (reopenCfg fun _ => 1) ⟨2, 1, true⟩ 2 (-1) 0
      (fun _ => List.replicate 12 7) = some s ∧
    (∀ r d b, (s.cache r d).list.blockToIndex b = none) ∧
    ∀ r, r < 2 → ((fun _ => List.replicate 12 7 : Nat → Mem Nat) r).length =
      domainSize (reopenCfg fun _ => 2) ⟨2, 1, true⟩ * 1 := by
  have h := fullDistOpen_spec (reopenCfg_opened fun _ => 1).spec.1 ⟨2, 1, true⟩ (by decide)
    (by decide) (cacheSize := 2) (handDiff := -1) 0 (fun _ => List.replicate 12 7) (by decide)
    (by decide) (by intro r _; rfl)
  obtain ⟨s, e, -, -⟩ := h
  refine ⟨s, e, ?_, by intro r _; rfl⟩
  intro r d b
  simp only [fullDistOpen, BlockCache.init, CacheList.init, Option.bind_eq_bind,
    Option.bind_eq_some_iff] at e
  obtain ⟨data, ed, bc, ⟨cl, ⟨lru, el, ec⟩, eb⟩, es⟩ := e
  simp at ec eb es
  rw [← es, ← eb, ← ec]

end Asagi.Props
