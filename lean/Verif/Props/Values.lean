import Verif.Proofs.Levels
import Verif.Props.Index
import Verif.Props.Cache
/-
The getters return the file's values: C05, C07, C08, C10; counters: C25; C14 at the API.

`val` is the content of the netCDF variable.  The theorems `..._value` hold for every
floating point rounding (`fp`) in which the dimension sizes are exact doubles; they say that
the getter returns the value at the index computed by `pos2index`.  Which index that is, is
C01; `..._nearest` combines both for arithmetic without rounding errors.
-/
namespace Asagi.Props
open Asagi Asagi.Spec
variable {α : Type}

/-- A netCDF file whose variable was opened as a level with the given settings. -/
structure Opened (fp : Fp) (cellCentered : Bool) (nc : List NcAxis) (val : List Nat → α)
    (c : LevelCfg α) : Prop where
  dims : nc ≠ []
  exact : SizesExact fp (nc.map NcAxis.size)
  opened : ∃ (basic : Bool) (param : List Int) (timeDim : Int) (junk : BlockedState),
    openLevel fp cellCentered nc val basic param timeDim junk = some c

theorem Opened.spec {fp : Fp} {cc : Bool} {nc : List NcAxis} {val : List Nat → α}
    {c : LevelCfg α} (h : Opened fp cc nc val c) :
    c.WF ∧ SizesExact c.fp c.file.size ∧ c.fp = fp ∧ c.axes = openAxes fp cc nc ∧
      c.file.val = val := by
  obtain ⟨basic, param, timeDim, junk, ho⟩ := h.opened
  obtain ⟨a1, a2, a3, a4, a5, a6, a7⟩ := openLevel_spec h.dims ho
  exact ⟨a1, by rw [a2, a4]; exact h.exact, a2, a3, a5⟩

/-- The example file opens with block size 2 in the fast dimension. -/
theorem exOpened : ∃ c, Opened .exact false exFile (fun i => i) c ∧
    c.geom = [⟨3, 3⟩, ⟨5, 2⟩] ∧ c.totalBlocks = 3 ∧ c.totalBlockSize = 6 := by
  refine ⟨{ fp := .exact, axes := openAxes .exact false exFile,
            file := ⟨[3, 5], fun i => i⟩, geom := [⟨3, 3⟩, ⟨5, 2⟩], basic := true,
            totalBlockSize := 6, totalBlocks := 3 }, ⟨by simp [exFile], ?_, true, [2, 0, 0, 0], -1,
            ⟨[0,0,0,0], [0,0,0,0], 0, 0⟩, rfl⟩, rfl, rfl, rfl⟩
  apply sizesExact_exact
  simp [exFile]

/-! ### FULL on one process and one domain -/

/-- **C05.** FULL on one process and domain: opening succeeds for any content of the new
memory, and afterwards each getter returns the file's value at the selected index. -/
theorem C05_full_value {fp : Fp} {cc : Bool} {nc : List NcAxis} {val : List Nat → α}
    {c : LevelCfg α} (h : Opened fp cc nc val c) (ds : Dist) (hr : ds.ranks = 1)
    (hd : ds.domains = 1) (mem0 : Mem α) (hm : mem0.length = domainSize c ds * ds.domains) :
    ∃ m, fullOpen c ds 0 mem0 = some m ∧
      ∀ pos idx, pos2index fp (openAxes fp cc nc) pos = some idx →
        fullGetAt c ds m 0 pos = some (val idx) := by
  obtain ⟨wf, hx, hfp, hax, hval⟩ := h.spec
  obtain ⟨m, e, -⟩ := fullOpen_spec wf ds 0 mem0 hm
  refine ⟨m, e, ?_⟩
  intro pos idx hp
  rw [← hax, ← hfp] at hp
  have hblt := (block_lt wf (pos2index_inBox wf hx hp)).1
  obtain ⟨o1, o2, -⟩ := Dist.owner_bounds (c := ds) (by omega) (by omega) hblt
  have ho1 : ds.blockRank c.totalBlocks (blockByCoords c.geom idx) = 0 := by omega
  have ho2 : ds.blockDomain c.totalBlocks (blockByCoords c.geom idx) = 0 := by omega
  have := (fullOpen_owned wf ds (by omega) (by omega) hblt mem0 m hm (by rw [ho1]; exact e)).2.1
  rw [ho2] at this
  rw [fullGetAt_spec wf hx ds m 0 hp this, hval]

/-- **C05** combined with C01. -/
theorem C05_full_nearest {cc : Bool} {nc : List NcAxis} {val : List Nat → α}
    {c : LevelCfg α} (h : Opened .exact cc nc val c) (hf : RegularFile nc) (ds : Dist)
    (hr : ds.ranks = 1) (hd : ds.domains = 1) (mem0 : Mem α)
    (hm : mem0.length = domainSize c ds * ds.domains) :
    ∃ m, fullOpen c ds 0 mem0 = some m ∧
      ∀ pos : List ℚ, pos.length = nc.length →
        ∃ idx, Selected nc pos idx ∧ fullGetAt c ds m 0 (pos.map .fin) = some (val idx) := by
  obtain ⟨m, e, hm⟩ := C05_full_value h ds hr hd mem0 hm
  refine ⟨m, e, fun pos hp => ?_⟩
  obtain ⟨idx, h1, h2, -⟩ := C01_nearest_sample cc nc hf pos hp
  exact ⟨idx, h2, hm _ _ h1⟩

example : ∃ c : LevelCfg (List Nat), Opened .exact false exFile (fun i => i) c ∧
    RegularFile exFile ∧
    (List.replicate 18 ([] : List Nat)).length = domainSize c ⟨1, 1, true⟩ * 1 := by
  obtain ⟨c, h, -, h2, h3⟩ := exOpened
  exact ⟨c, h, exFile_regular, by rw [domainSize, h2, h3]; decide⟩

/-! ### FULL on several processes and domains -/

/-- The states of a distributed FULL level that a history of accesses can reach. -/
def FullDistReach (c : LevelCfg α) (ds : Dist) (t : NumaTrans) (hasMpi : Bool)
    (s : FullDist α) : Prop :=
  ∃ (cacheSize : Nat) (handDiff : Int) (zero : α) (junk : Nat → Mem α) (s0 : FullDist α)
    (ops : List DistOp) (vs : List α), 0 < cacheSize ∧ handDiff < cacheSize ∧
    (∀ r, r < ds.ranks → (junk r).length = domainSize c ds * ds.domains) ∧
    fullDistOpen c ds cacheSize handDiff zero junk = some s0 ∧
    (∀ o ∈ ops, o.rank < ds.ranks ∧ o.domain < ds.domains) ∧
    fullDistRun c ds t hasMpi s0 ops = some (s, vs)

theorem fullDistRun_spec {c : LevelCfg α} (wf : c.WF) (hx : SizesExact c.fp c.file.size)
    (ds : Dist) (hr : 0 < ds.ranks) (hd : 0 < ds.domains) (t : NumaTrans) (hasMpi : Bool)
    (hreach : hasMpi = true ∨ (t ≠ .no ∧ ds.ranks = 1)) (ops : List DistOp)
    (idxs : List (List Nat)) {s : FullDist α} (ok : FullDistOK c ds s)
    (hops : ∀ o ∈ ops, o.rank < ds.ranks)
    (hidx : ops.map (fun o => pos2index c.fp c.axes o.pos) = idxs.map some) :
    ∃ s', fullDistRun c ds t hasMpi s ops = some (s', idxs.map c.file.val) ∧
      FullDistOK c ds s' ∧ ∀ r d, ∃ steps : List Counters,
        steps.length = (ops.filter fun o => o.rank = r ∧ o.domain = d).length ∧
        List.IsChain CntStep (s.cnt r d :: steps) ∧
        s'.cnt r d = (s.cnt r d :: steps).getLast (by simp) := by
  induction ops generalizing idxs s with
  | nil =>
    cases idxs with
    | nil => exact ⟨s, rfl, ok, fun r d => ⟨[], rfl, by simp, rfl⟩⟩
    | cons _ _ => simp at hidx
  | cons o ops ih =>
    cases idxs with
    | nil => simp at hidx
    | cons idx idxs =>
      simp only [List.map_cons, List.cons.injEq] at hidx
      obtain ⟨s1, cnt1, e1, ok1, hc1, hst⟩ := fullDistGetAt_spec wf hx ds hr hd t hasMpi hreach ok
        o.canLock o.rank o.domain (hops o (by simp)) hidx.1
      obtain ⟨s2, e2, ok2, hcnt⟩ := ih idxs ok1 (fun o ho => hops o (by simp [ho])) hidx.2
      refine ⟨s2, by simp [fullDistRun, e1, e2], ok2, ?_⟩
      intro r d
      obtain ⟨steps, l1, l2, l3⟩ := hcnt r d
      by_cases hrd : o.rank = r ∧ o.domain = d
      · obtain ⟨rfl, rfl⟩ := hrd
        have hs1 : s1.cnt o.rank o.domain = cnt1 := by rw [hc1]; simp [upd2]
        rw [hs1] at l2 l3
        refine ⟨cnt1 :: steps, by simp [l1], ?_, ?_⟩
        · exact List.IsChain.cons_cons hst l2
        · rw [l3, List.getLast_cons_cons]
      · have hs1 : s1.cnt r d = s.cnt r d := by
          rw [hc1]; simp only [upd2]; rw [if_neg]; rintro ⟨rfl, rfl⟩; exact hrd ⟨rfl, rfl⟩
        rw [hs1] at l2 l3
        refine ⟨steps, ?_, l2, l3⟩
        rw [l1, List.filter_cons_of_neg]
        simpa using hrd

/-- Every access of a successful run has a defined index. -/
theorem fullDistRun_indices {c : LevelCfg α} (ds : Dist) (t : NumaTrans) (hasMpi : Bool)
    (ops : List DistOp) {s s' : FullDist α} {vs : List α}
    (h : fullDistRun c ds t hasMpi s ops = some (s', vs)) :
    ∃ idxs : List (List Nat), ops.map (fun o => pos2index c.fp c.axes o.pos) = idxs.map some := by
  induction ops generalizing s vs with
  | nil => exact ⟨[], rfl⟩
  | cons o ops ih =>
    simp only [fullDistRun, Option.bind_eq_bind, Option.bind_eq_some_iff] at h
    obtain ⟨⟨s1, v⟩, h1, ⟨s2, vs2⟩, h2, h3⟩ := h
    simp at h3; obtain ⟨rfl, -⟩ := h3
    obtain ⟨idxs, hi⟩ := ih h2
    simp only [fullDistGetAt, Option.bind_eq_bind, Option.bind_eq_some_iff] at h1
    obtain ⟨idx, hidx, -⟩ := h1
    exact ⟨idx :: idxs, by simp [hidx, hi]⟩

theorem FullDistReach.ok {fp : Fp} {cc : Bool} {nc : List NcAxis} {val : List Nat → α}
    {c : LevelCfg α} (h : Opened fp cc nc val c) {ds : Dist} (hr : 0 < ds.ranks)
    (hd : 0 < ds.domains) {t : NumaTrans} {hasMpi : Bool}
    (hreach : hasMpi = true ∨ (t ≠ .no ∧ ds.ranks = 1)) {s : FullDist α}
    (hs : FullDistReach c ds t hasMpi s) : FullDistOK c ds s := by
  obtain ⟨wf, hx, hfp, hax, hval⟩ := h.spec
  obtain ⟨cs, hdf, zero, junk, s0, ops, vs, h1, h2, h3, h4, h5, h6⟩ := hs
  obtain ⟨s0', e0, ok0, -⟩ := fullDistOpen_spec wf ds hr hd zero junk h1 h2 h3
  rw [e0] at h4; cases h4
  obtain ⟨idxs, hi⟩ := fullDistRun_indices ds t hasMpi ops h6
  obtain ⟨s', e, ok', -⟩ := fullDistRun_spec wf hx ds hr hd t hasMpi hreach ops idxs ok0
    (fun o ho => (h5 o ho).1) hi
  rw [e] at h6; cases h6
  exact ok'

/-- **C07.** A FULL level distributed over any number of processes and domains: opening
succeeds, and after any history of accesses by all processes and domains, a getter on any
process and domain returns the file's value at the selected index. `hreach`: blocks of other
processes can be fetched with MPI, or there is one process and the domains exchange blocks
(C30 shows that the library selects only such implementations). `canLock` decides which
try-locks on other domains' caches succeed: it is arbitrary. -/
theorem C07_fulldist_value {fp : Fp} {cc : Bool} {nc : List NcAxis} {val : List Nat → α}
    {c : LevelCfg α} (h : Opened fp cc nc val c) (ds : Dist) (hr : 0 < ds.ranks)
    (hd : 0 < ds.domains) (t : NumaTrans) (hasMpi : Bool)
    (hreach : hasMpi = true ∨ (t ≠ .no ∧ ds.ranks = 1)) :
    (∀ (cacheSize : Nat) (handDiff : Int) (zero : α) (junk : Nat → Mem α), 0 < cacheSize →
      handDiff < cacheSize →
      (∀ r, r < ds.ranks → (junk r).length = domainSize c ds * ds.domains) →
      ∃ s, fullDistOpen c ds cacheSize handDiff zero junk = some s) ∧
    ∀ s, FullDistReach c ds t hasMpi s → ∀ canLock rank domain pos idx, rank < ds.ranks →
      pos2index fp (openAxes fp cc nc) pos = some idx →
      ∃ s', fullDistGetAt c ds t hasMpi s canLock rank domain pos = some (s', val idx) := by
  obtain ⟨wf, hx, hfp, hax, hval⟩ := h.spec
  constructor
  · intro cs hdf zero junk h1 h2 h3
    obtain ⟨s, e, -⟩ := fullDistOpen_spec wf ds hr hd zero junk h1 h2 h3
    exact ⟨s, e⟩
  · intro s hs canLock rank domain pos idx hrank hp
    rw [← hax, ← hfp] at hp
    obtain ⟨s', cnt', e, -⟩ := fullDistGetAt_spec wf hx ds hr hd t hasMpi hreach
      (hs.ok h hr hd hreach) canLock rank domain hrank hp
    exact ⟨s', by rw [e, hval]⟩

/-- The whole history at once: the values returned are the file's values. -/
theorem C07_fulldist_history {fp : Fp} {cc : Bool} {nc : List NcAxis} {val : List Nat → α}
    {c : LevelCfg α} (h : Opened fp cc nc val c) (ds : Dist) (hr : 0 < ds.ranks)
    (hd : 0 < ds.domains) (t : NumaTrans) (hasMpi : Bool)
    (hreach : hasMpi = true ∨ (t ≠ .no ∧ ds.ranks = 1))
    (cacheSize : Nat) (handDiff : Int) (zero : α) (junk : Nat → Mem α) (h1 : 0 < cacheSize)
    (h2 : handDiff < cacheSize)
    (h3 : ∀ r, r < ds.ranks → (junk r).length = domainSize c ds * ds.domains)
    (ops : List DistOp) (idxs : List (List Nat)) (hops : ∀ o ∈ ops, o.rank < ds.ranks)
    (hidx : ops.map (fun o => pos2index fp (openAxes fp cc nc) o.pos) = idxs.map some) :
    ∃ s s', fullDistOpen c ds cacheSize handDiff zero junk = some s ∧
      fullDistRun c ds t hasMpi s ops = some (s', idxs.map val) := by
  obtain ⟨wf, hx, hfp, hax, hval⟩ := h.spec
  obtain ⟨s, e, ok, -⟩ := fullDistOpen_spec wf ds hr hd zero junk h1 h2 h3
  rw [← hax, ← hfp] at hidx
  obtain ⟨s', e', -⟩ := fullDistRun_spec wf hx ds hr hd t hasMpi hreach ops idxs ok hops hidx
  exact ⟨s, s', e, by rw [e', hval]⟩

/-- Two processes with two domains; process 1 reads samples owned by others, hits its cache
and evicts; the hypotheses of C07 are met and the values are those of the file. -/
example : ∃ c : LevelCfg (List Nat), Opened .exact false exFile (fun i => i) c ∧
    (∀ r, r < 2 → ((fun _ => List.replicate 12 ([] : List Nat)) r).length =
      domainSize c ⟨2, 2, true⟩ * 2) ∧
    [pos2index .exact (openAxes .exact false exFile) [.fin 0, .fin 10],
     pos2index .exact (openAxes .exact false exFile) [.fin 4, .fin 7.5]] =
      [[0, 0], [1, 4]].map some := by
  obtain ⟨c, h, -, h2, h3⟩ := exOpened
  exact ⟨c, h, by intro r _; rw [domainSize, h2, h3]; simp [Dist.localBlockCount], by decide +kernel⟩

/-! ### CACHE -/

/-- States of a CACHE level that a history of accesses can reach. -/
def CacheReach (c : LevelCfg α) (s : CacheLevel α) : Prop :=
  ∃ (cacheSize : Nat) (handDiff : Int) (zero : α) (bc : BlockCache α)
    (ps : List (List Dbl)) (vs : List α), 0 < cacheSize ∧ handDiff < cacheSize ∧
    BlockCache.init cacheSize c.totalBlockSize handDiff zero = some bc ∧
    cacheRun c ⟨bc, {}⟩ ps = some (s, vs)

/-- The number of requests that were not answered with "block present". -/
def missCount : List Nat → List (Option Nat) → Nat
  | b :: bs, o :: os => (if o = some b then 0 else 1) + missCount bs os
  | _, _ => 0

theorem cacheRun_spec {c : LevelCfg α} (wf : c.WF) (hx : SizesExact c.fp c.file.size)
    {h : Nat} (ps : List (List Dbl)) (idxs : List (List Nat)) {s : CacheLevel α}
    (ok : CacheOK c s.cache h)
    (hidx : ps.map (pos2index c.fp c.axes) = idxs.map some) :
    ∃ s' outs, cacheRun c s ps = some (s', idxs.map c.file.val) ∧ CacheOK c s'.cache h ∧
      s.cache.list.run (idxs.map (blockByCoords c.geom)) = .ok (s'.cache.list, outs) ∧
      ∃ steps : List Counters, steps.length = ps.length ∧
        List.IsChain CntStep (s.cnt :: steps) ∧ s'.cnt = (s.cnt :: steps).getLast (by simp) ∧
        s'.cnt.numa = s.cnt.numa ∧ s'.cnt.mpi = s.cnt.mpi ∧
        s'.cnt.file % ulongRange = (s.cnt.file +
          missCount (idxs.map (blockByCoords c.geom)) (outs.map Prod.snd)) % ulongRange := by
  induction ps generalizing idxs s with
  | nil =>
    cases idxs with
    | nil => exact ⟨s, [], rfl, ok, rfl, [], rfl, by simp, rfl, rfl, rfl, rfl⟩
    | cons _ _ => simp at hidx
  | cons p ps ih =>
    cases idxs with
    | nil => simp at hidx
    | cons idx idxs =>
      simp only [List.map_cons, List.cons.injEq] at hidx
      obtain ⟨s1, e1, ok1, hst, slot, old, hget, hcnt⟩ := cacheGetAt_spec wf hx ok hidx.1
      obtain ⟨s2, outs, e2, ok2, hrun, steps, l1, l2, l3, l4, l5, l6⟩ := ih idxs ok1 hidx.2
      refine ⟨s2, (slot, old) :: outs, by simp [cacheRun, e1, e2], ok2, ?_, s1.cnt :: steps,
        by simp [l1], List.IsChain.cons_cons hst l2, by rw [l3, List.getLast_cons_cons],
        ?_, ?_, ?_⟩
      · simp [CacheList.run, hget, hrun]
      · rw [l4, hcnt]; split <;> simp [Counters.inc]
      · rw [l5, hcnt]; split <;> simp [Counters.inc]
      · rw [l6, hcnt]
        simp only [List.map_cons, missCount]
        split
        · simp [Counters.inc]
        · simp only [Counters.inc]
          rw [Nat.mod_add_mod]
          congr 1
          omega

theorem cacheRun_indices {c : LevelCfg α} (ps : List (List Dbl)) {s s' : CacheLevel α}
    {vs : List α} (h : cacheRun c s ps = some (s', vs)) :
    ∃ idxs : List (List Nat), ps.map (pos2index c.fp c.axes) = idxs.map some := by
  induction ps generalizing s vs with
  | nil => exact ⟨[], rfl⟩
  | cons p ps ih =>
    simp only [cacheRun, Option.bind_eq_bind, Option.bind_eq_some_iff] at h
    obtain ⟨⟨s1, v⟩, h1, ⟨s2, vs2⟩, h2, h3⟩ := h
    simp at h3; obtain ⟨rfl, -⟩ := h3
    obtain ⟨idxs, hi⟩ := ih h2
    simp only [cacheGetAt, Option.bind_eq_bind, Option.bind_eq_some_iff] at h1
    obtain ⟨idx, hidx, -⟩ := h1
    exact ⟨idx :: idxs, by simp [hidx, hi]⟩

theorem CacheReach.ok {fp : Fp} {cc : Bool} {nc : List NcAxis} {val : List Nat → α}
    {c : LevelCfg α} (h : Opened fp cc nc val c) {s : CacheLevel α}
    (hs : CacheReach c s) : ∃ h, CacheOK c s.cache h := by
  obtain ⟨wf, hx, hfp, hax, hval⟩ := h.spec
  obtain ⟨cs, hdf, zero, bc, ps, vs, h1, h2, h3, h4⟩ := hs
  obtain ⟨bc', h', e, ok⟩ := BlockCache.init_ok c zero h1 h2
  rw [e] at h3; cases h3
  obtain ⟨idxs, hi⟩ := cacheRun_indices ps h4
  obtain ⟨s', outs, e', ok', -⟩ := cacheRun_spec wf hx (s := ⟨bc, {}⟩) ps idxs ok hi
  rw [e'] at h4; cases h4
  exact ⟨h', ok'⟩

/-- **C08.** CACHE: after any history of accesses a getter returns the file's value at the
selected index, for every cache size ≥ 1, legal hand spread and block size. -/
theorem C08_cache_value {fp : Fp} {cc : Bool} {nc : List NcAxis} {val : List Nat → α}
    {c : LevelCfg α} (h : Opened fp cc nc val c) :
    (∀ (cacheSize : Nat) (handDiff : Int) (zero : α), 0 < cacheSize → handDiff < cacheSize →
      ∃ bc, BlockCache.init cacheSize c.totalBlockSize handDiff zero = some bc) ∧
    ∀ s, CacheReach c s → ∀ pos idx, pos2index fp (openAxes fp cc nc) pos = some idx →
      ∃ s', cacheGetAt c s pos = some (s', val idx) := by
  obtain ⟨wf, hx, hfp, hax, hval⟩ := h.spec
  constructor
  · intro cs hdf zero h1 h2
    obtain ⟨bc', h', e, ok⟩ := BlockCache.init_ok c zero h1 h2
    exact ⟨bc', e⟩
  · intro s hs pos idx hp
    rw [← hax, ← hfp] at hp
    obtain ⟨h', ok⟩ := hs.ok h
    obtain ⟨s', e, -⟩ := cacheGetAt_spec wf hx ok hp
    exact ⟨s', by rw [e, hval]⟩

/-- The whole history at once. -/
theorem C08_cache_history {fp : Fp} {cc : Bool} {nc : List NcAxis} {val : List Nat → α}
    {c : LevelCfg α} (h : Opened fp cc nc val c) (cacheSize : Nat) (handDiff : Int) (zero : α)
    (h1 : 0 < cacheSize) (h2 : handDiff < cacheSize) (ps : List (List Dbl))
    (idxs : List (List Nat))
    (hidx : ps.map (pos2index fp (openAxes fp cc nc)) = idxs.map some) :
    ∃ bc s', BlockCache.init cacheSize c.totalBlockSize handDiff zero = some bc ∧
      cacheRun c ⟨bc, {}⟩ ps = some (s', idxs.map val) := by
  obtain ⟨wf, hx, hfp, hax, hval⟩ := h.spec
  obtain ⟨bc, h', e, ok⟩ := BlockCache.init_ok c zero h1 h2
  rw [← hax, ← hfp] at hidx
  obtain ⟨s', outs, e', -⟩ := cacheRun_spec wf hx (s := ⟨bc, {}⟩) ps idxs ok hidx
  exact ⟨bc, s', e, by rw [e', hval]⟩

example : ∃ c : LevelCfg (List Nat), Opened .exact false exFile (fun i => i) c ∧
    ([[.fin 0, .fin 10], [.fin 4, .fin 7.5], [.fin 1, .fin (-3)]] : List (List Dbl)).map
      (pos2index .exact (openAxes .exact false exFile)) =
      [[0, 0], [1, 4], [2, 1]].map some := by
  obtain ⟨c, h, -⟩ := exOpened
  exact ⟨c, h, by decide +kernel⟩

/-! ### All grid types agree -/

/-- The value position changes the reported range only. -/
theorem pos2index_valuePosition (fp : Fp) (cc cc' : Bool) (nc : List NcAxis) (pos : List Dbl) :
    pos2index fp (openAxes fp cc nc) pos = pos2index fp (openAxes fp cc' nc) pos := by
  have hdim : ∀ a p, pos2indexDim fp (openAxis fp cc a) p =
      pos2indexDim fp (openAxis fp cc' a) p := by
    intro a p
    obtain ⟨h1, h2, h3⟩ := openAxis_members fp cc a
    obtain ⟨h1', h2', h3'⟩ := openAxis_members fp cc' a
    simp only [pos2indexDim, h1, h2, h3, h1', h2', h3']
  simp only [pos2index, openAxes, List.length_map, List.getElem?_map]
  congr 1
  funext i
  rcases nc[i]? with _ | a
  · rfl
  · simp only [Option.map_some, Option.bind_eq_bind, Option.bind_some]
    congr 1
    funext p
    exact hdim a p

/-- **C10.** The same file opened as distributed FULL grid, as CACHE grid and with
PASS_THROUGH, with different block sizes (`c1`, `c2`, `c3`), value positions, distributions,
transfer methods, cache sizes, hand spreads and access histories: all getters return the
same value for the same position. -/
theorem C10_grid_types_agree {fp : Fp} {nc : List NcAxis} {val : List Nat → α}
    {cc1 cc2 cc3 : Bool} {c1 c2 c3 : LevelCfg α}
    (h1 : Opened fp cc1 nc val c1) (h2 : Opened fp cc2 nc val c2) (h3 : Opened fp cc3 nc val c3)
    (ds : Dist) (hr : 0 < ds.ranks) (hd : 0 < ds.domains) (t : NumaTrans) (hasMpi : Bool)
    (hreach : hasMpi = true ∨ (t ≠ .no ∧ ds.ranks = 1))
    (s1 : FullDist α) (hs1 : FullDistReach c1 ds t hasMpi s1)
    (s2 : CacheLevel α) (hs2 : CacheReach c2 s2)
    (buf : Mem α) (cnt : Counters) (thread : Nat) (ht : thread < buf.length)
    (canLock : Nat → Bool) (rank domain : Nat) (hrank : rank < ds.ranks)
    (pos : List Dbl) (idx : List Nat)
    (hp : pos2index fp (openAxes fp false nc) pos = some idx) :
    (fullDistGetAt c1 ds t hasMpi s1 canLock rank domain pos).map Prod.snd = some (val idx) ∧
    (cacheGetAt c2 s2 pos).map Prod.snd = some (val idx) ∧
    (passThroughGetAt c3 buf cnt thread pos).map (fun r => r.2.2) = some (val idx) := by
  refine ⟨?_, ?_, ?_⟩
  · obtain ⟨s', e⟩ := (C07_fulldist_value h1 ds hr hd t hasMpi hreach).2 s1 hs1 canLock rank domain
      pos idx hrank (by rw [pos2index_valuePosition fp cc1 false]; exact hp)
    simp [e]
  · obtain ⟨s', e⟩ := (C08_cache_value h2).2 s2 hs2 pos idx
      (by rw [pos2index_valuePosition fp cc2 false]; exact hp)
    simp [e]
  · obtain ⟨wf, hx, hfp, hax, hval⟩ := h3.spec
    obtain ⟨buf', e, -⟩ := passThroughGetAt_spec wf hx buf cnt thread ht
      (by rw [hax, hfp, pos2index_valuePosition fp cc3 false]; exact hp)
    simp [e, hval]

/-- **C10** in terms of the specification: for files with equidistant samples and any finite
position, all grid types return the value of the nearest sample. -/
theorem C10_grid_types_nearest {nc : List NcAxis} {val : List Nat → α} (hf : RegularFile nc)
    {cc1 cc2 cc3 : Bool} {c1 c2 c3 : LevelCfg α}
    (h1 : Opened .exact cc1 nc val c1) (h2 : Opened .exact cc2 nc val c2)
    (h3 : Opened .exact cc3 nc val c3)
    (ds : Dist) (hr : 0 < ds.ranks) (hd : 0 < ds.domains) (t : NumaTrans) (hasMpi : Bool)
    (hreach : hasMpi = true ∨ (t ≠ .no ∧ ds.ranks = 1))
    (s1 : FullDist α) (hs1 : FullDistReach c1 ds t hasMpi s1)
    (s2 : CacheLevel α) (hs2 : CacheReach c2 s2)
    (buf : Mem α) (cnt : Counters) (thread : Nat) (ht : thread < buf.length)
    (canLock : Nat → Bool) (rank domain : Nat) (hrank : rank < ds.ranks)
    (pos : List ℚ) (hlen : pos.length = nc.length) :
    ∃ idx, Selected nc pos idx ∧
    (fullDistGetAt c1 ds t hasMpi s1 canLock rank domain (pos.map .fin)).map Prod.snd =
      some (val idx) ∧
    (cacheGetAt c2 s2 (pos.map .fin)).map Prod.snd = some (val idx) ∧
    (passThroughGetAt c3 buf cnt thread (pos.map .fin)).map (fun r => r.2.2) =
      some (val idx) := by
  obtain ⟨idx, hp, hsel, -⟩ := C01_nearest_sample false nc hf pos hlen
  exact ⟨idx, hsel, C10_grid_types_agree h1 h2 h3 ds hr hd t hasMpi hreach s1 hs1 s2 hs2 buf cnt
    thread ht canLock rank domain hrank _ idx hp⟩

/-- Reachable states exist for the example file. -/
example : ∃ (c : LevelCfg (List Nat)) (s1 : FullDist (List Nat)) (s2 : CacheLevel (List Nat)),
    Opened .exact false exFile (fun i => i) c ∧ FullDistReach c ⟨2, 2, true⟩ .full true s1 ∧
    CacheReach c s2 := by
  obtain ⟨c, h, hg, h2, h3⟩ := exOpened
  have hj : ∀ r, r < 2 → ((fun _ => List.replicate 12 ([] : List Nat)) r).length =
      domainSize c ⟨2, 2, true⟩ * 2 := by
    intro r _; rw [domainSize, h2, h3]; simp [Dist.localBlockCount]
  have hidx : [[Dbl.fin 0, Dbl.fin 10], [Dbl.fin 4, Dbl.fin 7.5]].map
      (pos2index .exact (openAxes .exact false exFile)) = [[0, 0], [1, 4]].map some := by
    decide +kernel
  obtain ⟨s, s', e, e'⟩ := C07_fulldist_history h ⟨2, 2, true⟩ (by decide) (by decide) .full true
    (Or.inl rfl) 3 1 [] (fun _ => List.replicate 12 []) (by decide) (by decide) hj
    [⟨1, 0, [.fin 0, .fin 10], fun _ => true⟩, ⟨0, 1, [.fin 4, .fin 7.5], fun _ => true⟩]
    [[0, 0], [1, 4]] (by simp) (by simpa using hidx)
  obtain ⟨bc, s2, e2, e2'⟩ := C08_cache_history h 2 (-1) [] (by decide) (by decide) _ _ hidx
  exact ⟨c, s', s2, h, ⟨3, 1, [], _, s, _, _, by decide, by decide, hj, e, by simp, e'⟩,
    ⟨2, -1, [], bc, _, _, by decide, by decide, e2, e2'⟩⟩

/-! ### Counters -/

/-- What the counter interface must report after `n` accesses. -/
structure CountersOK (cnt : Counters) (n : Nat) : Prop where
  accesses : cnt.get .access = n
  misses : cnt.get .miss = cnt.get .numa + cnt.get .mpi + cnt.get .file
  hits : cnt.get .hit + cnt.get .miss = n
  nodeHits : cnt.get .nodeHit = cnt.get .hit + cnt.get .numa

theorem chain_counters (steps : List Counters) (cnt : Counters)
    (hc : List.IsChain CntStep (cnt :: steps)) (h1 : cnt.numa + cnt.mpi + cnt.file ≤ cnt.access)
    (h2 : cnt.access + steps.length < ulongRange) :
    let l := (cnt :: steps).getLast (by simp)
    l.access = cnt.access + steps.length ∧ l.numa + l.mpi + l.file ≤ l.access := by
  induction steps generalizing cnt with
  | nil => simpa using h1
  | cons x xs ih =>
    rw [List.isChain_cons_cons] at hc
    simp only [List.length_cons] at h2
    have hx : x.access = cnt.access + 1 ∧ x.numa + x.mpi + x.file ≤ x.access := by
      have m1 : (cnt.access + 1) % ulongRange = cnt.access + 1 := Nat.mod_eq_of_lt (by omega)
      have m2 : (cnt.numa + 1) % ulongRange = cnt.numa + 1 := Nat.mod_eq_of_lt (by omega)
      have m3 : (cnt.mpi + 1) % ulongRange = cnt.mpi + 1 := Nat.mod_eq_of_lt (by omega)
      have m4 : (cnt.file + 1) % ulongRange = cnt.file + 1 := Nat.mod_eq_of_lt (by omega)
      rcases hc.1 with rfl | rfl | rfl | rfl <;> refine ⟨?_, ?_⟩ <;>
        simp only [Counters.inc, m1, m2, m3, m4] <;> omega
    have := ih x hc.2 hx.2 (by rw [hx.1]; omega)
    simp only [List.getLast_cons_cons, List.length_cons]
    refine ⟨?_, this.2⟩
    have := this.1
    omega

theorem ulongSub_eq {a b : Nat} (ha : a < ulongRange) (hb : b ≤ a) : ulongSub a b = a - b := by
  unfold ulongSub
  rw [Nat.mod_eq_of_lt (by omega : b < ulongRange)]
  rw [show a + (ulongRange - b) = (a - b) + ulongRange by omega, Nat.add_mod_right,
    Nat.mod_eq_of_lt (by omega)]

theorem countersOK_of {cnt : Counters} {n : Nat} (h1 : cnt.access = n)
    (h2 : cnt.numa + cnt.mpi + cnt.file ≤ cnt.access) (h3 : n < ulongRange) :
    CountersOK cnt n := by
  have e1 : ulongSub cnt.access cnt.numa = cnt.access - cnt.numa := ulongSub_eq (by omega) (by omega)
  have e2 : ulongSub (cnt.access - cnt.numa) cnt.mpi = cnt.access - cnt.numa - cnt.mpi :=
    ulongSub_eq (by omega) (by omega)
  have e3 : ulongSub (cnt.access - cnt.numa - cnt.mpi) cnt.file =
    cnt.access - cnt.numa - cnt.mpi - cnt.file := ulongSub_eq (by omega) (by omega)
  have e4 : ulongSub cnt.access cnt.mpi = cnt.access - cnt.mpi := ulongSub_eq (by omega) (by omega)
  have e5 : ulongSub (cnt.access - cnt.mpi) cnt.file = cnt.access - cnt.mpi - cnt.file :=
    ulongSub_eq (by omega) (by omega)
  have e6 : (cnt.numa + cnt.mpi + cnt.file) % ulongRange = cnt.numa + cnt.mpi + cnt.file :=
    Nat.mod_eq_of_lt (by omega)
  refine ⟨h1, ?_, ?_, ?_⟩ <;> simp only [Counters.get, e1, e2, e3, e4, e5, e6] <;> omega

/-- **C25**, CACHE: after any history of fewer than 2^64 accesses, the counters account for
each access; blocks come from the file only, and the number of file loads is the number of
requests for which the block was not present. -/
theorem C25_cache_counters {fp : Fp} {cc : Bool} {nc : List NcAxis} {val : List Nat → α}
    {c : LevelCfg α} (h : Opened fp cc nc val c) (cacheSize : Nat) (handDiff : Int) (zero : α)
    (h1 : 0 < cacheSize) (h2 : handDiff < cacheSize) (bc : BlockCache α)
    (hbc : BlockCache.init cacheSize c.totalBlockSize handDiff zero = some bc)
    (ps : List (List Dbl)) (s : CacheLevel α) (vs : List α)
    (hrun : cacheRun c ⟨bc, {}⟩ ps = some (s, vs)) (hn : ps.length < 2 ^ 64) :
    CountersOK s.cnt ps.length ∧ s.cnt.get .numa = 0 ∧ s.cnt.get .mpi = 0 := by
  obtain ⟨wf, hx, hfp, hax, hval⟩ := h.spec
  obtain ⟨bc', h', e, ok⟩ := BlockCache.init_ok c zero h1 h2
  rw [e] at hbc; cases hbc
  obtain ⟨idxs, hi⟩ := cacheRun_indices ps hrun
  obtain ⟨s', outs, e', -, -, steps, l1, l2, l3, l4, l5, -⟩ :=
    cacheRun_spec wf hx (s := ⟨bc, {}⟩) ps idxs ok hi
  rw [e'] at hrun; cases hrun
  have := chain_counters steps {} l2 (by decide) (by simp [l1, ulongRange]; exact hn)
  simp only at this
  rw [← l3, l1] at this
  exact ⟨countersOK_of (by simpa using this.1) this.2 hn, l4, l5⟩

/-- **C25**, distributed FULL: the counters of each process and domain account for each access
made there; nothing is loaded from the file after opening. -/
theorem C25_fulldist_counters {fp : Fp} {cc : Bool} {nc : List NcAxis} {val : List Nat → α}
    {c : LevelCfg α} (h : Opened fp cc nc val c) (ds : Dist) (hr : 0 < ds.ranks)
    (hd : 0 < ds.domains) (t : NumaTrans) (hasMpi : Bool)
    (hreach : hasMpi = true ∨ (t ≠ .no ∧ ds.ranks = 1))
    (cacheSize : Nat) (handDiff : Int) (zero : α) (junk : Nat → Mem α) (h1 : 0 < cacheSize)
    (h2 : handDiff < cacheSize)
    (h3 : ∀ r, r < ds.ranks → (junk r).length = domainSize c ds * ds.domains)
    (s0 s : FullDist α) (h4 : fullDistOpen c ds cacheSize handDiff zero junk = some s0)
    (ops : List DistOp) (hops : ∀ o ∈ ops, o.rank < ds.ranks) (vs : List α)
    (hrun : fullDistRun c ds t hasMpi s0 ops = some (s, vs)) (hn : ops.length < 2 ^ 64)
    (rank domain : Nat) :
    CountersOK (s.cnt rank domain)
      (ops.filter fun o => o.rank = rank ∧ o.domain = domain).length := by
  obtain ⟨wf, hx, hfp, hax, hval⟩ := h.spec
  obtain ⟨s0', e, ok, hc0⟩ := fullDistOpen_spec wf ds hr hd zero junk h1 h2 h3
  rw [e] at h4; cases h4
  obtain ⟨idxs, hi⟩ := fullDistRun_indices ds t hasMpi ops hrun
  obtain ⟨s', e', -, hcnt⟩ := fullDistRun_spec wf hx ds hr hd t hasMpi hreach ops idxs ok hops hi
  rw [e'] at hrun; cases hrun
  obtain ⟨steps, l1, l2, l3⟩ := hcnt rank domain
  have hle := List.length_filter_le (fun o : DistOp => decide (o.rank = rank ∧ o.domain = domain)) ops
  rw [hc0] at l2 l3
  have := chain_counters steps {} l2 (by decide) (by simp [ulongRange]; omega)
  simp only at this
  rw [← l3, l1] at this
  exact countersOK_of (by simpa using this.1) this.2 (by simp only [ulongRange]; omega)

/-- **C25**, PASS_THROUGH: each access is one file load. -/
theorem C25_passthrough_counters {fp : Fp} {cc : Bool} {nc : List NcAxis} {val : List Nat → α}
    {c : LevelCfg α} (h : Opened fp cc nc val c) (buf buf' : Mem α) (cnt cnt' : Counters)
    (thread : Nat) (ht : thread < buf.length) (pos : List Dbl) (v : α) (n : Nat)
    (hn : n + 1 < 2 ^ 64) (hc : cnt = { access := n, file := n })
    (hg : passThroughGetAt c buf cnt thread pos = some (buf', cnt', v)) :
    cnt' = { access := n + 1, file := n + 1 } ∧ CountersOK cnt' (n + 1) := by
  obtain ⟨wf, hx, hfp, hax, hval⟩ := h.spec
  have hp : ∃ idx, pos2index c.fp c.axes pos = some idx := by
    simp only [passThroughGetAt, Option.bind_eq_bind, Option.bind_eq_some_iff] at hg
    obtain ⟨idx, hidx, -⟩ := hg
    exact ⟨idx, hidx⟩
  obtain ⟨idx, hp⟩ := hp
  obtain ⟨b, e, -⟩ := passThroughGetAt_spec wf hx buf cnt thread ht hp
  rw [e] at hg
  simp only [Option.some.injEq, Prod.mk.injEq] at hg
  obtain ⟨-, hcnt, -⟩ := hg
  have m1 : (n + 1) % ulongRange = n + 1 := Nat.mod_eq_of_lt hn
  have : cnt' = { access := n + 1, file := n + 1 } := by
    rw [← hcnt, hc]; simp [Counters.inc, m1]
  exact ⟨this, countersOK_of (by rw [this]) (by rw [this]; simp) hn⟩

/-- Hypotheses of the C25 theorems: a history of the example file; five accesses. -/
example : ∃ (c : LevelCfg (List Nat)) (bc : BlockCache (List Nat)) (s : CacheLevel (List Nat))
    (vs : List (List Nat)), Opened .exact false exFile (fun i => i) c ∧
    BlockCache.init 2 c.totalBlockSize (-1) [] = some bc ∧
    cacheRun c ⟨bc, {}⟩ [[.fin 0, .fin 10], [.fin 4, .fin 7.5], [.fin 1, .fin (-3)],
      [.fin 1, .fin 6], [.fin 2, .fin 6]] = some (s, vs) := by
  obtain ⟨c, h, -⟩ := exOpened
  obtain ⟨bc, s, e, e'⟩ := C08_cache_history h 2 (-1) [] (by decide) (by decide)
    [[.fin 0, .fin 10], [.fin 4, .fin 7.5], [.fin 1, .fin (-3)], [.fin 1, .fin 6], [.fin 2, .fin 6]]
    [[0, 0], [1, 4], [2, 1], [2, 1], [2, 2]] (by decide +kernel)
  exact ⟨c, bc, s, _, h, e, e'⟩

theorem missCount_fill (bs : List Nat) (os : List (Option Nat)) (keys : List Nat)
    (hl : os.length = bs.length)
    (h : ∀ (i b : Nat) (o : Option Nat), bs[i]? = some b → os[i]? = some o →
      o = if b ∈ keys ++ bs.take i then some b else none) (L : List Nat) (hL : L.Nodup)
    (hmem : ∀ b, b ∈ L ↔ b ∈ bs ∧ b ∉ keys) : missCount bs os = L.length := by
  induction bs generalizing os keys L with
  | nil =>
    cases os with
    | cons => simp at hl
    | nil => cases L with
      | nil => rfl
      | cons x L => have := (hmem x).1 (by simp); simp at this
  | cons b bs ih =>
    cases os with
    | nil => simp at hl
    | cons o os =>
      have h0 := h 0 b o rfl rfl
      simp only [List.take_zero, List.append_nil] at h0
      simp only [missCount]
      have hrec : ∀ L' : List Nat, L'.Nodup → (∀ x, x ∈ L' ↔ x ∈ bs ∧ x ∉ keys ++ [b]) →
          missCount bs os = L'.length := by
        intro L' hL' hm'
        apply ih os (keys ++ [b]) (by simpa using hl) _ L' hL' hm'
        intro i b' o' hb' ho'
        have := h (i + 1) b' o' (by simpa using hb') (by simpa using ho')
        simpa using this
      by_cases hb : b ∈ keys
      · rw [h0, if_pos hb, if_pos rfl, Nat.zero_add]
        apply hrec L hL
        intro x
        rw [hmem]
        simp only [List.mem_cons, List.mem_append, List.not_mem_nil, or_false, not_or]
        constructor
        · rintro ⟨rfl | h1, h2⟩
          · exact absurd hb h2
          · exact ⟨h1, h2, by rintro rfl; exact h2 hb⟩
        · rintro ⟨h1, h2, h3⟩
          exact ⟨Or.inr h1, h2⟩
      · rw [h0, if_neg hb, if_neg (by simp)]
        have hbL : b ∈ L := (hmem b).2 ⟨by simp, hb⟩
        rw [hrec (L.erase b) (hL.erase b), List.length_erase_of_mem hbL]
        · have := List.length_pos_of_mem hbL; omega
        · intro x
          rw [hL.mem_erase_iff, hmem]
          simp only [List.mem_cons, List.mem_append, List.not_mem_nil, or_false, not_or]
          constructor
          · rintro ⟨h1, h2 | h2, h3⟩
            · exact absurd h2 h1
            · exact ⟨h2, h3, h1⟩
          · rintro ⟨h1, h2, h3⟩
            exact ⟨h3, Or.inr h1, h2⟩

/-- **C14** at the API: if the accessed positions lie in at most `cacheSize` different blocks
(`L` lists them), the file is read exactly once for each of these blocks. -/
theorem C14_each_block_loaded_once {fp : Fp} {cc : Bool} {nc : List NcAxis}
    {val : List Nat → α} {c : LevelCfg α} (h : Opened fp cc nc val c) (cacheSize : Nat)
    (handDiff : Int) (zero : α) (h1 : 0 < cacheSize) (h2 : handDiff < cacheSize)
    (bc : BlockCache α)
    (hbc : BlockCache.init cacheSize c.totalBlockSize handDiff zero = some bc)
    (ps : List (List Dbl)) (idxs : List (List Nat))
    (hidx : ps.map (pos2index fp (openAxes fp cc nc)) = idxs.map some)
    (hn : ps.length < 2 ^ 64) (L : List Nat) (hL : L.Nodup) (hLs : L.length ≤ cacheSize)
    (hmem : ∀ b, b ∈ L ↔ ∃ idx ∈ idxs, blockByCoords c.geom idx = b) :
    ∃ s vs, cacheRun c ⟨bc, {}⟩ ps = some (s, vs) ∧ s.cnt.get .file = L.length ∧
      s.cnt.get .access = ps.length := by
  obtain ⟨wf, hx, hfp, hax, hval⟩ := h.spec
  obtain ⟨bc', h', e, ok⟩ := BlockCache.init_ok c zero h1 h2
  rw [e] at hbc; cases hbc
  rw [← hax, ← hfp] at hidx
  obtain ⟨s', outs, e', -, hrun, steps, l1, l2, l3, l4, l5, l6⟩ :=
    cacheRun_spec wf hx (s := ⟨bc, {}⟩) ps idxs ok hidx
  refine ⟨s', _, e', ?_, ?_⟩
  · have hlist : CacheList.init cacheSize handDiff = some bc.list := by
      simp only [BlockCache.init, Option.bind_eq_bind, Option.bind_eq_some_iff] at e
      obtain ⟨l, hl, e⟩ := e
      simp at e; rw [hl, ← e]
    obtain ⟨c0, cl, outs', g1, g2, g3, g4⟩ := C14_no_early_eviction cacheSize handDiff h1 h2
      (idxs.map (blockByCoords c.geom)) L hLs (by
        intro b hb
        rw [List.mem_map] at hb
        exact (hmem b).2 hb)
    rw [hlist] at g1; cases g1
    simp only at hrun
    rw [hrun] at g2; cases g2
    have hmc : missCount (idxs.map (blockByCoords c.geom)) (outs.map Prod.snd) = L.length := by
      apply missCount_fill _ _ [] (by simpa using g3) _ L hL
      · intro b
        rw [hmem, List.mem_map]
        simp
      · intro i b o hb ho
        rw [List.getElem?_map, Option.map_eq_some_iff] at ho
        obtain ⟨out, ho1, ho2⟩ := ho
        rw [← ho2, g4 i b out hb ho1]
        simp
    have hch := chain_counters steps {} l2 (by decide) (by simp [l1, ulongRange]; exact hn)
    simp only at hch
    rw [← l3, l1] at hch
    rw [hmc] at l6
    have hL2 : L.length < ulongRange := by
      have : L.length ≤ (idxs.map (blockByCoords c.geom)).length := by
        apply length_le_of_subset hL
        intro b hb
        rw [List.mem_map]; exact (hmem b).1 hb
      have h3 : (ps.map (pos2index c.fp c.axes)).length = (idxs.map some).length := by rw [hidx]
      simp at this h3
      simp only [ulongRange]; omega
    have hf : s'.cnt.file < ulongRange := by
      have := hch.2; have := hch.1; simp only [ulongRange] at *; omega
    rw [Nat.mod_eq_of_lt hf] at l6
    simp only [Counters.get, l6]
    rw [Nat.mod_eq_of_lt (by simpa using hL2)]
    simp
  · have hch := chain_counters steps {} l2 (by decide) (by simp [l1, ulongRange]; exact hn)
    simp only at hch
    rw [← l3, l1] at hch
    simpa [Counters.get] using hch.1

/-- The three accesses of the example touch two different blocks. -/
example : ([0, 2] : List Nat).Nodup ∧ ∀ c : LevelCfg (List Nat), c.geom = [⟨3, 3⟩, ⟨5, 2⟩] →
    [[0, 0], [1, 4], [2, 1]].map (blockByCoords c.geom) = [0, 2, 0] := by
  refine ⟨by decide, ?_⟩
  intro c hc; rw [hc]; decide

end Asagi.Props
