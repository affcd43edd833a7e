import Verif.Spec.Sources
import Verif.Props.Values
/-
C93: where the values come from. Each access is served by the nearest place that has the block, and
the counters tell which one.
-/
namespace Asagi.Props
open Asagi.Spec
variable {α : Type}

theorem _root_.Asagi.CLInv.held {cl : CacheList} {h : Nat} (inv : CLInv cl h) (b : Nat) :
    (∃ i, cl.blockToIndex b = some i) ↔ some b ∈ cl.indexToBlock := by
  constructor
  · rintro ⟨i, hi⟩
    exact List.mem_iff_getElem?.mpr ⟨i, (inv.bij b i).mp hi⟩
  · intro hm
    obtain ⟨i, hi⟩ := List.mem_iff_getElem?.mp hm
    exact ⟨i, (inv.bij b i).mpr hi⟩

/-- `get` reports a hit exactly if the block is in the cache. -/
theorem _root_.Asagi.CLInv.hit {cl : CacheList} {h : Nat} (inv : CLInv cl h) {b : Nat}
    {cl' : CacheList} {slot : Nat} {old : Option Nat} (hg : cl.get b = .ok (cl', slot, old)) :
    old = some b ↔ some b ∈ cl.indexToBlock := by
  rw [← inv.held]
  cases hb : cl.blockToIndex b with
  | some i =>
    simp only [CacheList.get, CacheList.getIndex, hb, if_true] at hg
    cases hl : cl.lru.access i with
    | ok l =>
      simp only [hl, Res.pure_eq, Res.bind_ok, Res.ok.injEq, Prod.mk.injEq] at hg
      exact ⟨fun _ => ⟨i, rfl⟩, fun _ => hg.2.2.symm⟩
    | ub => simp [hl, Bind.bind, Res.bind] at hg
    | outOfFuel => simp [hl, Bind.bind, Res.bind] at hg
  | none =>
    constructor
    · rintro rfl
      simp only [CacheList.get, CacheList.getIndex, hb, Res.bind_ok, CacheList.getFreeIndex] at hg
      cases hl : cl.lru.getFree (cl.lru.size + 1) with
      | ok l =>
        simp only [hl, Res.bind_ok] at hg
        cases ht : cl.indexToBlock[l.2]? with
        | none => simp [ht] at hg
        | some o =>
          simp only [ht, Res.pure_eq, Res.ok.injEq, Prod.mk.injEq] at hg
          obtain ⟨-, -, rfl⟩ := hg
          have := (inv.bij b l.2).mpr ht
          rw [hb] at this; cases this
      | ub => simp [hl, Bind.bind, Res.bind] at hg
      | outOfFuel => simp [hl, Bind.bind, Res.bind] at hg
    · rintro ⟨i, hi⟩; cases hi

/-- After `get` the block is in the cache. -/
theorem _root_.Asagi.CacheList.get_holds {cl cl' : CacheList} {b slot : Nat} {old : Option Nat}
    (hg : cl.get b = .ok (cl', slot, old)) : ∃ i, cl'.blockToIndex b = some i := by
  cases hb : cl.blockToIndex b with
  | some i =>
    simp only [CacheList.get, CacheList.getIndex, hb, if_true] at hg
    cases hl : cl.lru.access i with
    | ok l =>
      simp only [hl, Res.pure_eq, Res.bind_ok, Res.ok.injEq, Prod.mk.injEq] at hg
      rw [← hg.1]; exact ⟨i, hb⟩
    | ub => simp [hl, Bind.bind, Res.bind] at hg
    | outOfFuel => simp [hl, Bind.bind, Res.bind] at hg
  | none =>
    simp only [CacheList.get, CacheList.getIndex, hb, Res.bind_ok, CacheList.getFreeIndex] at hg
    cases hl : cl.lru.getFree (cl.lru.size + 1) with
    | ok l =>
      simp only [hl, Res.bind_ok] at hg
      cases ht : cl.indexToBlock[l.2]? with
      | none => simp [ht] at hg
      | some o =>
        simp only [ht, Res.pure_eq, Res.ok.injEq, Prod.mk.injEq] at hg
        rw [← hg.1]; exact ⟨l.2, by simp⟩
    | ub => simp [hl, Bind.bind, Res.bind] at hg
    | outOfFuel => simp [hl, Bind.bind, Res.bind] at hg

theorem _root_.Asagi.numaCacheLookup_none {c : LevelCfg α} (caches : Nat → BlockCache α)
    (hc : ∀ d, ∃ h, CacheOK c (caches d) h) (canLock : Nat → Bool) (self id : Nat) (l : List Nat) :
    (numaCacheLookup c.totalBlockSize caches canLock self id l = some none ↔
      ∀ i ∈ l, i ≠ self → InCache (caches i) id → canLock i = false) := by
  induction l with
  | nil => simp [numaCacheLookup]
  | cons i l ih =>
    simp only [numaCacheLookup, List.mem_cons, forall_eq_or_imp]
    split
    · rename_i hi
      rw [ih]; simp [hi]
    · rename_i hi
      obtain ⟨h, hok⟩ := hc i
      cases hpk : (caches i).list.peek id with
      | none =>
        simp only
        rw [ih]
        have hn : ¬ InCache (caches i) id := by
          intro hm
          obtain ⟨j, hj⟩ := (hok.inv.held id).mpr hm
          simp only [CacheList.peek] at hpk
          rw [hpk] at hj; cases hj
        simp [hn]
      | some slot =>
        have hm : InCache (caches i) id := (hok.inv.held id).mp ⟨slot, hpk⟩
        simp only
        split
        · rename_i hl
          have hslot := hok.inv.slot_lt hpk
          have hlen : slot * c.totalBlockSize + c.totalBlockSize ≤ (caches i).mem.length := by
            rw [hok.len]
            have : (slot + 1) * c.totalBlockSize ≤ (caches i).list.lru.size * c.totalBlockSize :=
              Nat.mul_le_mul_right _ hslot
            rw [Nat.add_mul] at this; omega
          simp [Mem.slice, hlen, hi, hm, hl]
        · rename_i hl
          rw [ih]; simp [hl]

/-- **C93**, distributed FULL: after any history, an access is served by the nearest place that has
the block: the own domain, else another domain of the process as far as the domains communicate,
else the process that owns the block. Exactly one of these applies, and the counters of this domain
tell which; the other counters stay. The next access to the block in this domain finds it here. -/
theorem C93_full {fp : Fp} {cc : Bool} {nc : List NcAxis} {val : List Nat → α}
    {c : LevelCfg α} (h : Opened fp cc nc val c) (ds : Dist) (hr : 0 < ds.ranks)
    (hd : 0 < ds.domains) (t : NumaTrans) (hasMpi : Bool)
    (hreach : hasMpi = true ∨ (t ≠ .no ∧ ds.ranks = 1)) (s : FullDist α)
    (hs : FullDistReach c ds t hasMpi s) (canLock : Nat → Bool) (rank domain : Nat)
    (hrank : rank < ds.ranks) (pos : List Dbl) (idx : List Nat)
    (hp : pos2index fp (openAxes fp cc nc) pos = some idx) :
    ∃ s' src, fullDistGetAt c ds t hasMpi s canLock rank domain pos = some (s', val idx) ∧
      FullSource c ds t s canLock rank domain (blockByCoords c.geom idx) src ∧
      (∀ src', FullSource c ds t s canLock rank domain (blockByCoords c.geom idx) src' →
        src' = src) ∧
      s'.cnt rank domain = src.count (s.cnt rank domain) ∧
      (∀ r d, (r ≠ rank ∨ d ≠ domain) → s'.cnt r d = s.cnt r d) ∧
      ∀ canLock', FullSource c ds t s' canLock' rank domain (blockByCoords c.geom idx) .here := by
  obtain ⟨wf, hx, hfp, hax, hval⟩ := h.spec
  have ok := hs.ok h hr hd hreach
  have hp' : pos2index c.fp c.axes pos = some idx := by rw [hax, hfp]; exact hp
  obtain ⟨s', cnt', e, ok', hc, -⟩ := fullDistGetAt_spec wf hx ds hr hd t hasMpi hreach ok canLock
    rank domain hrank hp'
  rw [hval] at e
  have hothers : ∀ r d, (r ≠ rank ∨ d ≠ domain) → s'.cnt r d = s.cnt r d := by
    intro r d hne
    rw [hc]; simp only [upd2]; rw [if_neg]; rintro ⟨rfl, rfl⟩; simp at hne
  have huniq : ∀ src src', FullSource c ds t s canLock rank domain (blockByCoords c.geom idx) src →
      FullSource c ds t s canLock rank domain (blockByCoords c.geom idx) src' → src' = src := by
    intro src src' h1 h2
    cases h1 <;> cases h2 <;> first | rfl | (exfalso; simp_all)
  have hex : ∃ src, FullSource c ds t s canLock rank domain (blockByCoords c.geom idx) src ∧
      s'.cnt rank domain = src.count (s.cnt rank domain) ∧
      ((ds.blockRank c.totalBlocks (blockByCoords c.geom idx) = rank ∧
        ds.blockDomain c.totalBlocks (blockByCoords c.geom idx) = domain) ∨
        InCache (s'.cache rank domain) (blockByCoords c.geom idx)) := by
    obtain ⟨hh, hok⟩ := ok.cache rank domain
    obtain ⟨hh', hok'⟩ := ok'.cache rank domain
    generalize hb : blockByCoords c.geom idx = b at *
    have e' := e
    simp only [fullDistGetAt, hp', Option.bind_eq_bind, Option.bind_some, hb] at e'
    split at e'
    · rename_i hloc
      simp only [Option.bind_eq_some_iff, Option.pure_def, Option.some.injEq, Prod.mk.injEq] at e'
      obtain ⟨v, -, rfl, -⟩ := e'
      exact ⟨.here, .here (.inl hloc), by simp [upd2, Source.count], .inl hloc⟩
    · rename_i hloc
      simp only [Option.bind_eq_some_iff] at e'
      obtain ⟨⟨list, slot, old⟩, hg, e1⟩ := e'
      have hg' : (s.cache rank domain).list.get b = .ok (list, slot, old) := by
        cases hx : (s.cache rank domain).list.get b <;> simp [hx, Res.toOption] at hg
        rw [hg]
      have hhit := hok.inv.hit hg'
      have hheld := CacheList.get_holds hg'
      simp only [Option.pure_def, Option.bind_some] at e1
      split at e1
      · rename_i hold
        have hn : ¬ InCache (s.cache rank domain) b := fun hm => hold (hhit.mpr hm)
        simp only [Option.bind_eq_some_iff] at e1
        obtain ⟨o, e2, e3⟩ := e1
        by_cases hrk : ds.blockRank c.totalBlocks b = rank
        · have hdm : ds.blockDomain c.totalBlocks b ≠ domain := fun hd => hloc ⟨hrk, hd⟩
          by_cases ht : t = .no
          · simp only [fullDistNuma, ht, ne_eq, not_true_eq_false, false_and, if_false] at e2
            simp at e2; subst e2
            simp only [Option.bind_eq_some_iff, Option.some.injEq, Prod.mk.injEq] at e3
            obtain ⟨_, -, _, -, _, -, rfl, -⟩ := e3
            exact ⟨.process, .self hrk hdm hn ht, by simp [upd2, Source.count],
              .inr ((hok'.inv.held b).mp (by simpa [upd2] using hheld))⟩
          · rw [fullDistNuma, if_pos ⟨ht, hrk⟩] at e2
            simp only [Option.bind_eq_bind, Option.bind_eq_some_iff, Option.pure_def,
              Option.some.injEq] at e2
            obtain ⟨_, -, rfl⟩ := e2
            simp only [Option.bind_eq_some_iff, Option.some.injEq, Prod.mk.injEq] at e3
            obtain ⟨_, -, _, -, rfl, -⟩ := e3
            exact ⟨.domain, .memory hrk hdm hn ht, by simp [upd2, Source.count],
              .inr ((hok'.inv.held b).mp (by simpa [upd2] using hheld))⟩
        · rw [fullDistNuma, if_neg (fun hh => hrk hh.2)] at e2
          have hlook := numaCacheLookup_none (c := c) (s.cache rank) (ok.cache rank) canLock domain b
            (List.range ds.domains)
          cases o with
          | none =>
            simp only [Option.bind_eq_some_iff, Option.some.injEq, Prod.mk.injEq] at e3
            obtain ⟨_, -, _, -, _, -, rfl, -⟩ := e3
            refine ⟨.process, .process hrk hn ?_, by simp [upd2, Source.count],
              .inr ((hok'.inv.held b).mp (by simpa [upd2] using hheld))⟩
            intro ht i hi hne hm
            rw [if_pos ht] at e2
            exact hlook.mp e2 i (List.mem_range.mpr hi) hne hm
          | some sl =>
            simp only [Option.bind_eq_some_iff, Option.some.injEq, Prod.mk.injEq] at e3
            obtain ⟨_, -, _, -, rfl, -⟩ := e3
            by_cases ht : t = .fullCache
            · rw [if_pos ht] at e2
              have hex : ∃ i, i < ds.domains ∧ i ≠ domain ∧ InCache (s.cache rank i) b ∧
                  canLock i = true := by
                by_contra hno
                have : numaCacheLookup c.totalBlockSize (s.cache rank) canLock domain b
                    (List.range ds.domains) = some none := by
                  rw [hlook]
                  intro i hi hne hm
                  by_contra hl
                  exact hno ⟨i, List.mem_range.mp hi, hne, hm, by simpa using hl⟩
                rw [this] at e2; cases e2
              obtain ⟨i, h1, h2, h3, h4⟩ := hex
              exact ⟨.domain, .cache i hrk hn ht h1 h2 h3 h4, by simp [upd2, Source.count],
              .inr ((hok'.inv.held b).mp (by simpa [upd2] using hheld))⟩
            · rw [if_neg ht] at e2; cases e2
      · rename_i hold
        have hm : InCache (s.cache rank domain) b := hhit.mp (by simpa using hold)
        simp only [Option.bind_eq_some_iff, Option.some.injEq, Prod.mk.injEq] at e1
        obtain ⟨_, -, rfl, -⟩ := e1
        exact ⟨.here, .here (.inr hm), by simp [upd2, Source.count],
              .inr ((hok'.inv.held b).mp (by simpa [upd2] using hheld))⟩
  obtain ⟨src, h1, h2, h3⟩ := hex
  exact ⟨s', src, e, h1, fun src' h' => huniq src src' h1 h', h2, hothers, fun _ => .here h3⟩

/-- Two processes with two domains each. Domain 0 of process 1 reads the first block, which process
0 owns. Domain 1 of process 1 then gets it from domain 0 if it can lock the cache of domain 0, and
from process 0 otherwise. The counters of the last access: -/
def exSources (canLock : Nat → Bool) : Option Counters :=
  let c : LevelCfg (List Nat) :=
    ⟨.exact, openAxes .exact false exFile, ⟨[3, 5], fun i => i⟩, [⟨3, 3⟩, ⟨5, 2⟩], true, 6, 3⟩
  do
  let s0 ← fullDistOpen c ⟨2, 2, true⟩ 3 1 [] fun _ => List.replicate 12 []
  let (s, _) ← fullDistRun c ⟨2, 2, true⟩ .fullCache true s0
    [⟨1, 0, [.fin 0, .fin 10], fun _ => true⟩, ⟨1, 1, [.fin 0, .fin 10], canLock⟩]
  pure (s.cnt 1 1)

example : exSources (fun _ => true) = some { access := 1, numa := 1 } := by decide +kernel
example : exSources (fun _ => false) = some { access := 1, mpi := 1 } := by decide +kernel

/-- The hypotheses of the two theorems are met by states after a history. -/
example : ∃ (c : LevelCfg (List Nat)) (s1 : FullDist (List Nat)) (s2 : CacheLevel (List Nat)),
    Opened .exact false exFile (fun i => i) c ∧ FullDistReach c ⟨2, 2, true⟩ .fullCache true s1 ∧
    CacheReach c s2 ∧
    pos2index .exact (openAxes .exact false exFile) [.fin 0, .fin 10] = some [0, 0] := by
  obtain ⟨c, h, hg, h2, h3⟩ := exOpened
  have hj : ∀ r, r < 2 → ((fun _ => List.replicate 12 ([] : List Nat)) r).length =
      domainSize c ⟨2, 2, true⟩ * 2 := by
    intro r _; rw [domainSize, h2, h3]; simp [Dist.localBlockCount]
  have hidx : [[Dbl.fin 0, Dbl.fin 10], [Dbl.fin 4, Dbl.fin 7.5]].map
      (pos2index .exact (openAxes .exact false exFile)) = [[0, 0], [1, 4]].map some := by
    decide +kernel
  obtain ⟨s, s', e, e'⟩ := C07_fulldist_history h ⟨2, 2, true⟩ (by decide) (by decide) .fullCache true
    (Or.inl rfl) 3 1 [] (fun _ => List.replicate 12 []) (by decide) (by decide) hj
    [⟨1, 0, [.fin 0, .fin 10], fun _ => true⟩, ⟨0, 1, [.fin 4, .fin 7.5], fun _ => true⟩]
    [[0, 0], [1, 4]] (by simp) (by simpa using hidx)
  obtain ⟨bc, s2, e2, e2'⟩ := C08_cache_history h 2 (-1) [] (by decide) (by decide) _ _ hidx
  exact ⟨c, s', s2, h, ⟨3, 1, [], _, s, _, _, by decide, by decide, hj, e, by simp, e'⟩,
    ⟨2, -1, [], bc, _, _, by decide, by decide, e2, e2'⟩, by decide +kernel⟩

/-- **C93**, CACHE on one process and domain: after any history, an access reads the file exactly
if the cache does not have the block, and counts that. -/
theorem C93_cache {fp : Fp} {cc : Bool} {nc : List NcAxis} {val : List Nat → α}
    {c : LevelCfg α} (h : Opened fp cc nc val c) (s : CacheLevel α) (hs : CacheReach c s)
    (pos : List Dbl) (idx : List Nat) (hp : pos2index fp (openAxes fp cc nc) pos = some idx) :
    ∃ s', cacheGetAt c s pos = some (s', val idx) ∧
      (InCache s.cache (blockByCoords c.geom idx) → s'.cnt = Source.here.count s.cnt ∧
        s'.cache.mem = s.cache.mem) ∧
      (¬ InCache s.cache (blockByCoords c.geom idx) → s'.cnt = Source.file.count s.cnt) ∧
      InCache s'.cache (blockByCoords c.geom idx) := by
  obtain ⟨wf, hx, hfp, hax, hval⟩ := h.spec
  obtain ⟨hh, ok⟩ := hs.ok h
  have hp' : pos2index c.fp c.axes pos = some idx := by rw [hax, hfp]; exact hp
  obtain ⟨s', e, ok', -, slot, old, hg, hc⟩ := cacheGetAt_spec wf hx ok hp'
  have hhit := ok.inv.hit hg
  rw [hval] at e
  refine ⟨s', e, ?_, ?_, ?_⟩
  · intro hm
    have ho := hhit.mpr hm
    rw [hc, if_pos ho]
    refine ⟨rfl, ?_⟩
    simp only [cacheGetAt, hp', Option.bind_eq_bind, Option.bind_some, hg, Res.toOption, ho, ne_eq,
      not_true_eq_false, if_false, Option.bind_eq_some_iff, Option.pure_def, Option.some.injEq,
      Prod.mk.injEq] at e
    obtain ⟨_, -, e, -⟩ := e
    rw [← e]
  · intro hm
    rw [hc, if_neg (fun ho => hm (hhit.mp ho))]
    rfl
  · rw [InCache, ← ok'.inv.held]
    have := CacheList.get_holds hg
    exact this

end Asagi.Props
