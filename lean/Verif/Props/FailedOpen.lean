import Verif.Spec.FailedOpen
import Verif.Props.Sources
import Verif.Props.Open
/-
C94: an open that fails changes nothing.

The property: after an `open` that returned an error, the grid behaves as if it had not been called.
It holds for the values of a FULL level if the file or the variable is missing (`C94_full`), for the
results of later opens if the error is one of the file or the variable (`C94_later_partial`), and for
the other levels if the list of levels need not be enlarged (`C94_levels_partial`). It is violated
in the other cases.
-/
namespace Asagi.Props
open Asagi.Spec
variable {α : Type}

/-! ### The values of the level -/

/-- **C94**, FULL: the level is opened, then any number of further opens of the same level fail because
the file or the variable is missing or unsuitable. All getters, before and after each failure,
return the values of the file that was opened successfully. -/
theorem C94_full {fp : Fp} {cc : Bool} {nc : List NcAxis} {val : List Nat → α}
    {c : LevelCfg α} (h : Opened fp cc nc val c) (junk : α) (readable : Bool)
    (es : List (KeptEv α)) (hes : OnlyReader es) (idxs : List (List Nat))
    (hidx : (gets es).map (pos2index fp (openAxes fp cc nc)) = idxs.map some) :
    ∃ m l, fullOpen c ⟨1, 1, true⟩ 0 (List.replicate (domainSize c ⟨1, 1, true⟩) junk) = some m ∧
      KeptLevel.run ⟨c, readable, .full m⟩ es = some (l, idxs.map val) := by
  obtain ⟨m, e, hget⟩ := C05_full_value h ⟨1, 1, true⟩ rfl rfl
    (List.replicate (domainSize c ⟨1, 1, true⟩) junk) (by simp)
  have hrun : ∀ (es : List (KeptEv α)), OnlyReader es → ∀ (r : Bool) (idxs : List (List Nat)),
      (gets es).map (pos2index fp (openAxes fp cc nc)) = idxs.map some →
      ∃ l, KeptLevel.run ⟨c, r, .full m⟩ es = some (l, idxs.map val) := by
    intro es
    induction es with
    | nil => intro _ r idxs hi; cases idxs <;> simp_all [KeptLevel.run, gets]
    | cons e es ih =>
      intro hes r idxs hi
      have hes' : OnlyReader es := fun x hx f hf => hes x (by simp [hx]) f hf
      cases e with
      | fail f =>
        have hf := hes (.fail f) (by simp) f rfl
        subst hf
        exact ih hes' false idxs hi
      | get p =>
        cases idxs with
        | nil => simp [gets] at hi
        | cons idx idxs =>
          simp only [gets, List.map_cons, List.cons.injEq] at hi
          obtain ⟨l, hl⟩ := ih hes' r idxs hi.2
          exact ⟨l, by simp [KeptLevel.run, KeptLevel.get, hget p idx hi.1, hl]⟩
  obtain ⟨l, hl⟩ := hrun es hes readable idxs hidx
  exact ⟨m, l, e, hl⟩

/-- A level is read, two opens fail, and it is read again. -/
example : ∃ c : LevelCfg (List Nat), Opened .exact false exFile (fun i => i) c ∧
    (let es : List (KeptEv (List Nat)) :=
      [.get [.fin 0, .fin 10], .fail .reader, .fail .reader, .get [.fin 4, .fin 7.5]]
     OnlyReader es ∧ (gets es).map (pos2index .exact (openAxes .exact false exFile)) =
      [[0, 0], [1, 4]].map some) := by
  obtain ⟨c, h, -⟩ := exOpened
  refine ⟨c, h, ?_, by decide +kernel⟩
  intro e he f hf
  subst hf
  simpa using he

/-- A hit leaves the blocks in the cache as they are. -/
theorem _root_.Asagi.CacheList.get_hit {cl cl' : CacheList} {b slot : Nat} {old : Option Nat}
    (hb : ∃ i, cl.blockToIndex b = some i) (hg : cl.get b = .ok (cl', slot, old)) :
    cl'.indexToBlock = cl.indexToBlock := by
  obtain ⟨i, hb⟩ := hb
  simp only [CacheList.get, CacheList.getIndex, hb, if_true] at hg
  cases hl : cl.lru.access i with
  | ok l =>
    simp only [hl, Res.pure_eq, Res.bind_ok, Res.ok.injEq, Prod.mk.injEq] at hg
    rw [← hg.1]
  | ub => simp [hl, Bind.bind, Res.bind] at hg
  | outOfFuel => simp [hl, Bind.bind, Res.bind] at hg

theorem _root_.Asagi.CacheList.get_length {cl cl' : CacheList} {b slot : Nat} {old : Option Nat}
    (hg : cl.get b = .ok (cl', slot, old)) : cl'.indexToBlock.length = cl.indexToBlock.length := by
  cases hb : cl.blockToIndex b with
  | some i => rw [CacheList.get_hit ⟨i, hb⟩ hg]
  | none =>
    simp only [CacheList.get, CacheList.getIndex, hb, Res.bind_ok, CacheList.getFreeIndex] at hg
    cases hl : cl.lru.getFree (cl.lru.size + 1) with
    | ok l =>
      simp only [hl, Res.bind_ok] at hg
      cases ht : cl.indexToBlock[l.2]? with
      | none => simp [ht] at hg
      | some o =>
        simp only [ht, Res.pure_eq, Res.ok.injEq, Prod.mk.injEq] at hg
        rw [← hg.1]; simp
    | ub => simp [hl, Bind.bind, Res.bind] at hg
    | outOfFuel => simp [hl, Bind.bind, Res.bind] at hg

/-- **C94**, CACHE, partial: after any history of accesses `s` and any number of failing opens, getters
still return the values of the file that was opened successfully, as long as they only ask for
blocks that are in the cache. Missing (and false, see below): the other blocks. -/
theorem C94_cache_partial {fp : Fp} {cc : Bool} {nc : List NcAxis} {val : List Nat → α}
    {c : LevelCfg α} (h : Opened fp cc nc val c) (s : CacheLevel α) (hs : CacheReach c s)
    (readable : Bool) (es : List (KeptEv α)) (hes : OnlyReader es) (idxs : List (List Nat))
    (hidx : (gets es).map (pos2index fp (openAxes fp cc nc)) = idxs.map some)
    (hheld : ∀ idx ∈ idxs, InCache s.cache (blockByCoords c.geom idx)) :
    ∃ l, KeptLevel.run ⟨c, readable, .cache s⟩ es = some (l, idxs.map val) := by
  obtain ⟨wf, hx, hfp, hax, hval⟩ := h.spec
  obtain ⟨hh, ok⟩ := hs.ok h
  clear hs
  rw [← hax, ← hfp] at hidx
  induction es generalizing readable idxs s with
  | nil => cases idxs <;> simp_all [KeptLevel.run, gets]
  | cons e es ih =>
    have hes' : OnlyReader es := fun x hx f hf => hes x (by simp [hx]) f hf
    cases e with
    | fail f =>
      have hf := hes (.fail f) (by simp) f rfl
      subst hf
      exact ih s false hes' idxs hidx hheld ok
    | get p =>
      cases idxs with
      | nil => simp [gets] at hidx
      | cons idx idxs =>
        simp only [gets, List.map_cons, List.cons.injEq] at hidx
        obtain ⟨s', e, ok', -, slot, old, hg, hc⟩ := cacheGetAt_spec wf hx ok hidx.1
        have hin := hheld idx (by simp)
        have ho := (ok.inv.hit hg).mpr hin
        have htab := CacheList.get_hit ((ok.inv.held _).mpr hin) hg
        obtain ⟨l, hl⟩ := ih s' readable hes' idxs hidx.2
          (fun i hi => by simp only [InCache, htab]; exact hheld i (by simp [hi])) ok'
        refine ⟨l, ?_⟩
        rw [← hval] at hl ⊢
        simp [KeptLevel.run, KeptLevel.get, hidx.1, hg, Res.toOption, ho, e, hl]

/-- **C94 is violated** for CACHE: after an open of the same level that failed because the file or the
variable is missing, every getter for a block that is not in the cache is undefined. -/
theorem C94_cache_violated {fp : Fp} {cc : Bool} {nc : List NcAxis} {val : List Nat → α}
    {c : LevelCfg α} (h : Opened fp cc nc val c) (s : CacheLevel α) (hs : CacheReach c s)
    (readable : Bool) (pos : List Dbl) (idx : List Nat)
    (hp : pos2index fp (openAxes fp cc nc) pos = some idx)
    (hheld : ¬ InCache s.cache (blockByCoords c.geom idx)) :
    (∃ l, KeptLevel.run ⟨c, true, .cache s⟩ [.get pos] = some (l, [val idx])) ∧
    KeptLevel.run ⟨c, readable, .cache s⟩ [.fail .reader, .get pos] = none := by
  obtain ⟨wf, hx, hfp, hax, hval⟩ := h.spec
  obtain ⟨hh, ok⟩ := hs.ok h
  rw [← hax, ← hfp] at hp
  obtain ⟨s', e, ok', -, slot, old, hg, hc⟩ := cacheGetAt_spec wf hx ok hp
  have ho : old ≠ some (blockByCoords c.geom idx) := fun ho => hheld ((ok.inv.hit hg).mp ho)
  constructor
  · exact ⟨_, by simp [KeptLevel.run, KeptLevel.get, hp, hg, Res.toOption, e, hval]; rfl⟩
  · simp [KeptLevel.run, KeptLevel.fail, KeptLevel.get, hp, hg, Res.toOption, ho]

/-- A state in which one block is in the cache and another one is not. -/
example : ∃ (c : LevelCfg (List Nat)) (s : CacheLevel (List Nat)),
    Opened .exact false exFile (fun i => i) c ∧ CacheReach c s ∧
    pos2index .exact (openAxes .exact false exFile) [.fin 0, .fin 10] = some [0, 0] ∧
    InCache s.cache (blockByCoords c.geom [0, 0]) ∧
    pos2index .exact (openAxes .exact false exFile) [.fin 4, .fin 7.5] = some [1, 4] ∧
    ¬ InCache s.cache (blockByCoords c.geom [1, 4]) := by
  obtain ⟨c, h, hg, h2, h3⟩ := exOpened
  have hp : pos2index .exact (openAxes .exact false exFile) [.fin 0, .fin 10] = some [0, 0] := by
    decide +kernel
  obtain ⟨wf, hx, hfp, hax, hval⟩ := h.spec
  obtain ⟨bc, hh, e, ok⟩ := BlockCache.init_ok c (cacheSize := 1) (handDiff := 0) [] (by decide) (by decide)
  rw [← hax, ← hfp] at hp
  obtain ⟨s, e1, ok', -, slot, old, hgt, -⟩ := cacheGetAt_spec wf hx (s := ⟨bc, {}⟩) ok hp
  have hin : InCache s.cache (blockByCoords c.geom [0, 0]) :=
    (ok'.inv.held _).mp (CacheList.get_holds hgt)
  have hr : CacheReach c s := by
    refine ⟨1, 0, [], bc, [[.fin 0, .fin 10]], [c.file.val [0, 0]], by decide,
      by decide, e, ?_⟩
    simp [cacheRun, e1]
  refine ⟨c, s, h, hr, by rw [← hax, ← hfp]; exact hp, hin, by decide +kernel, ?_⟩
  have hsz : s.cache.list.indexToBlock.length = 1 := by
    rw [CacheList.get_length hgt]
    simp only [BlockCache.init, Option.bind_eq_bind, Option.bind_eq_some_iff, CacheList.init] at e
    obtain ⟨cl, ⟨lru, -, hcl⟩, hbc⟩ := e
    simp at hcl hbc
    rw [← hbc, ← hcl]; rfl
  intro hin2
  obtain ⟨x, hxx⟩ := List.length_eq_one_iff.mp hsz
  simp only [InCache, hxx, List.mem_singleton, hg] at hin hin2
  rw [← hin] at hin2
  revert hin2; decide

/-- **C94 is violated** for PASS_THROUGH: after such a failure every getter is undefined. -/
theorem C94_pass_violated {fp : Fp} {cc : Bool} {nc : List NcAxis} {val : List Nat → α}
    {c : LevelCfg α} (h : Opened fp cc nc val c) (v : α) (cnt : Counters) (readable : Bool)
    (pos : List Dbl) (idx : List Nat) (hp : pos2index fp (openAxes fp cc nc) pos = some idx) :
    (∃ l, KeptLevel.run ⟨c, true, .pass [v] cnt⟩ [.get pos] = some (l, [val idx])) ∧
    KeptLevel.run ⟨c, readable, .pass [v] cnt⟩ [.fail .reader, .get pos] = none := by
  obtain ⟨wf, hx, hfp, hax, hval⟩ := h.spec
  rw [← hax, ← hfp] at hp
  obtain ⟨b, e, -⟩ := passThroughGetAt_spec wf hx [v] cnt 0 (by simp) hp
  constructor
  · exact ⟨_, by simp [KeptLevel.run, KeptLevel.get, e, hval]; rfl⟩
  · simp [KeptLevel.run, KeptLevel.fail, KeptLevel.get]

/-- The example file with array values, opened. -/
def exKept : LevelCfg (List Nat) :=
  ⟨.exact, openAxes .exact false exFile, ⟨[3, 5], fun i => i⟩, [⟨3, 3⟩, ⟨5, 2⟩], false, 6, 3⟩

/-- A file with other coordinates, 0, 1, 2 instead of 10, 8, 6. -/
def exOther : List NcAxis := [⟨3, some fun i => i⟩, ⟨5, none⟩]

/-- **C94 is violated** for FULL levels of array or struct grids: an open that fails because the
values of the new file have another size (WRONG_SIZE) leaves the coordinates of the new file with
the values of the old one. The getter for position 10 then returns the value of position 6. -/
theorem C94_wrong_size_violated :
    ∃ (m : Mem (List Nat)) (pos : List Dbl),
      fullOpen exKept ⟨1, 1, true⟩ 0 (List.replicate (domainSize exKept ⟨1, 1, true⟩) []) = some m ∧
      (KeptLevel.run ⟨exKept, false, .full m⟩ [.get pos]).map (·.2) = some [[0, 0]] ∧
      (KeptLevel.run ⟨exKept, false, .full m⟩ [.fail (.type (openAxes .exact false exOther)
        ⟨[3, 5], fun i => i⟩), .get pos]).map (·.2) = some [[2, 0]] := by
  refine ⟨_, [.fin 0, .fin 10], rfl, ?_, ?_⟩ <;> decide +kernel

/-! ### Later opens -/

theorem _root_.Asagi.openKind_file_error (kind : LevelKind) (distributed : Bool) (res : Resources)
    (hres : Resources.Real res) (fs : FileSystem) (file var : Str) (t : TypeObj)
    (he : (openKind kind distributed res fs file var true t).2.1 ∈ fileErrors) :
    (openKind kind distributed res fs file var true t).1 = t := by
  obtain ⟨h1, h2, h3⟩ := hres
  have hs : Error.SUCCESS ∉ fileErrors := by decide
  have hlev : (levelOpen fs file var true t).2.1 ≠ .SUCCESS →
      (levelOpen fs file var true t).1 = t := by
    intro hne
    simp only [levelOpen, Bool.not_true, Bool.false_eq_true, if_false] at hne ⊢
    split at hne
    · rfl
    · rename_i v eff heq
      obtain ⟨cls, fixed⟩ := t
      cases cls <;> simp only [TypeObj.check] at hne ⊢
      · split <;> try rfl
        split <;> try rfl
        · rename_i h1 h2; simp [h1, h2] at hne
        · split <;> rfl
      · split <;> try rfl
        · rename_i h2; simp [h2] at hne
        · split <;> rfl
  revert he
  simp only [openKind]
  revert hlev
  generalize levelOpen fs file var true t = r
  obtain ⟨t', e, eff⟩ := r
  intro hlev
  by_cases hes : e = .SUCCESS
  · subst hes
    simp only
    cases kind <;> simp only <;> (try split_ifs) <;> intro he <;> simp_all
  · have := hlev hes
    cases e <;> simp_all

theorem _root_.Asagi.openCalls_cons (kind : LevelKind) (distributed : Bool) (t : TypeObj) (o : OpenTry)
    (os : List OpenTry) : openCalls kind distributed t (o :: os) =
      ((openCalls kind distributed (openKind kind distributed o.res o.fs o.file o.var true t).1 os).1,
       (openKind kind distributed o.res o.fs o.file o.var true t).2.1 ::
        (openCalls kind distributed (openKind kind distributed o.res o.fs o.file o.var true t).1 os).2) :=
  rfl

/-- **C94**, later opens, partial: if one call of open reports an error of the file or the variable, all
other calls of open of this grid, before and after it, have the same results as without this call,
and so has `getVarSize`. Missing (and false, see below): failures because of memory or
communication. -/
theorem C94_later_partial (kind : LevelKind) (distributed : Bool) (t : TypeObj)
    (before after : List OpenTry) (o : OpenTry) (hres : Resources.Real o.res) :
    ∃ r1 e r2, (openCalls kind distributed t (before ++ o :: after)).2 = r1 ++ e :: r2 ∧
      r1.length = before.length ∧
      (e ∈ fileErrors →
        (openCalls kind distributed t (before ++ after)).2 = r1 ++ r2 ∧
        (openCalls kind distributed t (before ++ after)).1.size =
          (openCalls kind distributed t (before ++ o :: after)).1.size) := by
  induction before generalizing t with
  | nil =>
    rw [List.nil_append, openCalls_cons]
    refine ⟨[], _, _, rfl, rfl, ?_⟩
    intro he
    have := openKind_file_error kind distributed o.res hres o.fs o.file o.var t he
    rw [this]
    exact ⟨rfl, rfl⟩
  | cons p before ih =>
    obtain ⟨r1, e, r2, h1, h2, h3⟩ :=
      ih (openKind kind distributed p.res p.fs p.file p.var true t).1
    rw [List.cons_append, List.cons_append, openCalls_cons, openCalls_cons]
    refine ⟨_ :: r1, e, r2, by rw [h1]; rfl, by simp [h2], ?_⟩
    intro he
    obtain ⟨h4, h5⟩ := h3 he
    exact ⟨by rw [h4]; rfl, h5⟩

/-- **C94**, later opens of grids with a basic type: no call of open has any influence on the results of the
others, however it fails. -/
theorem C94_later_basic (kind : LevelKind) (distributed : Bool) (b : Scalar) (n : Nat)
    (before after : List OpenTry) (o : OpenTry) :
    ∃ r1 e r2, (openCalls kind distributed ⟨.basic b, n⟩ (before ++ o :: after)).2 = r1 ++ e :: r2 ∧
      r1.length = before.length ∧
      (openCalls kind distributed ⟨.basic b, n⟩ (before ++ after)).2 = r1 ++ r2 ∧
      (openCalls kind distributed ⟨.basic b, n⟩ (before ++ after)).1 = ⟨.basic b, n⟩ := by
  have hkeep : ∀ o : OpenTry,
      (openKind kind distributed o.res o.fs o.file o.var true ⟨.basic b, n⟩).1 = ⟨.basic b, n⟩ := by
    intro o
    have hl : (levelOpen o.fs o.file o.var true ⟨.basic b, n⟩).1 = ⟨.basic b, n⟩ := by
      simp only [levelOpen, Bool.not_true, Bool.false_eq_true, if_false]
      split <;> rfl
    revert hl
    simp only [openKind]
    generalize levelOpen o.fs o.file o.var true ⟨.basic b, n⟩ = r
    obtain ⟨t', e, eff⟩ := r
    rintro rfl
    cases e <;> simp only
    cases kind <;> simp only <;> (try split_ifs) <;> rfl
  have hall : ∀ os : List OpenTry,
      (openCalls kind distributed ⟨.basic b, n⟩ os).1 = ⟨.basic b, n⟩ := by
    intro os
    induction os with
    | nil => rfl
    | cons o os ih => rw [openCalls_cons, hkeep]; exact ih
  induction before with
  | nil =>
    rw [List.nil_append, openCalls_cons, hkeep]
    exact ⟨[], _, _, rfl, rfl, rfl, hall _⟩
  | cons p before ih =>
    obtain ⟨r1, e, r2, h1, h2, h3, -⟩ := ih
    rw [List.cons_append, List.cons_append, openCalls_cons, openCalls_cons, hkeep]
    exact ⟨_ :: r1, e, r2, by rw [h1]; rfl, by simp [h2], by rw [h3]; rfl, hall _⟩

theorem _root_.Asagi.TypeObj.check_again (t : TypeObj) (v : Nat) (h : (t.check v).2 = .SUCCESS) :
    ((t.check v).1.check v).2 = .SUCCESS := by
  obtain ⟨cls, fixed⟩ := t
  cases cls <;> simp only [TypeObj.check] at h ⊢
  · split at h <;> try cases h
    rename_i s h1
    by_cases h2 : fixed = 0 <;> by_cases h3 : v / s.size = fixed <;> simp_all
  · by_cases h2 : fixed = 0 <;> by_cases h3 : v = fixed <;> simp_all

/-- **C94**, trying again: if an open failed because of memory or communication, then the same open
succeeds as soon as memory and communication are available, for every type. -/
theorem C94_retry (kind : LevelKind) (distributed : Bool) (t : TypeObj) (o again : OpenTry)
    (e : Error) (he : (openCalls kind distributed t [o]).2 = [e]) (hf : e ∉ fileErrors)
    (hsame : again = { o with res := ⟨.SUCCESS, .SUCCESS, .SUCCESS⟩ }) :
    (openCalls kind distributed t [o, again]).2 = [e, .SUCCESS] := by
  subst hsame
  rw [openCalls_cons] at he
  rw [openCalls_cons, openCalls_cons]
  simp only [openCalls, List.cons.injEq, and_true] at he ⊢
  refine ⟨he, ?_⟩
  have hlev : ∃ v eff, readerOpen o.fs o.file o.var = (.ok v, eff) ∧ (t.check v.varSize).2 = .SUCCESS := by
    cases hr : readerOpen o.fs o.file o.var with
    | mk x eff =>
      cases x with
      | error e' =>
        have h1 : levelOpen o.fs o.file o.var true t = (t, e', eff) := by
          simp [levelOpen, hr]
        have h2 : e' ∈ fileErrors := by
          simp only [readerOpen] at hr
          split at hr
          · cases hr; decide
          · split at hr
            · cases hr; decide
            · split at hr <;> cases hr
              decide
        exfalso
        apply hf
        rw [← he, openKind, h1]
        cases e' <;> simp_all [fileErrors]
      | ok v =>
        refine ⟨v, eff, rfl, ?_⟩
        by_contra hne
        have h1 : levelOpen o.fs o.file o.var true t = ((t.check v.varSize).1, (t.check v.varSize).2, eff) := by
          simp [levelOpen, hr]
        have h2 : (t.check v.varSize).2 ∈ fileErrors := by
          revert hne
          obtain ⟨cls, fixed⟩ := t
          cases cls <;> simp only [TypeObj.check] <;> (try split_ifs) <;> simp [fileErrors]
        apply hf
        rw [← he, openKind, h1]
        generalize (t.check v.varSize).2 = x at *
        cases x <;> simp_all
  obtain ⟨v, eff, hr, hc⟩ := hlev
  have h1 : levelOpen o.fs o.file o.var true t = ((t.check v.varSize).1, .SUCCESS, eff) := by
    simp [levelOpen, hr, hc]
  have ht : (openKind kind distributed o.res o.fs o.file o.var true t).1 = (t.check v.varSize).1 := by
    simp only [openKind, h1]
    cases kind <;> simp only <;> (try split_ifs) <;> rfl
  have h2 : levelOpen o.fs o.file o.var true (t.check v.varSize).1 =
      (((t.check v.varSize).1.check v.varSize).1, .SUCCESS, eff) := by
    simp [levelOpen, hr, TypeObj.check_again t v.varSize hc]
  rw [ht, openKind, h2]
  cases kind <;> simp only <;> (try split_ifs) <;> simp_all

/-- **C94 is violated** for later opens of array and struct grids: an open that failed because of memory or
communication has fixed the size of the values. A later open of a file with values of
another size, which would succeed in a new grid, fails. -/
theorem C94_later_violated (distributed : Bool) (err : Error) (herr : err ≠ .SUCCESS) :
    ∃ (fs : FileSystem) (a b var : Str),
      let bad : Resources := ⟨err, .SUCCESS, .SUCCESS⟩
      let good : Resources := ⟨.SUCCESS, .SUCCESS, .SUCCESS⟩
      (openCalls .full distributed (TypeObj.new (.array .float)) [⟨bad, fs, a, var⟩, ⟨good, fs, b, var⟩]).2 =
        [err, .WRONG_SIZE] ∧
      (openCalls .full distributed (TypeObj.new (.array .float)) [⟨good, fs, b, var⟩]).2 = [.SUCCESS] := by
  refine ⟨fun f => some fun _ => some ⟨2, if f = [] then 8 else 16⟩, [], ['b'], [], ?_⟩
  cases distributed <;> cases err <;> first | contradiction | decide

/-- The second of three opens fails because there is no such file, the others succeed. -/
example : let good : Resources := ⟨.SUCCESS, .SUCCESS, .SUCCESS⟩
    let fs : FileSystem := fun f => if f = [] then none else some fun _ => some ⟨2, 8⟩
    Resources.Real good ∧
    (openCalls .cache true (TypeObj.new (.array .float))
      [⟨good, fs, ['a'], []⟩, ⟨good, fs, [], []⟩, ⟨good, fs, ['b'], []⟩]).2 =
      [.SUCCESS, .NOT_OPEN, .SUCCESS] := by
  exact ⟨by simp [Resources.Real, fileErrors], by decide⟩

/-- An open fails because the MPI window cannot be created. -/
example : (openCalls .cache true (TypeObj.new (.array .float))
      [⟨⟨.SUCCESS, .SUCCESS, .MPI_ERROR⟩, fun _ => some fun _ => some ⟨2, 8⟩, [], []⟩]).2 =
      [.MPI_ERROR] ∧ Error.MPI_ERROR ∉ fileErrors := by decide

/-! ### Other levels -/

theorem lastFile_append (ops : List (Nat × Nat)) (o : Nat × Nat) (level : Nat) :
    lastFile (ops ++ [o]) level = if o.1 = level then some o.2 else lastFile ops level := by
  unfold lastFile
  rw [List.reverse_append, List.reverse_singleton, List.singleton_append, List.find?_cons]
  by_cases hl : o.1 = level <;> simp [hl]

/-- **C94**, other levels, exactly: a getter delivers the values of the file that was opened last for the
level if this was not before the list of levels was last enlarged beyond its capacity, be it by an
open that succeeded or by one that failed; it is undefined otherwise. -/
theorem C94_levels_exact_partial (ops : List (Nat × Option Nat × Nat)) (level : Nat) :
    (Levels.new.runF ops).get level = lastFile (keptOpens ops).2 level := by
  have inv : ∀ ops : List (Nat × Option Nat × Nat), let c := Levels.new.runF ops
      c.capacity = (keptOpens ops).1 ∧ c.levels.length ≤ c.capacity ∧
      (∀ level : Nat, c.levels[level]?.bind LevelObj.geometry = lastFile (keptOpens ops).2 level) ∧
      (∀ l ∈ c.levels, l.geometry.isSome → ∃ h, l.data = some h ∧ h ∈ c.live) := by
    intro ops
    induction ops using List.reverseRecOn with
    | nil => exact ⟨rfl, Nat.le_refl _, fun _ => rfl, fun l hl => by cases hl⟩
    | append_singleton ops o ih =>
      obtain ⟨i1, i2, i3, i4⟩ := ih
      obtain ⟨lv, f, g⟩ := o
      generalize hc : Levels.new.runF ops = c at i1 i2 i3 i4
      generalize hk : keptOpens ops = k at i1 i2 i3 i4
      -- the list after it was enlarged
      let c1 := c.openFail lv g
      let k1 : Nat × List (Nat × Nat) := if lv < k.1 then k else (max (lv + 1) g, [])
      have h1 : c1.capacity = k1.1 ∧ c1.levels.length ≤ c1.capacity ∧ lv < c1.levels.length ∧
          (∀ level : Nat, c1.levels[level]?.bind LevelObj.geometry = lastFile k1.2 level) ∧
          (∀ l ∈ c1.levels, l.geometry.isSome → ∃ h, l.data = some h ∧ h ∈ c1.live) := by
        by_cases hcap : lv < k.1
        · simp only [c1, k1, if_pos hcap, Levels.openFail]
          by_cases hl : c.levels.length ≤ lv
          · rw [if_pos hl]
            simp only [Levels.resize]
            rw [if_pos (by rw [i1]; omega)]
            refine ⟨i1, by simp; omega, by simp; omega, fun level => ?_, fun l hl hg => ?_⟩
            · rw [← i3 level]
              by_cases hlt : level < c.levels.length
              · rw [List.getElem?_append_left hlt]
              · rw [List.getElem?_append_right (by omega), List.getElem?_replicate,
                  List.getElem?_eq_none (show c.levels.length ≤ level by omega)]
                split <;> rfl
            · rcases List.mem_append.1 hl with hl | hl
              · exact i4 l hl hg
              · simp only [List.mem_replicate] at hl
                rw [hl.2] at hg; cases hg
          · rw [if_neg hl]
            exact ⟨i1, i2, by omega, i3, i4⟩
        · have hnone : ∀ l ∈ c.levels.map LevelObj.copy ++
              List.replicate (lv + 1 - c.levels.length) LevelObj.prototype.copy, l.geometry = none := by
            intro l hl
            rcases List.mem_append.1 hl with hl | hl
            · obtain ⟨a, -, rfl⟩ := List.mem_map.1 hl; rfl
            · rw [(List.mem_replicate.1 hl).2]; rfl
          have hlen : (c.levels.map LevelObj.copy ++
              List.replicate (lv + 1 - c.levels.length) LevelObj.prototype.copy).length = lv + 1 := by
            simp; omega
          simp only [c1, k1, if_neg hcap, Levels.openFail]
          rw [if_pos (show c.levels.length ≤ lv by omega)]
          simp only [Levels.resize]
          rw [if_neg (by omega)]
          simp only
          refine ⟨trivial, by rw [hlen]; omega, by rw [hlen]; omega, fun level => ?_, fun l hl hg => ?_⟩
          · cases he : (c.levels.map LevelObj.copy ++
              List.replicate (lv + 1 - c.levels.length) LevelObj.prototype.copy)[level]? with
            | none => rfl
            | some l => exact hnone l (List.mem_of_getElem? he)
          · rw [hnone l hl] at hg; cases hg
      obtain ⟨j1, j2, j3, j4, j5⟩ := h1
      cases f with
      | none =>
        have e1 : Levels.new.runF (ops ++ [(lv, none, g)]) = c1 := by
          simp only [Levels.runF, List.foldl_append, List.foldl_cons, List.foldl_nil]
          show (Levels.new.runF ops).openFail lv g = c1
          rw [hc]
        have e2 : keptOpens (ops ++ [(lv, none, g)]) = k1 := by
          simp only [keptOpens, List.foldl_append, List.foldl_cons, List.foldl_nil]
          show (if lv < (keptOpens ops).1 then keptOpens ops else _) = k1
          rw [hk]
        rw [e1, e2]
        exact ⟨j1, j2, j4, j5⟩
      | some f =>
        have e1 : Levels.new.runF (ops ++ [(lv, some f, g)]) = c.open lv f g := by
          simp only [Levels.runF, List.foldl_append, List.foldl_cons, List.foldl_nil]
          show (Levels.new.runF ops).open lv f g = _
          rw [hc]
        have e3 : c.open lv f g = { c1 with
            levels := c1.levels.set lv ⟨some f, some c1.next⟩
            live := c1.next :: c1.live
            next := c1.next + 1 } := rfl
        have e2 : keptOpens (ops ++ [(lv, some f, g)]) = (k1.1, k1.2 ++ [(lv, f)]) := by
          simp only [keptOpens, List.foldl_append, List.foldl_cons, List.foldl_nil]
          show ((if lv < (keptOpens ops).1 then keptOpens ops else _).1,
            (if lv < (keptOpens ops).1 then keptOpens ops else _).2 ++ _) = _
          rw [hk]
        rw [e1, e2, e3]
        refine ⟨j1, by rw [List.length_set]; exact j2, fun level => ?_, fun l hl hg => ?_⟩
        · rw [lastFile_append]
          by_cases hl : lv = level
          · subst hl
            rw [if_pos rfl, List.getElem?_set_self j3]
            rfl
          · rw [if_neg hl, List.getElem?_set_ne hl]
            exact j4 level
        · rcases List.mem_or_eq_of_mem_set hl with hl | rfl
          · obtain ⟨h, h1, h2⟩ := j5 l hl hg
            exact ⟨h, h1, List.mem_cons_of_mem _ h2⟩
          · exact ⟨_, rfl, List.mem_cons_self⟩
  obtain ⟨-, -, i3, i4⟩ := inv ops
  rw [← i3 level]
  generalize Levels.new.runF ops = c at i3 i4
  unfold Levels.get
  simp only [Option.bind_eq_bind]
  cases hl : c.levels[level]? with
  | none => rfl
  | some l =>
    simp only [Option.bind_some]
    cases hg : l.geometry with
    | none => cases l.data <;> simp
    | some x =>
      obtain ⟨h, h1, h2⟩ := i4 l (List.mem_of_getElem? hl) (by rw [hg]; rfl)
      rw [h1, Option.bind_some, if_pos h2]

/-- **C94**, other levels, partial: if the finest level was opened first, opens that fail change nothing
for the values of the levels. -/
theorem C94_levels_partial (top file grow : Nat) (ops : List (Nat × Option Nat × Nat))
    (htop : ∀ o ∈ ops, o.1 ≤ top) (level : Nat) :
    (Levels.new.runF ((top, some file, grow) :: ops)).get level =
      lastSuccess ((top, some file, grow) :: ops) level := by
  rw [C94_levels_exact_partial]
  have : ∀ ops : List (Nat × Option Nat × Nat), (∀ o ∈ ops, o.1 ≤ top) →
      keptOpens ((top, some file, grow) :: ops) = (max (top + 1) grow,
        ((top, some file, grow) :: ops).filterMap fun o => o.2.1.map (fun f => (o.1, f))) := by
    intro ops
    induction ops using List.reverseRecOn with
    | nil => intro _; simp [keptOpens]
    | append_singleton ops o ih =>
      intro h
      have ih := ih (fun o ho => h o (by simp [ho]))
      have hk : keptOpens ((top, some file, grow) :: (ops ++ [o])) =
          (let x := if o.1 < (keptOpens ((top, some file, grow) :: ops)).1 then
              keptOpens ((top, some file, grow) :: ops) else (max (o.1 + 1) o.2.2, [])
            match o.2.1 with
            | some file => (x.1, x.2 ++ [(o.1, file)])
            | none => x) := by
        unfold keptOpens
        rw [← List.cons_append, List.foldl_append]
        rfl
      rw [hk, ih]
      have := h o (by simp)
      simp only
      rw [if_pos (by omega)]
      obtain ⟨lv, f, g⟩ := o
      cases f <;> simp [List.filterMap_append]
  rw [this ops htop]
  rfl

/-- Level 2 is opened, then level 0; opens of level 1 and level 0 fail. -/
example : (Levels.new.runF [(2, some 5, 0), (0, some 7, 0), (1, none, 0), (0, none, 0)]).get 0 = some 7 ∧
    (Levels.new.runF [(2, some 5, 0), (0, some 7, 0), (1, none, 0), (0, none, 0)]).get 1 = none := by
  decide

/-- **C94 is violated** for other levels: an open of a finer level that fails, for example because the file does not
exist, may destroy the level that was opened before. -/
theorem C94_levels_violated (grow : Nat) :
    (Levels.new.runF [(0, some 7, 0)]).get 0 = some 7 ∧
    (Levels.new.runF [(0, some 7, 0), (1, none, grow)]).get 0 = none := by
  rw [C94_levels_exact_partial, C94_levels_exact_partial]
  simp [keptOpens, lastFile]

end Asagi.Props
