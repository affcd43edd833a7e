import Verif.Model.Open
import Mathlib.Data.List.Basic
import Mathlib.Data.List.Induction
/-
Properties of open: C42, C44.
-/
namespace Asagi.Props
open Asagi

/-! ### C44 -/

/-- The documented cascade: what open of a level should report for the file, given that the calling
thread is registered. -/
def expectedError (fs : FileSystem) (file var : Str) (t : TypeObj) : Error :=
  match fs file with
  | none => .NOT_OPEN
  | some vars => match vars var with
    | none => .VAR_NOT_FOUND
    | some v => if 4 < v.dims then .UNSUPPORTED_DIMENSIONS else (t.check v.varSize).2

theorem check_results (t : TypeObj) (v : Nat) :
    (t.check v).2 = .SUCCESS ∨ (t.check v).2 = .INVALID_VAR_SIZE ∨
    (t.check v).2 = .WRONG_SIZE := by
  unfold TypeObj.check
  cases t.cls with
  | basic => simp
  | array s =>
    by_cases h1 : v % s.size ≠ 0
    · simp [h1]
    · by_cases h2 : t.fixed = 0
      · simp [h1, h2]
      · by_cases h3 : v / s.size = t.fixed <;> simp [h1, h2, h3]
  | struct =>
    by_cases h2 : t.fixed = 0
    · simp [h2]
    · by_cases h3 : v = t.fixed <;> simp [h2, h3]

/-- **C44.** For every kind of grid: open reports NOT_OPEN if the file cannot be opened,
VAR_NOT_FOUND if it does not contain the variable, UNSUPPORTED_DIMENSIONS if the variable has more
than four dimensions and INVALID_VAR_SIZE or WRONG_SIZE if the type check says so, whether or not
memory and communication are available. In all these cases nothing was allocated or loaded and the
file was closed again unless the type check failed, and a failure because of the file or variable
does not fix the size of the values. If the file is good and memory and communication are
available, open succeeds; exactly a FULL grid then has loaded its blocks and closed the file. -/
theorem C44_open_errors (kind : LevelKind) (distributed : Bool) (res : Resources)
    (fs : FileSystem) (file var : Str) (t : TypeObj) :
    let r := openKind kind distributed res fs file var true t
    (expectedError fs file var t ≠ .SUCCESS →
      r.2.1 = expectedError fs file var t ∧
      (∀ x ∈ r.2.2, x = .ncOpen ∨ x = .ncClose) ∧
      (r.2.1 = .NOT_OPEN ∨ r.2.1 = .VAR_NOT_FOUND ∨ r.2.1 = .UNSUPPORTED_DIMENSIONS →
        r.1 = t ∧ r.2.2.count .ncOpen = r.2.2.count .ncClose)) ∧
    (expectedError fs file var t = .SUCCESS →
      res.alloc = .SUCCESS → res.cacheAlloc = .SUCCESS → res.transfer = .SUCCESS →
      r.2.1 = .SUCCESS ∧ Effect.allocate ∈ r.2.2 ∧
      (Effect.loadBlocks ∈ r.2.2 ↔ kind = .full) ∧
      (Effect.ncClose ∈ r.2.2 ↔ kind = .full) ∧
      (Effect.initTransfer ∈ r.2.2 ↔ distributed = true ∧ kind ≠ .passThrough)) := by
  intro r
  have hr : r = openKind kind distributed res fs file var true t := rfl
  clear_value r
  unfold openKind at hr
  cases hf : fs file with
  | none =>
    have hl : levelOpen fs file var true t = (t, .NOT_OPEN, []) := by
      simp [levelOpen, readerOpen, hf]
    have he : expectedError fs file var t = .NOT_OPEN := by simp [expectedError, hf]
    rw [hl] at hr
    rw [he, hr]; simp
  | some vars =>
    cases hv : vars var with
    | none =>
      have hl : levelOpen fs file var true t = (t, .VAR_NOT_FOUND, [.ncOpen, .ncClose]) := by
        unfold levelOpen readerOpen; simp only [hf, hv]; rfl
      have he : expectedError fs file var t = .VAR_NOT_FOUND := by
        unfold expectedError; simp only [hf, hv]
      rw [hl] at hr
      rw [he, hr]; simp
    | some v =>
      by_cases hd : 4 < v.dims
      · have hl : levelOpen fs file var true t =
            (t, .UNSUPPORTED_DIMENSIONS, [.ncOpen, .ncClose]) := by
          unfold levelOpen readerOpen; simp only [hf, hv, maxDimensions, gt_iff_lt, hd, if_true]; rfl
        have he : expectedError fs file var t = .UNSUPPORTED_DIMENSIONS := by
          unfold expectedError; simp only [hf, hv, hd, if_true]
        rw [hl] at hr
        rw [he, hr]; simp
      · have hl : levelOpen fs file var true t =
            ((t.check v.varSize).1, (t.check v.varSize).2, [.ncOpen]) := by
          unfold levelOpen readerOpen
          simp only [hf, hv, maxDimensions, gt_iff_lt, hd, if_false]; rfl
        have he : expectedError fs file var t = (t.check v.varSize).2 := by
          unfold expectedError; simp only [hf, hv, hd, if_false]
        rw [hl] at hr
        rw [he]
        rcases check_results t v.varSize with hc | hc | hc
        · rw [hc] at hr ⊢
          refine ⟨fun h => absurd rfl h, fun _ h1 h2 h3 => ?_⟩
          simp only [h1, h2, h3] at hr
          rw [hr]
          cases kind <;> cases distributed <;> simp
        · rw [hc] at hr ⊢; rw [hr]; simp
        · rw [hc] at hr ⊢; rw [hr]; simp

/-- The resources that open of a grid needs, in the order in which it asks for them: the memory of the
blocks or of the cache; distributed grids also the communication, and distributed FULL grids before that
the memory of a second cache. -/
def neededResources : LevelKind → Bool → Resources → List Error
  | .passThrough, _, _ => []
  | _, false, res => [res.alloc]
  | .cache, true, res => [res.alloc, res.transfer]
  | .full, true, res => [res.alloc, res.cacheAlloc, res.transfer]

/-- **C44.** If the file is good, open reports the error of the first resource that is not available, and
succeeds exactly if all that it needs are available. The communication is then set up, and only
then. -/
theorem C44_open_resources (kind : LevelKind) (distributed : Bool) (res : Resources)
    (fs : FileSystem) (file var : Str) (t : TypeObj)
    (h : expectedError fs file var t = .SUCCESS) :
    let r := openKind kind distributed res fs file var true t
    r.2.1 = ((neededResources kind distributed res).find? (· ≠ .SUCCESS)).getD .SUCCESS ∧
    (r.2.1 = .SUCCESS ↔ ∀ e ∈ neededResources kind distributed res, e = .SUCCESS) ∧
    (Effect.initTransfer ∈ r.2.2 ↔ r.2.1 = .SUCCESS ∧ distributed = true ∧ kind ≠ .passThrough) := by
  intro r
  have hr : r = openKind kind distributed res fs file var true t := rfl
  clear_value r
  obtain ⟨t', hl⟩ : ∃ t', levelOpen fs file var true t = (t', .SUCCESS, [.ncOpen]) := by
    unfold expectedError at h
    split at h
    · cases h
    · next vars hf =>
      split at h
      · cases h
      · next v hv =>
        split at h
        · cases h
        · next hd =>
          refine ⟨(t.check v.varSize).1, ?_⟩
          unfold levelOpen readerOpen
          simp only [hf, hv, maxDimensions, gt_iff_lt, hd, if_false]
          rw [← h]; rfl
  unfold openKind at hr
  rw [hl] at hr
  rw [hr]
  by_cases h1 : res.alloc = .SUCCESS <;> by_cases h2 : res.cacheAlloc = .SUCCESS <;>
    by_cases h3 : res.transfer = .SUCCESS <;> cases kind <;> cases distributed <;>
    simp [neededResources, h1, h2, h3]

/-- Non-trivial case: the second cache of a distributed FULL grid cannot be allocated. -/
example :
    let fs : FileSystem := fun f => if f = "a.nc".toList then
      some (fun v => if v = "z".toList then some ⟨2, 4⟩ else none) else none
    expectedError fs "a.nc".toList "z".toList (TypeObj.new (.basic .float)) = .SUCCESS ∧
    (openKind .full true ⟨.SUCCESS, .MPI_ERROR, .SUCCESS⟩ fs "a.nc".toList "z".toList true
      (TypeObj.new (.basic .float))).2.1 = .MPI_ERROR := by
  decide +kernel

/-- A thread that is not registered gets THREAD_ERROR and nothing happens. -/
theorem C44_thread_error (kind : LevelKind) (distributed : Bool) (res : Resources)
    (fs : FileSystem) (file var : Str) (t : TypeObj) :
    openKind kind distributed res fs file var false t = (t, .THREAD_ERROR, []) := rfl

/-- Non-trivial case: one file with a 2-dimensional float variable, opened as an array. -/
example :
    let fs : FileSystem := fun f => if f = "a.nc".toList then
      some (fun v => if v = "z".toList then some ⟨2, 6⟩ else none) else none
    expectedError fs "a.nc".toList "z".toList (TypeObj.new (.array .float)) = .INVALID_VAR_SIZE ∧
    expectedError fs "a.nc".toList "z".toList (TypeObj.new (.basic .float)) = .SUCCESS ∧
    expectedError fs "a.nc".toList "y".toList (TypeObj.new (.basic .float)) = .VAR_NOT_FOUND := by
  decide +kernel

/-! ### C42 -/

/-- The file a level should deliver after a sequence of opens: the last one opened for it. -/
def lastOpened (ops : List (Nat × Nat × Nat)) (level : Nat) : Option Nat :=
  (ops.reverse.find? (fun o => o.1 = level)).map (fun o => o.2.1)

/-- **C42, violated.** After open(level 0) and open(level 1), whatever capacity the vector
chooses for level 0 if it is exactly as large as needed, getters of level 0 are undefined. -/
theorem C42_reopen_violated (grow : Nat) :
    (Levels.new.run [(0, 7, 0)]).get 0 = some 7 ∧
    (Levels.new.run [(0, 7, 0), (1, 8, grow)]).get 0 = none := by
  constructor
  · decide
  · simp [Levels.run, Levels.open, Levels.new, Levels.resize, Levels.get, LevelObj.copy,
      LevelObj.prototype]

/-- **C42, partial.** Proved: if no open enlarges the list beyond its capacity after the first one
(in particular if the highest level is opened first), every level delivers the values of the file
opened last for it. Missing (and false, see above): ascending order of levels. -/
theorem C42_levels_partial (top file grow : Nat) (ops : List (Nat × Nat × Nat))
    (htop : ∀ o ∈ ops, o.1 ≤ top ∨ o.1 < grow) (level : Nat) :
    (Levels.new.run ((top, file, grow) :: ops)).get level =
      lastOpened ((top, file, grow) :: ops) level := by
  have inv : ∀ ops : List (Nat × Nat × Nat), (∀ o ∈ ops, o.1 ≤ top ∨ o.1 < grow) →
      let c := Levels.new.run ((top, file, grow) :: ops)
      c.capacity = max (top + 1) grow ∧
      (∀ h ∈ c.levels.filterMap LevelObj.data, h ∈ c.live) ∧
      (∀ level : Nat, c.levels[level]?.bind LevelObj.geometry =
        lastOpened ((top, file, grow) :: ops) level) ∧
      (∀ l ∈ c.levels, l.geometry.isSome → l.data.isSome) := by
    intro ops
    induction ops using List.reverseRecOn with
    | nil =>
      intro _
      have hc : Levels.new.run [(top, file, grow)] =
          ⟨List.replicate top ⟨none, none⟩ ++ [⟨some file, some 0⟩], max (top + 1) grow, [0], 1⟩ := by
        simp only [Levels.run, List.foldl_cons, List.foldl_nil, Levels.open, Levels.new,
          List.length_nil, Nat.zero_le, if_true, Levels.resize, Nat.sub_zero]
        rw [if_neg (by omega)]
        simp only [List.map_nil, List.nil_append, List.filter_nil]
        congr 1
        rw [List.replicate_succ', List.set_append_right _ _ (by simp)]
        simp [LevelObj.copy, LevelObj.prototype]
      rw [hc]
      refine ⟨rfl, ?_, ?_, ?_⟩
      · intro h hh
        simp only [List.filterMap_append, List.mem_append, List.mem_filterMap, List.mem_replicate,
          List.mem_singleton] at hh
        rcases hh with ⟨a, ⟨-, rfl⟩, ha⟩ | ⟨a, rfl, ha⟩
        · simp at ha
        · simp at ha; simp [ha]
      · intro level
        simp only [lastOpened, List.reverse_cons, List.reverse_nil, List.nil_append,
          List.find?_cons, List.find?_nil]
        rcases Nat.lt_trichotomy level top with h | h | h
        · rw [List.getElem?_append_left (by simpa using h), List.getElem?_replicate, if_pos h]
          have : ¬ top = level := by omega
          simp [this]
        · subst h
          rw [List.getElem?_append_right (by simp)]
          simp
        · rw [List.getElem?_eq_none (by simp; omega)]
          have : ¬ top = level := by omega
          simp [this]
      · intro l hl
        simp only [List.mem_append, List.mem_replicate, List.mem_singleton] at hl
        rcases hl with ⟨-, rfl⟩ | rfl <;> simp
    | append_singleton ops o ih =>
      intro ho
      obtain ⟨i1, i2, i3, i4⟩ := ih (fun x hx => ho x (by simp [hx]))
      have hrun : Levels.new.run ((top, file, grow) :: (ops ++ [o])) =
          (Levels.new.run ((top, file, grow) :: ops)).open o.1 o.2.1 o.2.2 := by
        simp [Levels.run, List.foldl_append]
      rw [hrun]
      generalize Levels.new.run ((top, file, grow) :: ops) = c at i1 i2 i3 i4
      obtain ⟨lv, f, g⟩ := o
      have hlast : ∀ level, lastOpened ((top, file, grow) :: (ops ++ [(lv, f, g)])) level =
          if lv = level then some f else lastOpened ((top, file, grow) :: ops) level := by
        intro level
        unfold lastOpened
        rw [← List.cons_append, List.reverse_append, List.reverse_singleton, List.singleton_append,
          List.find?_cons]
        by_cases hl : lv = level
        · simp [hl]
        · simp [hl]
      have hlv := ho (lv, f, g) (by simp)
      simp only at hlv ⊢
      -- the list after the possible resize
      have hres : ∃ k, (if c.levels.length ≤ lv then c.resize (lv + 1) g else c) =
          { c with levels := c.levels ++ List.replicate k ⟨none, none⟩ } ∧
          lv < (c.levels ++ List.replicate k (⟨none, none⟩ : LevelObj)).length := by
        by_cases hl : c.levels.length ≤ lv
        · refine ⟨lv + 1 - c.levels.length, ?_, by simp; omega⟩
          rw [if_pos hl]
          simp only [Levels.resize]
          rw [if_pos (by rw [i1]; omega)]
          rfl
        · exact ⟨0, by rw [if_neg hl]; simp, by simp; omega⟩
      obtain ⟨k, hk, hlen⟩ := hres
      unfold Levels.open
      simp only [hk]
      refine ⟨i1, ?_, ?_, ?_⟩
      · intro h hh
        simp only [List.mem_filterMap] at hh
        obtain ⟨a, ha, hd⟩ := hh
        rcases List.mem_or_eq_of_mem_set ha with ha | rfl
        · rcases List.mem_append.1 ha with ha | ha
          · exact List.mem_cons_of_mem _ (i2 h (List.mem_filterMap.2 ⟨a, ha, hd⟩))
          · simp only [List.mem_replicate] at ha
            rw [ha.2] at hd; simp at hd
        · simp only [Option.some.injEq] at hd
          simp [hd]
      · intro level
        rw [hlast]
        by_cases hl : lv = level
        · subst hl
          rw [if_pos rfl, List.getElem?_set_self hlen]
          rfl
        · rw [if_neg hl, List.getElem?_set_ne hl, ← i3 level]
          by_cases hlt : level < c.levels.length
          · rw [List.getElem?_append_left hlt]
          · rw [List.getElem?_append_right (by omega), List.getElem?_replicate,
              List.getElem?_eq_none (show c.levels.length ≤ level by omega)]
            split <;> rfl
      · intro l hl
        rcases List.mem_or_eq_of_mem_set hl with hl | rfl
        · rcases List.mem_append.1 hl with hl | hl
          · exact i4 l hl
          · simp only [List.mem_replicate] at hl
            rw [hl.2]; simp
        · simp
  obtain ⟨-, i2, i3, i4⟩ := inv ops htop
  rw [← i3 level]
  generalize Levels.new.run ((top, file, grow) :: ops) = c at i2 i3 i4
  unfold Levels.get
  simp only [Option.bind_eq_bind]
  cases hl : c.levels[level]? with
  | none => rfl
  | some l =>
    have hm := List.mem_of_getElem? hl
    simp only [Option.bind_some]
    cases hd : l.data with
    | none =>
      simp only [Option.bind_none]
      cases hg : l.geometry with
      | none => rfl
      | some x =>
        have := i4 l hm (by simp [hg])
        simp [hd] at this
    | some h =>
      simp only [Option.bind_some]
      rw [if_pos (i2 h (List.mem_filterMap.2 ⟨l, hm, hd⟩))]

/-- The capacity of the vector after a sequence of opens (`grow`: what the implementation chooses, at least what is
needed), and the opens since it was last enlarged, with the one that did it. -/
def sinceGrowth : List (Nat × Nat × Nat) → Nat × List (Nat × Nat × Nat) :=
  List.foldl (fun x o => if o.1 < x.1 then (x.1, x.2 ++ [o]) else (max (o.1 + 1) o.2.2, [o])) (0, [])

theorem lastOpened_append (ops : List (Nat × Nat × Nat)) (o : Nat × Nat × Nat) (level : Nat) :
    lastOpened (ops ++ [o]) level = if o.1 = level then some o.2.1 else lastOpened ops level := by
  unfold lastOpened
  rw [List.reverse_append, List.reverse_singleton, List.singleton_append, List.find?_cons]
  by_cases hl : o.1 = level <;> simp [hl]

/-- **C42**, exactly: a getter delivers the values of the file that was opened last for the level if this was not
before the list of levels was last enlarged beyond its capacity, and is undefined otherwise. -/
theorem C42_exact_partial (ops : List (Nat × Nat × Nat)) (level : Nat) :
    (Levels.new.run ops).get level = lastOpened (sinceGrowth ops).2 level := by
  have inv : ∀ ops : List (Nat × Nat × Nat), let c := Levels.new.run ops
      c.capacity = (sinceGrowth ops).1 ∧ c.levels.length ≤ c.capacity ∧
      (∀ level : Nat, c.levels[level]?.bind LevelObj.geometry = lastOpened (sinceGrowth ops).2 level) ∧
      (∀ l ∈ c.levels, l.geometry.isSome → ∃ h, l.data = some h ∧ h ∈ c.live) := by
    intro ops
    induction ops using List.reverseRecOn with
    | nil => exact ⟨rfl, Nat.le_refl _, fun _ => rfl, fun l hl => by cases hl⟩
    | append_singleton ops o ih =>
      obtain ⟨i1, i2, i3, i4⟩ := ih
      have hrun : Levels.new.run (ops ++ [o]) = (Levels.new.run ops).open o.1 o.2.1 o.2.2 := by
        simp [Levels.run, List.foldl_append]
      have hsince : sinceGrowth (ops ++ [o]) = if o.1 < (sinceGrowth ops).1 then
          ((sinceGrowth ops).1, (sinceGrowth ops).2 ++ [o]) else (max (o.1 + 1) o.2.2, [o]) := by
        unfold sinceGrowth
        rw [List.foldl_append]
        rfl
      rw [hrun, hsince]
      generalize Levels.new.run ops = c at i1 i2 i3 i4
      obtain ⟨lv, f, g⟩ := o
      simp only
      by_cases hcap : lv < (sinceGrowth ops).1
      · rw [if_pos hcap]
        obtain ⟨k, hk, hlen, hle⟩ : ∃ k, (if c.levels.length ≤ lv then c.resize (lv + 1) g else c) =
            { c with levels := c.levels ++ List.replicate k ⟨none, none⟩ } ∧
            lv < (c.levels ++ List.replicate k (⟨none, none⟩ : LevelObj)).length ∧
            (c.levels ++ List.replicate k (⟨none, none⟩ : LevelObj)).length ≤ c.capacity := by
          by_cases hl : c.levels.length ≤ lv
          · refine ⟨lv + 1 - c.levels.length, ?_, by simp; omega, by simp; omega⟩
            rw [if_pos hl]
            simp only [Levels.resize]
            rw [if_pos (by rw [i1]; omega)]
            rfl
          · exact ⟨0, by rw [if_neg hl]; simp, by simp; omega, by simpa using i2⟩
        unfold Levels.open
        simp only [hk]
        refine ⟨i1, by rw [List.length_set]; exact hle, fun level => ?_, fun l hl hg => ?_⟩
        · rw [lastOpened_append]
          by_cases hl : lv = level
          · subst hl
            rw [if_pos rfl, List.getElem?_set_self hlen]
            rfl
          · rw [if_neg hl, List.getElem?_set_ne hl, ← i3 level]
            by_cases hlt : level < c.levels.length
            · rw [List.getElem?_append_left hlt]
            · rw [List.getElem?_append_right (by omega), List.getElem?_replicate,
                List.getElem?_eq_none (show c.levels.length ≤ level by omega)]
              split <;> rfl
        · rcases List.mem_or_eq_of_mem_set hl with hl | rfl
          · rcases List.mem_append.1 hl with hl | hl
            · obtain ⟨h, h1, h2⟩ := i4 l hl hg
              exact ⟨h, h1, List.mem_cons_of_mem _ h2⟩
            · simp only [List.mem_replicate] at hl
              rw [hl.2] at hg; cases hg
          · exact ⟨_, rfl, List.mem_cons_self⟩
      · rw [if_neg hcap]
        have hnone : ∀ l ∈ c.levels.map LevelObj.copy ++
            List.replicate (lv + 1 - c.levels.length) LevelObj.prototype.copy, l.geometry = none := by
          intro l hl
          rcases List.mem_append.1 hl with hl | hl
          · obtain ⟨a, -, rfl⟩ := List.mem_map.1 hl; rfl
          · rw [(List.mem_replicate.1 hl).2]; rfl
        have hlen : (c.levels.map LevelObj.copy ++
            List.replicate (lv + 1 - c.levels.length) LevelObj.prototype.copy).length = lv + 1 := by
          simp; omega
        unfold Levels.open
        rw [if_pos (show c.levels.length ≤ lv by omega)]
        simp only [Levels.resize]
        rw [if_neg (by omega)]
        simp only
        refine ⟨by trivial, by rw [List.length_set, hlen]; omega, fun level => ?_, fun l hl hg => ?_⟩
        · rw [show [(lv, f, g)] = [] ++ [(lv, f, g)] from rfl, lastOpened_append]
          by_cases hl : lv = level
          · subst hl
            rw [if_pos rfl, List.getElem?_set_self (by omega)]
            rfl
          · rw [if_neg hl, List.getElem?_set_ne hl]
            cases he : (c.levels.map LevelObj.copy ++
              List.replicate (lv + 1 - c.levels.length) LevelObj.prototype.copy)[level]? with
            | none => rfl
            | some l => exact hnone l (List.mem_of_getElem? he)
        · rcases List.mem_or_eq_of_mem_set hl with hl | rfl
          · rw [hnone l hl] at hg; cases hg
          · exact ⟨_, rfl, List.mem_cons_self⟩
  obtain ⟨-, -, i3, i4⟩ := inv ops
  rw [← i3 level]
  generalize Levels.new.run ops = c at i3 i4
  unfold Levels.get
  simp only [Option.bind_eq_bind]
  cases hl : c.levels[level]? with
  | none => rfl
  | some l =>
    simp only [Option.bind_some]
    cases hg : l.geometry with
    | none => cases l.data <;> simp
    | some x =>
      obtain ⟨h, h1, h2⟩ := i4 l (List.mem_of_getElem? hl) (by rw [hg]; rfl)
      rw [h1, Option.bind_some, if_pos h2]

/-- Four opens, with a vector that doubles its capacity: level 0 is lost with the open of level 1 and opened again, level
1 stays until level 2 is opened. -/
example :
    (Levels.new.run [(0, 5, 0), (1, 6, 2), (0, 7, 0)]).get 0 = some 7 ∧
    (Levels.new.run [(0, 5, 0), (1, 6, 2)]).get 0 = none ∧
    (Levels.new.run [(0, 5, 0), (1, 6, 2), (0, 7, 0)]).get 1 = some 6 ∧
    (Levels.new.run [(0, 5, 0), (1, 6, 2), (0, 7, 0), (2, 8, 4)]).get 1 = none := by decide

/-- Non-trivial case: levels 2, 0, 1, and level 0 again. -/
example : (∀ o ∈ [(0, 5, 0), (1, 6, 0), (0, 7, 0)], (o : Nat × Nat × Nat).1 ≤ 2 ∨ o.1 < 3) ∧
    (Levels.new.run ((2, 4, 3) :: [(0, 5, 0), (1, 6, 0), (0, 7, 0)])).get 0 = some 7 := by decide

end Asagi.Props
