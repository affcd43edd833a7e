import Verif.Model.Api
import Mathlib.Data.List.Basic
import Mathlib.Data.List.Nodup
import Mathlib.Tactic.IntervalCases
import Mathlib.Tactic.Ring
import Mathlib.Data.List.Induction
/-
Properties of the small API functions: C20, C26, C31, C32, C33, C41, C45, C46, C50.
-/
namespace Asagi.Props
open Asagi

/-! ### C41: error codes -/

/-- **C41, violated** in the C interface: the number returned for INVALID_VAR_SIZE means
MULTIPLE_TOPGRIDS there. -/
theorem C41_c_violated :
    ∃ n, errorNumber .INVALID_VAR_SIZE = some n ∧ cErrors[n]? = some .MULTIPLE_TOPGRIDS :=
  ⟨12, by decide, by decide⟩

/-- **C41, partial.** Proved: every error of the library has the same meaning in Fortran, and
in C every error except INVALID_VAR_SIZE. Missing (and false): INVALID_VAR_SIZE in C. -/
theorem C41_error_codes_partial (e : Error) (he : e ∈ cxxErrors) :
    ∃ n, errorNumber e = some n ∧ cxxErrors[n]? = some e ∧ fortranErrors[n]? = some e ∧
      (e ≠ .INVALID_VAR_SIZE → cErrors[n]? = some e) := by
  have h : ∀ e ∈ cxxErrors, ∃ n < 13, errorNumber e = some n ∧ cxxErrors[n]? = some e ∧
      fortranErrors[n]? = some e ∧ (e ≠ .INVALID_VAR_SIZE → cErrors[n]? = some e) := by
    decide
  obtain ⟨n, -, h'⟩ := h e he
  exact ⟨n, h'⟩

example : Error.NOT_OPEN ∈ cxxErrors ∧ errorNumber .NOT_OPEN = some 8 := by decide

/-! ### C26, C50: counters -/

theorem gridGetCounter_level (containers : List (List Counters)) (name : String) (l l' : Nat) :
    gridGetCounter containers name l = gridGetCounter containers name l' := rfl

/-- Sum of one counter over all NUMA domains (as `unsigned long`). -/
def domainSum (containers : List (List Counters)) (name : String) (level : Nat) : Nat :=
  (containers.map fun levels =>
    match levels[level]? with
    | some c => c.get (name2type name)
    | none => 0).sum % ulongRange

/-- **C26, violated.** The result does not depend on the level: the counters of level 0 are
reported for every level. -/
theorem C26_level_violated :
    (∀ containers name level, gridGetCounter containers name level =
      gridGetCounter containers name 0) ∧
    ∃ containers : List (List Counters), (∀ ls ∈ containers, 1 < ls.length) ∧
      gridGetCounter containers "accesses" 1 ≠ some (domainSum containers "accesses" 1) :=
  ⟨fun _ _ _ => rfl, [[{ access := 3 }, { access := 5 }]], by decide, by decide⟩

/-- **C26, partial.** Proved: for level 0 `getCounter` reports the sum of the counter over all
NUMA domains. Missing (and false): other levels. -/
theorem C26_level0_partial (containers : List (List Counters)) (name : String)
    (h : ∀ ls ∈ containers, ls ≠ []) :
    gridGetCounter containers name 0 = some (domainSum containers name 0) := by
  suffices ∀ acc, containers.foldlM (fun sum (levels : List Counters) => do
      let c ← levels[0]?
      pure ((sum + c.get (name2type name)) % ulongRange)) (acc % ulongRange) =
      some ((acc + (containers.map fun levels =>
        match levels[0]? with
        | some c => c.get (name2type name)
        | none => 0).sum) % ulongRange) by
    have h0 := this 0
    simpa [gridGetCounter, domainSum] using h0
  induction containers with
  | nil => intro acc; rfl
  | cons ls rest ih =>
    intro acc
    obtain ⟨c, t, rfl⟩ := List.exists_cons_of_ne_nil (h ls (by simp))
    have ih' := ih (fun x hx => h x (by simp [hx])) (acc + c.get (name2type name))
    simp only [List.foldlM_cons, List.getElem?_cons_zero, Option.bind_eq_bind, Option.bind_some,
      Option.pure_def, List.map_cons, List.sum_cons]
    rw [Nat.mod_add_mod]
    refine ih'.trans ?_
    congr 2
    omega

example : gridGetCounter [[{ access := 3 }, { access := 5 }], [{ access := 4 }]] "accesses" 0 = some 7 := by
  decide

/-- The counter names in documentation/user/02_usage.h 286-313 with their descriptions. -/
def documentedCounters : List (String × (Counters → Nat)) :=
  [("accesses", fun c => c.access), ("numa_transfers", fun c => c.numa),
   ("mpi_transfers", fun c => c.mpi), ("file_load", fun c => c.file),
   ("local_hits", fun c => c.access - (c.numa + c.mpi + c.file)),
   ("node_hits", fun c => c.access - (c.mpi + c.file)),
   ("local_misses", fun c => c.numa + c.mpi + c.file)]

/-- **C50, violated.** The documented name `file_load` is not recognised: 0 is reported
whatever the number of loaded blocks (the name is `file_loads`). -/
theorem C50_file_load_violated :
    (∀ c : Counters, c.get (name2type "file_load") = 0) ∧
    ∀ c : Counters, c.get (name2type "file_loads") = c.file :=
  ⟨fun _ => rfl, fun _ => rfl⟩

/-- **C50, partial.** Proved: every other documented name reports the documented quantity (for
counters in which each access caused at most one transfer or load, see C25), and a name outside
of the table reports 0. Missing (and false): `file_load`. -/
theorem C50_names_partial (c : Counters) (hc : c.numa + c.mpi + c.file ≤ c.access)
    (hr : c.access < ulongRange) :
    (∀ p ∈ documentedCounters, p.1 ≠ "file_load" → c.get (name2type p.1) = p.2 c) ∧
    ∀ name, name ∉ documentedCounters.map Prod.fst → name ≠ "file_loads" →
      c.get (name2type name) = 0 := by
  have hsub : ∀ {a b : Nat}, a < ulongRange → b ≤ a → ulongSub a b = a - b := by
    intro a b ha hb
    unfold ulongSub
    rw [Nat.mod_eq_of_lt (by omega : b < ulongRange)]
    rw [show a + (ulongRange - b) = (a - b) + ulongRange by omega, Nat.add_mod_right,
      Nat.mod_eq_of_lt (by omega)]
  constructor
  · intro p hp hne
    simp only [documentedCounters, List.mem_cons, List.not_mem_nil, or_false] at hp
    rcases hp with rfl | rfl | rfl | rfl | rfl | rfl | rfl
    · rfl
    · rfl
    · rfl
    · exact absurd rfl hne
    · change ulongSub (ulongSub (ulongSub c.access c.numa) c.mpi) c.file = _
      have e1 := hsub hr (show c.numa ≤ c.access by omega)
      have e2 := hsub (show c.access - c.numa < ulongRange by omega)
        (show c.mpi ≤ c.access - c.numa by omega)
      rw [e1, e2, hsub (by omega) (by omega)]
      simp only; omega
    · change ulongSub (ulongSub c.access c.mpi) c.file = _
      have e1 := hsub hr (show c.mpi ≤ c.access by omega)
      rw [e1, hsub (by omega) (by omega)]
      simp only; omega
    · change (c.numa + c.mpi + c.file) % ulongRange = _
      rw [Nat.mod_eq_of_lt (by omega)]
  · intro name hn hf
    simp only [documentedCounters, List.map_cons, List.map_nil, List.mem_cons, List.not_mem_nil,
      or_false, not_or] at hn
    obtain ⟨h1, h2, h3, h4, h5, h6, h7⟩ := hn
    unfold name2type
    rw [if_neg h1, if_neg h2, if_neg h3, if_neg hf, if_neg h5, if_neg h6, if_neg h7]
    rfl

example : (1 : Nat) + 2 + 3 ≤ 10 ∧ "bogus" ∉ documentedCounters.map Prod.fst ∧
    (⟨10, 1, 2, 3⟩ : Counters).get (name2type "local_hits") = 4 := by
  refine ⟨by decide, by decide, by decide⟩

/-! ### C45: pinning -/

/-- **C45, violated.** For every CPU count and every k ≥ 1 the communication thread is never
pinned to the k-th last CPU; for k ≤ n it is "pinned" to CPU n + k, which does not exist. -/
theorem C45_negative_cpu_violated (n k : Nat) (hk : 1 ≤ k) :
    pinnedCpu n (-k) ≠ some ((n : Int) - k) ∧
    (k ≤ n → pinnedCpu n (-k) = some ((n : Int) + k)) := by
  unfold pinnedCpu
  have h2 : ¬ (-(k : Int) ≥ 0) := by omega
  rw [if_neg h2]
  by_cases h : k ≤ n
  · rw [if_pos (by omega)]
    refine ⟨by simp only [ne_eq, Option.some.injEq]; omega, fun _ => by simp⟩
  · rw [if_neg (by omega)]
    exact ⟨by simp, fun h' => absurd h' h⟩

/-- **C45, partial.** Proved: a CPU number 0 ≤ k < n pins the thread to that CPU and an invalid
number leaves it unpinned. Missing (and false): negative numbers. -/
theorem C45_pinning_partial (n k : Nat) :
    pinnedCpu n k = if k < n then some (k : Int) else none := by
  unfold pinnedCpu
  by_cases h : k < n
  · rw [if_pos (by omega), if_pos (by omega), if_pos h]
  · rw [if_neg (by omega), if_neg h]

/-! ### C31: Fortran handles -/

/-- The grids created by a history, in order. -/
def created (ops : List HandleOp) : List Nat :=
  ops.filterMap fun | .create g => some g | .close _ => none

theorem handleRun_spec (ops : List HandleOp) {a a' : PointerArray} {rs : List (Option Nat)}
    (h : handleRun a ops = some (a', rs)) :
    rs.filterMap id = List.range' a.length (created ops).length ∧
    a'.length = a.length + (created ops).length ∧
    ∀ i : Nat, a'.get i =
      if i < a.length then (a.get i).map (fun p => if .close i ∈ ops then none else p)
      else ((created ops)[i - a.length]?).map (fun g => if .close i ∈ ops then none else some g) := by
  induction ops generalizing a rs with
  | nil =>
    simp only [handleRun, Option.some.injEq, Prod.mk.injEq] at h
    obtain ⟨rfl, rfl⟩ := h
    refine ⟨rfl, rfl, fun i => ?_⟩
    split
    · simp
    · simp only [PointerArray.get, created]
      rw [List.getElem?_eq_none (by omega)]; simp
  | cons o os ih =>
    simp only [handleRun, Option.bind_eq_bind, Option.bind_eq_some_iff] at h
    obtain ⟨⟨a1, r⟩, h1, ⟨a2, rs2⟩, h2, h3⟩ := h
    simp only [Option.pure_def, Option.some.injEq, Prod.mk.injEq] at h3
    obtain ⟨rfl, rfl⟩ := h3
    obtain ⟨i1, i2, i3⟩ := ih h2
    cases o with
    | create g =>
      simp only [handleStep, PointerArray.add, Option.some.injEq, Prod.mk.injEq] at h1
      obtain ⟨rfl, rfl⟩ := h1
      have hc : created (.create g :: os) = g :: created os := rfl
      rw [hc]
      simp only [List.length_append, List.length_cons, List.length_nil] at i1 i2 i3 ⊢
      refine ⟨?_, by omega, ?_⟩
      · rw [List.filterMap_cons_some (b := a.length) (by simp), i1]
        rfl
      · intro i
        rw [i3 i]
        have hm : (HandleOp.close i ∈ HandleOp.create g :: os) = (HandleOp.close i ∈ os) := by simp
        simp only [hm]
        by_cases hi : i < a.length
        · rw [if_pos hi, if_pos (by omega)]
          simp only [PointerArray.get]
          rw [List.getElem?_append_left hi]
        · rw [if_neg hi]
          by_cases hi2 : i < a.length + 1
          · have : i = a.length := by omega
            subst this
            rw [if_pos (by omega)]
            simp [PointerArray.get]
          · rw [if_neg (by omega)]
            rw [show i - a.length = (i - (a.length + 1)) + 1 by omega, List.getElem?_cons_succ]
    | close k =>
      simp only [handleStep, Option.map_eq_some_iff, Prod.mk.injEq] at h1
      obtain ⟨a'', h1, rfl, rfl⟩ := h1
      simp only [PointerArray.remove] at h1
      split at h1
      · rename_i hk
        simp only [Option.some.injEq] at h1
        subst h1
        have hc : created (.close k :: os) = created os := rfl
        rw [hc]
        simp only [List.length_set] at i1 i2 i3 ⊢
        refine ⟨by simpa using i1, i2, ?_⟩
        intro i
        rw [i3 i]
        by_cases hik : i = k
        · subst hik
          rw [if_pos hk, if_pos hk]
          simp [PointerArray.get, hk]
        · have hm : (HandleOp.close i ∈ HandleOp.close k :: os) = (HandleOp.close i ∈ os) := by
            simp [hik]
          simp only [hm, PointerArray.get]
          rw [List.getElem?_set_ne (fun h => hik h.symm)]
      · cases h1

/-- **C31.** After any sequence of creating and closing grids: the handles given out are
0, 1, 2, ... in the order of creation, so no handle is ever given out twice; a handle refers to
the grid it was given out for until that handle is closed, and to no grid afterwards; closing
other handles has no influence. -/
theorem C31_handles (ops : List HandleOp) (a : PointerArray) (rs : List (Option Nat))
    (h : handleRun [] ops = some (a, rs)) :
    rs.filterMap id = List.range (created ops).length ∧
    ∀ (i g : Nat), (created ops)[i]? = some g →
      a.get i = some (if .close i ∈ ops then none else some g) := by
  obtain ⟨h1, h2, h3⟩ := handleRun_spec ops h
  refine ⟨by rw [h1]; simp [List.range_eq_range'], fun i g hg => ?_⟩
  rw [h3 i, if_neg (by simp)]
  simp [hg]

/-- A handle can be closed exactly if it was given out. -/
theorem C31_close_known (ops : List HandleOp) (a : PointerArray) (rs : List (Option Nat))
    (h : handleRun [] ops = some (a, rs)) (i : Nat) :
    (handleStep a (.close i)).isSome ↔ i < (created ops).length := by
  obtain ⟨-, h2, -⟩ := handleRun_spec ops h
  simp only [List.length_nil, Nat.zero_add] at h2
  simp only [handleStep, PointerArray.remove]
  split <;> simp <;> omega

example : handleRun [] [.create 70, .create 71, .close 0, .create 72] =
    some ([none, some 71, some 72], [some 0, some 1, none, some 2]) := by decide

/-! ### C32, C33: node-local ranks -/

theorem countEqual_spec (name : List Nat) (l : List (List Nat)) (n : Nat) :
    countEqual name l n = n + (l.filter (fun x => x = name)).length := by
  induction l generalizing n with
  | nil => rfl
  | cons x xs ih =>
    rw [countEqual, ih]
    by_cases h : name = x
    · subst h; simp; omega
    · have h' : ¬ x = name := fun e => h e.symm
      simp [h, h']

theorem take_idxOf_filter (p : Nat → Bool) (n r : Nat) (hr : r < n) (hp : p r = true) :
    ((List.range n).filter p).take (((List.range n).filter p).idxOf r) =
      (List.range r).filter p := by
  have hsplit : List.range n = List.range r ++ (r :: List.range' (r + 1) (n - (r + 1))) := by
    rw [List.range_eq_range', List.range_eq_range']
    rw [show List.range' 0 n = List.range' 0 (r + (n - r)) by rw [Nat.add_sub_cancel' (by omega)]]
    rw [← List.range'_append_1]
    congr 1
    rw [show n - r = (n - (r + 1)) + 1 by omega, List.range'_succ]
    simp
  rw [hsplit, List.filter_append, List.filter_cons_of_pos hp]
  have hnot : r ∉ (List.range r).filter p := by simp
  rw [List.idxOf_append_of_notMem hnot]
  simp

/-- **C32.** nodeLocalRank returns the number of lower ranks on a host with the same name,
also if different host names have the same hash value. -/
theorem C32_node_local_rank (names : List (List Nat)) (r : Nat) (hr : r < names.length) :
    nodeLocalRank names r =
      ((List.range r).filter fun q => names.getD q [] = names.getD r []).length := by
  simp only [nodeLocalRank, nodeComm]
  rw [countEqual_spec, Nat.zero_add, ← List.map_take,
    take_idxOf_filter _ _ _ hr (by simp), List.filter_map, List.length_map, List.filter_filter]
  congr 1
  apply List.filter_congr
  intro q _
  by_cases h : names.getD q [] = names.getD r []
  · simp only [Function.comp, h, decide_true, Bool.and_self]
  · simp only [Function.comp, h, decide_false, Bool.false_and]

/-- **C32.** On each host the results are exactly 0, 1, ..., k-1 in the order of the ranks. -/
theorem C32_numbering (names : List (List Nat)) (host : List Nat) :
    let ranks := (List.range names.length).filter fun q => names.getD q [] = host
    ranks.map (nodeLocalRank names) = List.range ranks.length := by
  intro ranks
  have key : ∀ m ≤ names.length,
      ((List.range m).filter fun q => names.getD q [] = host).map (nodeLocalRank names) =
        List.range ((List.range m).filter fun q => names.getD q [] = host).length := by
    intro m
    induction m with
    | zero => intro _; rfl
    | succ m ih =>
      intro hm
      have ih' := ih (by omega)
      rw [List.range_succ, List.filter_append]
      by_cases h : names.getD m [] = host
      · have hf : (List.filter (fun q => decide (names.getD q [] = host)) [m]) = [m] := by
          simp only [List.filter_cons, List.filter_nil, h, decide_true, if_true]
        rw [hf, List.map_append, ih', List.length_append, List.length_singleton, List.range_succ]
        congr 1
        rw [List.map_singleton, C32_node_local_rank names m (by omega), h]
      · have hf : (List.filter (fun q => decide (names.getD q [] = host)) [m]) = [] := by
          simp only [List.filter_cons, List.filter_nil, h, decide_false]; rfl
        rw [hf, List.append_nil]
        exact ih'
  exact key names.length (le_refl _)

/-- Non-trivial case: two hosts whose names have the same Adler-32 value (1, 3, 1 and 2, 1, 2)
and interleaved ranks. -/
example : adler32 [1, 3, 1] = adler32 [2, 1, 2] ∧
    (List.range 4).map (nodeLocalRank [[1, 3, 1], [2, 1, 2], [2, 1, 2], [1, 3, 1]]) = [0, 0, 1, 1] := by
  decide

/-- **C33, violated.** Host names of 26 equal letters, and one of 23 letters, whose colours are negative. -/
theorem C33_colour_violated :
    (∀ c, 97 ≤ c → c ≤ 122 → splitColor (List.replicate 26 c) < 0) ∧
    ∃ name : List Nat, (∀ b ∈ name, 97 ≤ b ∧ b ≤ 122) ∧ name.length = 23 ∧ splitColor name < 0 := by
  refine ⟨fun c h1 h2 => ?_, List.replicate 23 122, by decide, by decide, by decide⟩
  have h : ∀ k, k < 26 → splitColor (List.replicate 26 (97 + k)) < 0 := by decide +kernel
  have := h (c - 97) (by omega)
  rwa [show 97 + (c - 97) = c by omega] at this

theorem adlerLoop_bound (M : Nat) (bs : List Nat) (s1 s2 : Nat) (hb : ∀ b ∈ bs, b ≤ M)
    (h1 : s1 ≤ 65520) :
    (adlerLoop bs s1 s2).1 ≤ 65520 ∧
    (adlerLoop bs s1 s2).2 ≤ s2 + bs.length * s1 + M * (bs.length * (bs.length + 1) / 2) := by
  induction bs generalizing s1 s2 with
  | nil => simp [adlerLoop, h1]
  | cons b bs ih =>
    have hb' := hb b (by simp)
    have hlt : (s1 + b) % 65521 ≤ 65520 := by
      have := Nat.mod_lt (s1 + b) (by omega : 0 < 65521); omega
    obtain ⟨i1, i2⟩ := ih ((s1 + b) % 65521) ((s2 + (s1 + b) % 65521) % 65521)
      (fun x hx => hb x (by simp [hx])) hlt
    refine ⟨i1, ?_⟩
    simp only [adlerLoop]
    refine i2.trans ?_
    have m1 : (s1 + b) % 65521 ≤ s1 + b := Nat.mod_le _ _
    have m2 : (s2 + (s1 + b) % 65521) % 65521 ≤ s2 + (s1 + b) % 65521 := Nat.mod_le _ _
    have m3 : bs.length * ((s1 + b) % 65521) ≤ bs.length * (s1 + M) :=
      Nat.mul_le_mul_left _ (by omega)
    have e1 : (bs.length + 1) * (bs.length + 1 + 1) / 2 =
        bs.length * (bs.length + 1) / 2 + (bs.length + 1) := by
      rw [show (bs.length + 1) * (bs.length + 1 + 1) =
        bs.length * (bs.length + 1) + (bs.length + 1) * 2 by ring]
      exact Nat.add_mul_div_right _ _ (by omega)
    rw [List.length_cons, e1]
    have e2 : (bs.length + 1) * s1 = bs.length * s1 + s1 := by ring
    have e3 : bs.length * (s1 + M) = bs.length * s1 + bs.length * M := by ring
    have e4 : M * (bs.length * (bs.length + 1) / 2 + (bs.length + 1)) =
      M * (bs.length * (bs.length + 1) / 2) + (bs.length * M + M) := by ring
    omega

theorem splitColor_legal (name : List Nat) (h : (adlerLoop name 1 0).1 ≤ 65520)
    (hs2 : (adlerLoop name 1 0).2 < 2 ^ 15) : 0 ≤ splitColor name := by
  have hh : adler32 name < 2 ^ 31 := by
    unfold adler32
    simp only
    apply Nat.or_lt_two_pow
    · rw [Nat.shiftLeft_eq]; omega
    · omega
  unfold splitColor
  rw [if_pos hh]
  omega

/-- **C33, partial.** Proved: processes on hosts with equal names use the same colour (so they
end up in the same group), and the colour is legal for host names of at most 15 characters, and of at most 22
characters if they are ASCII characters.
Missing (and false, see `C33_colour_violated`): longer names. -/
theorem C33_colour_partial (name : List Nat)
    (h : ((∀ b ∈ name, b ≤ 255) ∧ name.length ≤ 15) ∨ ((∀ b ∈ name, b ≤ 126) ∧ name.length ≤ 22)) :
    0 ≤ splitColor name := by
  rcases h with ⟨hb, hl⟩ | ⟨hb, hl⟩
  · obtain ⟨h1, h2⟩ := adlerLoop_bound 255 name 1 0 hb (by omega)
    refine splitColor_legal name h1 ?_
    have hmul : name.length * (name.length + 1) ≤ 15 * 16 := Nat.mul_le_mul hl (by omega)
    have : name.length * (name.length + 1) / 2 ≤ 120 := by omega
    omega
  · obtain ⟨h1, h2⟩ := adlerLoop_bound 126 name 1 0 hb (by omega)
    refine splitColor_legal name h1 ?_
    have hmul : name.length * (name.length + 1) ≤ 22 * 23 := Nat.mul_le_mul hl (by omega)
    have : name.length * (name.length + 1) / 2 ≤ 253 := by omega
    omega

example : (∀ b ∈ [110, 111, 100, 101, 48, 49], b ≤ 255) ∧
    splitColor [110, 111, 100, 101, 48, 49] = 135594504 := by decide

example : (∀ b ∈ List.replicate 22 126, b ≤ 126) ∧ (List.replicate 22 126).length = 22 ∧
    splitColor (List.replicate 22 126) = 2090601173 := by decide

/-! ### C20, C46: registration and the result of open -/

/-- The node that counts for a thread: its NUMA node, or 0 if the detection is off. -/
def effectiveNode (detect : Bool) (node : Int) : Int := if detect then node else 0

structure RegOK (nodes : List Int) (s : NumaState) (regs : List Registration) : Prop where
  len : regs.length = nodes.length
  nodup : s.domains.Nodup
  mem : ∀ n, n ∈ s.domains ↔ n ∈ nodes
  dom : ∀ (i : Nat) (n : Int), nodes[i]? = some n → ∃ r, regs[i]? = some r ∧ r.thread = i ∧
    s.domains[r.domain]? = some n ∧
    (r.master = true ↔ ∀ (j : Nat), j < i → nodes[j]? ≠ some n)
  masters : s.masters = regs.map Registration.master

theorem registerThread_ok {nodes : List Int} {s : NumaState} {regs : List Registration}
    (ok : RegOK nodes s regs) (detect : Bool) (node : Int) :
    RegOK (nodes ++ [effectiveNode detect node]) (registerThread s regs.length node detect).1
      (regs ++ [(registerThread s regs.length node detect).2]) := by
  set n := effectiveNode detect node with hn
  have hml : s.masters.length = regs.length := by rw [ok.masters, List.length_map]
  have hmast : (if s.masters.length ≤ regs.length then
      s.masters ++ List.replicate (regs.length + 1 - s.masters.length) false
    else s.masters) = s.masters ++ [false] := by
    rw [if_pos (by omega), hml]; simp
  have hn' : (if detect = true then node else 0) = n := rfl
  unfold registerThread
  simp only [hmast, hn']
  cases hi : s.domains.idxOf? n with
  | none =>
    have hnot : n ∉ s.domains := by rwa [List.idxOf?_eq_none_iff] at hi
    have hnot' : n ∉ nodes := fun h => hnot ((ok.mem n).2 h)
    refine ⟨by simp [ok.len], ?_, ?_, ?_, ?_⟩
    · simp only [List.nodup_append, ok.nodup, true_and]
      refine ⟨by simp, ?_⟩
      intro a ha b hb
      simp only [List.mem_singleton] at hb
      subst hb
      intro e; subst e; exact hnot ha
    · intro m; simp [ok.mem m]
    · intro i m hm
      by_cases hlt : i < nodes.length
      · rw [List.getElem?_append_left hlt] at hm
        obtain ⟨r, r1, r2, r3, r4⟩ := ok.dom i m hm
        refine ⟨r, ?_, r2, ?_, ?_⟩
        · rw [List.getElem?_append_left (by rw [ok.len]; exact hlt)]; exact r1
        · have := (List.getElem?_eq_some_iff.1 r3).1
          simp only
          rw [List.getElem?_append_left this]; exact r3
        · rw [r4]
          refine forall₂_congr fun j hj => ?_
          rw [List.getElem?_append_left (by omega)]
      · have hlen : i = nodes.length := by
          have := (List.getElem?_eq_some_iff.1 hm).1
          simp at this; omega
        subst hlen
        simp only [List.getElem?_concat_length, Option.some.injEq] at hm
        subst hm
        refine ⟨_, by rw [← ok.len]; exact List.getElem?_concat_length, ok.len, ?_, ?_⟩
        · simp
        · simp only [true_iff]
          intro j hj
          rw [List.getElem?_append_left hj]
          intro e
          exact hnot' (List.mem_of_getElem? e)
    · simp only [List.map_append, List.map_cons, List.map_nil, ← ok.masters]
      rw [← hml, List.set_append_right _ _ (by omega)]
      simp
  | some d =>
    have hd : s.domains[d]? = some n := by
      rw [List.idxOf?_eq_some_iff] at hi
      obtain ⟨h1, h2, -⟩ := hi
      rw [List.getElem?_eq_some_iff]
      exact ⟨h1, h2⟩
    have hmemd : n ∈ s.domains := List.mem_of_getElem? hd
    have hmem : n ∈ nodes := (ok.mem n).1 hmemd
    refine ⟨by simp [ok.len], ok.nodup, ?_, ?_, ?_⟩
    · intro m
      simp only [List.mem_append, List.mem_singleton, ok.mem m]
      constructor
      · exact .inl
      · rintro (h | h)
        · exact h
        · rw [h]; exact hmem
    · intro i m hm
      by_cases hlt : i < nodes.length
      · rw [List.getElem?_append_left hlt] at hm
        obtain ⟨r, r1, r2, r3, r4⟩ := ok.dom i m hm
        refine ⟨r, ?_, r2, r3, ?_⟩
        · rw [List.getElem?_append_left (by rw [ok.len]; exact hlt)]; exact r1
        · rw [r4]
          refine forall₂_congr fun j hj => ?_
          rw [List.getElem?_append_left (by omega)]
      · have hlen : i = nodes.length := by
          have := (List.getElem?_eq_some_iff.1 hm).1
          simp at this; omega
        subst hlen
        simp only [List.getElem?_concat_length, Option.some.injEq] at hm
        subst hm
        refine ⟨_, by rw [← ok.len]; exact List.getElem?_concat_length, ok.len, hd, ?_⟩
        simp only [Bool.false_eq_true, false_iff, not_forall]
        obtain ⟨j, hj, e⟩ := List.getElem_of_mem hmem
        refine ⟨j, hj, fun h => h ?_⟩
        rw [List.getElem?_append_left hj, List.getElem?_eq_getElem hj, e]
    · simp [← ok.masters]

theorem registerAll_ok (detect : Bool) (nodes : List Int) :
    RegOK (nodes.map (effectiveNode detect)) (registerAll detect nodes).1
      (registerAll detect nodes).2 := by
  induction nodes using List.reverseRecOn with
  | nil => exact ⟨rfl, by simp [registerAll], by simp [registerAll], by simp, rfl⟩
  | append_singleton ns n ih =>
    have h := registerThread_ok ih detect n
    rw [List.map_append, List.map_singleton]
    have e : registerAll detect (ns ++ [n]) =
        ((registerThread (registerAll detect ns).1 (registerAll detect ns).2.length n detect).1,
         (registerAll detect ns).2 ++
          [(registerThread (registerAll detect ns).1 (registerAll detect ns).2.length n detect).2]) := by
      unfold registerAll
      rw [List.foldl_append]
      rfl
    rw [e]
    exact h

/-- **C20.** For any number of threads on any NUMA nodes, in any arrival order: the threads are
numbered 0, 1, ... in the order of arrival; two threads have the same domain exactly if they run
on the same node (or the detection is off); the domain numbers are exactly
0..totalDomains-1; each domain has exactly one master, and later calls report the same master
flag. -/
theorem C20_registration (detect : Bool) (nodes : List Int) :
    let s := (registerAll detect nodes).1
    let regs := (registerAll detect nodes).2
    regs.length = nodes.length ∧
    (∀ (i : Nat) (r : Registration), regs[i]? = some r → r.thread = i) ∧
    (∀ (i j : Nat) (r q : Registration), regs[i]? = some r → regs[j]? = some q →
      (r.domain = q.domain ↔ detect = false ∨ nodes[i]? = nodes[j]?)) ∧
    (∀ d : Nat, d < s.domains.length ↔ ∃ (i : Nat) (r : Registration), regs[i]? = some r ∧ r.domain = d) ∧
    (∀ d : Nat, d < s.domains.length →
      ∃! i : Nat, ∃ r, regs[i]? = some r ∧ r.domain = d ∧ r.master = true) ∧
    (∀ i : Nat, s.masters[i]? = regs[i]?.map Registration.master) := by
  intro s regs
  have ok : RegOK (nodes.map (effectiveNode detect)) s regs := registerAll_ok detect nodes
  have hlen : regs.length = nodes.length := by rw [ok.len, List.length_map]
  have hget : ∀ (i : Nat) (r : Registration), regs[i]? = some r → r.thread = i ∧
      ∃ n, (nodes.map (effectiveNode detect))[i]? = some n ∧ s.domains[r.domain]? = some n ∧
      (r.master = true ↔ ∀ (j : Nat), j < i → (nodes.map (effectiveNode detect))[j]? ≠ some n) := by
    intro i r hr
    have hi := (List.getElem?_eq_some_iff.1 hr).1
    have hi' : i < (nodes.map (effectiveNode detect)).length := by rw [← ok.len]; exact hi
    obtain ⟨r', r1, r2, r3, r4⟩ := ok.dom i _ (List.getElem?_eq_getElem hi')
    rw [hr] at r1; cases r1
    exact ⟨r2, _, List.getElem?_eq_getElem hi', r3, r4⟩
  refine ⟨hlen, fun i r hr => (hget i r hr).1, ?_, ?_, ?_, ?_⟩
  · intro i j r q hr hq
    obtain ⟨-, n, n1, n2, -⟩ := hget i r hr
    obtain ⟨-, m, m1, m2, -⟩ := hget j q hq
    have hdn : r.domain = q.domain ↔ n = m := by
      constructor
      · intro e; rw [e, m2] at n2; exact (Option.some.inj n2).symm
      · intro e; subst e
        obtain ⟨a1, a2⟩ := List.getElem?_eq_some_iff.1 n2
        obtain ⟨b1, b2⟩ := List.getElem?_eq_some_iff.1 m2
        exact (List.Nodup.getElem_inj_iff ok.nodup).1 (a2.trans b2.symm)
    rw [hdn]
    simp only [List.getElem?_map, Option.map_eq_some_iff] at n1 m1
    obtain ⟨x, x1, x2⟩ := n1
    obtain ⟨y, y1, y2⟩ := m1
    rw [x1, y1, ← x2, ← y2]
    cases detect <;> simp [effectiveNode]
  · intro d
    constructor
    · intro hd
      have hm : s.domains[d] ∈ nodes.map (effectiveNode detect) := (ok.mem _).1 (List.getElem_mem hd)
      obtain ⟨i, hi, e⟩ := List.getElem_of_mem hm
      obtain ⟨r, r1, -, r3, -⟩ := ok.dom i _ (by rw [List.getElem?_eq_getElem hi, e])
      refine ⟨i, r, r1, ?_⟩
      obtain ⟨a1, a2⟩ := List.getElem?_eq_some_iff.1 r3
      exact (List.Nodup.getElem_inj_iff ok.nodup).1 a2
    · rintro ⟨i, r, hr, rfl⟩
      obtain ⟨-, n, -, n2, -⟩ := hget i r hr
      exact (List.getElem?_eq_some_iff.1 n2).1
  · intro d hd
    have hm : s.domains[d] ∈ nodes.map (effectiveNode detect) := (ok.mem _).1 (List.getElem_mem hd)
    set l := nodes.map (effectiveNode detect) with hl
    have hex : ∃ i : Nat, l[i]? = some s.domains[d] := by
      obtain ⟨i, hi, e⟩ := List.getElem_of_mem hm
      exact ⟨i, by rw [List.getElem?_eq_getElem hi, e]⟩
    classical
    have hfirst := Nat.find_spec hex
    have hmin : ∀ j, j < Nat.find hex → l[j]? ≠ some s.domains[d] := fun j hj => Nat.find_min hex hj
    obtain ⟨r, r1, -, r3, r4⟩ := ok.dom _ _ hfirst
    refine ⟨Nat.find hex, ⟨r, r1, ?_, r4.2 hmin⟩, ?_⟩
    · obtain ⟨a1, a2⟩ := List.getElem?_eq_some_iff.1 r3
      exact (List.Nodup.getElem_inj_iff ok.nodup).1 a2
    · rintro i ⟨q, q1, q2, q3⟩
      obtain ⟨-, n, n1, n2, n3⟩ := hget i q q1
      rw [q2, List.getElem?_eq_getElem hd, Option.some.injEq] at n2
      subst n2
      rcases Nat.lt_trichotomy i (Nat.find hex) with h | h | h
      · exact absurd n1 (hmin i h)
      · exact h
      · exact absurd hfirst (n3.1 q3 _ h)
  · intro i
    rw [ok.masters, List.getElem?_map]

/-- **C20.** The packed identifier returns both numbers (32 bits each). -/
theorem C20_packed_ids (threadId domainId : Nat) (hd : domainId < 2 ^ 32) :
    unpackThread (packIds threadId domainId) = threadId ∧
    unpackDomain (packIds threadId domainId) = domainId := by
  have e : packIds threadId domainId = threadId * 2 ^ 32 + domainId := by
    unfold packIds
    rw [← Nat.shiftLeft_add_eq_or_of_lt hd, Nat.shiftLeft_eq]
  constructor
  · unfold unpackThread
    rw [e, Nat.shiftRight_eq_div_pow]
    omega
  · unfold unpackDomain
    have : (1 <<< 32) - 1 = 2 ^ 32 - 1 := by decide
    rw [this, Nat.and_two_pow_sub_one_eq_mod, e]
    omega

example : (registerAll true [3, 0, 3, 5, 0]).2 =
    [⟨0, 0, true⟩, ⟨1, 1, true⟩, ⟨2, 0, false⟩, ⟨3, 2, true⟩, ⟨4, 1, false⟩] := by decide

/-- Thread 0 is the master of domain 0. -/
theorem registerAll_zero (detect : Bool) (nodes : List Int) (h : nodes ≠ []) :
    ∃ r, (registerAll detect nodes).2[0]? = some r ∧ r.domain = 0 ∧ r.master = true := by
  have key : ∀ (l : List Int) (acc : NumaState × List Registration) (r : Registration),
      acc.2[0]? = some r →
      (l.foldl (fun (acc : NumaState × List Registration) node =>
        ((registerThread acc.1 acc.2.length node detect).1,
          acc.2 ++ [(registerThread acc.1 acc.2.length node detect).2])) acc).2[0]? = some r := by
    intro l
    induction l with
    | nil => intro acc r h; exact h
    | cons x xs ih =>
      intro acc r h
      rw [List.foldl_cons]
      apply ih
      simp only
      rw [List.getElem?_append_left (List.getElem?_eq_some_iff.1 h).1]
      exact h
  obtain ⟨n, ns, rfl⟩ := List.exists_cons_of_ne_nil h
  refine ⟨⟨0, 0, true⟩, ?_, rfl, rfl⟩
  unfold registerAll
  rw [List.foldl_cons]
  apply key
  rfl

/-- **C46, violated.** Two NUMA domains, the second fails to open the file: all threads are told
SUCCESS. -/
theorem C46_open_result_violated :
    ∃ (nodes : List Int) (initResult : Nat → Error),
      (registerAll true nodes).1.domains.length = 2 ∧ initResult 1 = .NOT_OPEN ∧
      ∀ t, openResult (registerAll true nodes).2 initResult t = .SUCCESS :=
  ⟨[0, 1], fun d => if d = 1 then .NOT_OPEN else .SUCCESS, by decide, rfl, fun _ => rfl⟩

/-- **C46, partial.** Proved: all threads receive the same result, which is the result of domain
0; with one domain it is SUCCESS exactly if every domain succeeded. Missing (and false): failures
of other domains. -/
theorem C46_open_result_partial (detect : Bool) (nodes : List Int) (h : nodes ≠ [])
    (initResult : Nat → Error) :
    (∀ t, openResult (registerAll detect nodes).2 initResult t = initResult 0) ∧
    ((registerAll detect nodes).1.domains.length = 1 →
      ∀ t, openResult (registerAll detect nodes).2 initResult t = .SUCCESS ↔
        ∀ d, d < (registerAll detect nodes).1.domains.length → initResult d = .SUCCESS) := by
  obtain ⟨r, r1, r2, r3⟩ := registerAll_zero detect nodes h
  have hr : ∀ t, openResult (registerAll detect nodes).2 initResult t = initResult 0 := by
    intro t
    simp only [openResult, threadError, r1, r2, r3, if_true]
  refine ⟨hr, fun hd t => ?_⟩
  rw [hr t, hd]
  constructor
  · intro h d hd'
    have : d = 0 := by omega
    subst this; exact h
  · intro h; exact h 0 (by omega)

example : ([4, 4] : List Int) ≠ [] ∧ (registerAll true [4, 4]).1.domains.length = 1 := by decide

end Asagi.Props
