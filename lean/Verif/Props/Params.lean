import Verif.Model.Params
import Verif.Spec.Text
import Verif.Props.Values
/-
Properties of parameters and of the selection of the implementation: C27, C28, C30.
-/
namespace Asagi.Props
open Asagi Asagi.Spec
variable {α : Type}

/-! ### C27: parameter names, last setting, levels -/

theorem toUpper_toNat (c : Char) : (c.toUpper).toNat =
    if 97 ≤ c.toNat ∧ c.toNat ≤ 122 then c.toNat - 32 else c.toNat := by
  unfold Char.toUpper
  split
  · rename_i h
    simp only [UInt32.le_iff_toNat_le] at h
    simp only [← Char.toNat_val]
    simp at h ⊢
    rw [if_pos h]
    omega
  · rename_i h
    simp only [UInt32.le_iff_toNat_le] at h
    simp at h
    rw [if_neg]
    omega

theorem toUpper_special {c d : Char} (hd : d = '-' ∨ d = '_') : c.toUpper = d ↔ c = d := by
  have h := toUpper_toNat c
  rw [← Char.toNat_inj, ← Char.toNat_inj, h]
  have : d.toNat = 45 ∨ d.toNat = 95 := by rcases hd with rfl | rfl <;> simp
  split <;> omega

theorem upperUnderscore_eq (s : Str) : upperUnderscore s = normalised s := by
  simp only [upperUnderscore, normalised, List.map_map]
  apply List.map_congr_left
  intro c _
  simp only [Function.comp, toUpper_special (c := c) (Or.inl rfl)]

theorem sameChar_iff (a b : Char) :
    SameChar a b ↔ (if a = '-' then '_' else a.toUpper) = (if b = '-' then '_' else b.toUpper) := by
  have ha := toUpper_special (c := a) (d := '_') (Or.inr rfl)
  have hb := toUpper_special (c := b) (d := '_') (Or.inr rfl)
  have ha' := toUpper_special (c := a) (d := '-') (Or.inl rfl)
  have hb' := toUpper_special (c := b) (d := '-') (Or.inl rfl)
  unfold SameChar
  by_cases h1 : a = '-' <;> by_cases h2 : b = '-'
  · simp [h1, h2]
  · rw [if_pos h1, if_neg h2]
    constructor
    · rintro (h | h)
      · rw [ha'.2 h1] at h; exact absurd (hb'.1 h.symm) h2
      · rcases h.2 with h | h
        · exact absurd h h2
        · exact (hb.2 h).symm
    · intro h; exact Or.inr ⟨Or.inl h1, Or.inr (hb.1 h.symm)⟩
  · rw [if_neg h1, if_pos h2]
    constructor
    · rintro (h | h)
      · rw [hb'.2 h2] at h; exact absurd (ha'.1 h) h1
      · rcases h.1 with h | h
        · exact absurd h h1
        · exact (ha.2 h)
    · intro h; exact Or.inr ⟨Or.inr (ha.1 h), Or.inl h2⟩
  · rw [if_neg h1, if_neg h2]
    constructor
    · rintro (h | ⟨h | h, h' | h'⟩)
      · exact h
      · exact absurd h h1
      · exact absurd h h1
      · exact absurd h' h2
      · rw [h, h']
    · exact Or.inl

theorem sameName_iff (a b : Str) : SameName a b ↔ normalised a = normalised b := by
  induction a generalizing b with
  | nil => cases b <;> simp [SameName, normalised]
  | cons x xs ih =>
    cases b with
    | nil => simp [SameName, normalised]
    | cons y ys =>
      simp only [SameName, ih, sameChar_iff]
      simp [normalised]

/-- **C27.** Names that differ only in case or in '-' versus '_' set the same parameter. -/
theorem C27_names (ps : Params) (a b value : Str) (level : Nat) (h : SameName a b) :
    setParam ps a value level = setParam ps b value level := by
  simp only [setParam, upperUnderscore_eq, (sameName_iff a b).1 h]

example : SameName "Grid".toList "GRID".toList ∧
    SameName "cache-Size".toList "CACHE_SIZE".toList ∧
    ¬ SameName "CACHESIZE".toList "CACHE_SIZE".toList := by decide +kernel

theorem grow_get (ps : Params) (level l : Nat) (name : Str) :
    (ps.grow level)[l]?.bind (fun m => m name) = ps[l]?.bind (fun m => m name) := by
  unfold Params.grow
  by_cases h : ps.length ≤ level
  · rw [if_pos h, List.getElem?_append]
    split
    · rfl
    · rename_i h2
      rw [List.getElem?_eq_none (l := ps) (by omega), List.getElem?_replicate]
      split <;> rfl
  · rw [if_neg h]

theorem grow_length (ps : Params) (level : Nat) : level < (ps.grow level).length := by
  unfold Params.grow
  split
  · simp; omega
  · omega

theorem paramText_setParam (ps : Params) (name value key : Str) (level l : Nat) :
    paramText (setParam ps name value level) key l =
      if normalised name = key ∧ level = l then some (storedValue key value)
      else paramText ps key l := by
  have hg := grow_get ps level l key
  have hl := grow_length ps level
  simp only [paramText, setParam, List.getElem?_modify, upperUnderscore_eq]
  by_cases hlev : level = l
  · subst hlev
    rw [List.getElem?_eq_getElem hl] at hg ⊢
    simp only [Option.bind_some] at hg
    by_cases hk : normalised name = key
    · simp [ParamMap.assign, hk]
    · rw [if_neg (fun h => hk h.1), ← hg]
      have hk' : ¬ key = normalised name := fun h => hk h.symm
      simp [ParamMap.assign, hk']
  · rw [if_neg (fun h => hlev h.2), ← hg]
    simp [hlev]

/-- **C27.** Reading a parameter yields the last value set for that name and level (names
compared without case and dashes; other names and levels have no influence). The value is
kept verbatim for VARIABLE and BLOCK_SIZE_n; other values are converted to upper case with
underscores. `key` is the spelling used by the library: upper case, underscores. -/
theorem C27_last_setting (calls : List (Str × Str × Nat)) (key : Str) (level : Nat)
    (hkey : ∀ c ∈ key, c.toUpper = c ∧ c ≠ '-') :
    paramText (setParams calls) key level =
      (lastSetting calls key level).map (fun v =>
        if key = "VARIABLE".toList ∨ "BLOCK_SIZE_".toList <+: key then v else normalised v) := by
  have hk : normalised key = key := by
    conv_rhs => rw [← List.map_id key]
    apply List.map_congr_left
    intro c hc
    simp [hkey c hc]
  have hs : ∀ v, storedValue key v =
      if key = "VARIABLE".toList ∨ "BLOCK_SIZE_".toList <+: key then v else normalised v := by
    intro v
    unfold storedValue
    rw [upperUnderscore_eq]
    by_cases h : key = "VARIABLE".toList ∨ "BLOCK_SIZE_".toList <+: key
    · rw [if_pos h, if_neg (fun h' => h.elim h'.1 h'.2)]
    · rw [if_neg h, if_pos ⟨fun h' => h (.inl h'), fun h' => h (.inr h')⟩]
  unfold setParams lastSetting
  rw [← List.foldr_reverse]
  induction calls.reverse with
  | nil => rfl
  | cons c cs ih =>
    rw [List.foldr_cons, paramText_setParam, List.find?_cons]
    by_cases h : normalised c.1 = key ∧ c.2.2 = level
    · have h' : decide (SameName c.1 key ∧ c.2.2 = level) = true :=
        decide_eq_true (by rw [sameName_iff, hk]; exact h)
      rw [if_pos h, hs, h']
      rfl
    · have h' : decide (SameName c.1 key ∧ c.2.2 = level) = false :=
        decide_eq_false (by rw [sameName_iff, hk]; exact h)
      rw [if_neg h, ih, h']

/-- Setting a parameter of one level leaves the parameters of the others alone. -/
theorem C27_levels_independent (ps : Params) (name value key : Str) (level l : Nat)
    (h : level ≠ l) : paramText (setParam ps name value level) key l = paramText ps key l := by
  rw [paramText_setParam, if_neg (fun h' => h h'.2)]

/-- Non-trivial case: GRID is set twice in different spellings, another level and another
parameter are set in between; VARIABLE keeps its case. -/
example :
    let calls := [("grid".toList, "cache".toList, 0), ("Grid".toList, "full".toList, 1),
      ("variable".toList, "Bathy-z".toList, 0), ("GRID".toList, "pass-through".toList, 0),
      ("cache-size".toList, "5".toList, 0)]
    paramText (setParams calls) "GRID".toList 0 = some "PASS_THROUGH".toList ∧
    paramText (setParams calls) "GRID".toList 1 = some "FULL".toList ∧
    paramText (setParams calls) "VARIABLE".toList 0 = some "Bathy-z".toList ∧
    paramText (setParams calls) "VARIABLE".toList 1 = none := by decide +kernel

/-! ### C28: numbers -/

theorem digit_facts (n : Nat) (h : n < 10) :
    (digit n).isDigit = true ∧ (digit n).toNat = 48 + n ∧
    (if digit n = '-' then '_' else (digit n).toUpper) = digit n ∧ digit n ≠ '-' ∧ digit n ≠ '+' := by
  have : n = 0 ∨ n = 1 ∨ n = 2 ∨ n = 3 ∨ n = 4 ∨ n = 5 ∨ n = 6 ∨ n = 7 ∨ n = 8 ∨ n = 9 := by omega
  rcases this with rfl | rfl | rfl | rfl | rfl | rfl | rfl | rfl | rfl | rfl <;> decide

theorem leadingDigits_append (xs : Str) (c : Char) (acc : Nat)
    (h : ∀ x ∈ xs, x.isDigit = true) :
    leadingDigits (xs ++ [c]) acc = leadingDigits [c] (leadingDigits xs acc) := by
  induction xs generalizing acc with
  | nil => rfl
  | cons x xs ih =>
    have hx := h x (by simp)
    simp only [List.cons_append, leadingDigits, hx, if_true]
    exact ih _ (fun y hy => h y (by simp [hy]))

theorem decimal_digits (n : Nat) : ∀ x ∈ decimal n, ∃ d < 10, x = digit d := by
  induction n using Nat.strongRecOn with
  | _ n ih =>
    rw [decimal]
    split
    · intro x hx; simp at hx; exact ⟨n, by omega, hx⟩
    · intro x hx
      rcases List.mem_append.1 hx with h | h
      · exact ih (n / 10) (by omega) x h
      · simp at h; exact ⟨n % 10, by omega, h⟩

theorem leadingDigits_decimal (n : Nat) : leadingDigits (decimal n) 0 = n := by
  induction n using Nat.strongRecOn with
  | _ n ih =>
    rw [decimal]
    split
    · rename_i h
      obtain ⟨h1, h2, -⟩ := digit_facts n h
      simp only [leadingDigits, h1, if_true, h2]
      simp
    · rw [leadingDigits_append _ _ _ (fun x hx => by
        obtain ⟨d, hd, rfl⟩ := decimal_digits _ x hx; exact (digit_facts d hd).1), ih _ (by omega)]
      obtain ⟨h1, h2, -⟩ := digit_facts (n % 10) (by omega)
      simp only [leadingDigits, h1, if_true, h2]
      simp
      omega

theorem decimal_ne_nil (n : Nat) : ∃ d < 10, ∃ t, decimal n = digit d :: t := by
  have h : decimal n ≠ [] := by rw [decimal]; split <;> simp
  match hd : decimal n, h with
  | x :: t, _ =>
    obtain ⟨d, hd', rfl⟩ := decimal_digits n x (by simp [hd])
    exact ⟨d, hd', t, rfl⟩

theorem digit_not_space (d : Nat) (h : d < 10) : isSpace (digit d) = false := by
  have : d = 0 ∨ d = 1 ∨ d = 2 ∨ d = 3 ∨ d = 4 ∨ d = 5 ∨ d = 6 ∨ d = 7 ∨ d = 8 ∨ d = 9 := by omega
  rcases this with rfl | rfl | rfl | rfl | rfl | rfl | rfl | rfl | rfl | rfl <;> decide

theorem leadingNumber_decimal (n : Nat) : leadingNumber (decimal n) = n := by
  have hl := leadingDigits_decimal n
  obtain ⟨d, hd, t, e⟩ := decimal_ne_nil n
  obtain ⟨-, -, -, h4, h5⟩ := digit_facts d hd
  rw [e] at hl ⊢
  unfold leadingNumber
  rw [List.dropWhile_cons_of_neg (by simp [digit_not_space d hd])]
  split
  · rename_i h; simp at h; exact absurd h.1 h4
  · rename_i h; simp at h; exact absurd h.1 h5
  · rw [hl]

theorem leadingNumber_decimalInt (z : Int) : leadingNumber (decimalInt z) = z := by
  unfold decimalInt
  split
  · unfold leadingNumber
    rw [List.dropWhile_cons_of_neg (by decide)]
    simp only [leadingDigits_decimal]; omega
  · rw [leadingNumber_decimal]; omega

theorem parseInt_decimalInt (z : Int) (h : InInt z) : parseInt (decimalInt z) = z := by
  unfold InInt at h
  rw [parseInt, leadingNumber_decimalInt]; omega

theorem normalised_decimal (n : Nat) : normalised (decimal n) = decimal n := by
  conv_rhs => rw [← List.map_id (decimal n)]
  apply List.map_congr_left
  intro c hc
  obtain ⟨d, hd, rfl⟩ := decimal_digits n c hc
  exact (digit_facts d hd).2.2.1

/-- **C28, violated.** Every negative number given for a numeric parameter other than
BLOCK_SIZE_n (such as CACHE_HAND_SPREAD or TIME_DIMENSION) is read back as 0, because the
minus sign is replaced by an underscore when the value is stored. -/
theorem C28_negative_violated (ps : Params) (key : Str) (default : Int) (level : Nat) (z : Int)
    (hz : z < 0) (hkey : ∀ c ∈ key, c.toUpper = c ∧ c ≠ '-') (hv : key ≠ "VARIABLE".toList)
    (hb : ¬ "BLOCK_SIZE_".toList <+: key) :
    paramInt (setParam ps key (decimalInt z) level) key default level = 0 ∧ (0 : Int) ≠ z := by
  refine ⟨?_, by omega⟩
  have hk : normalised key = key := by
    conv_rhs => rw [← List.map_id key]
    apply List.map_congr_left
    intro c hc
    simp [hkey c hc]
  have hs : storedValue key (decimalInt z) = '_' :: decimal z.natAbs := by
    unfold storedValue
    rw [upperUnderscore_eq, if_pos ⟨hv, hb⟩]
    rw [decimalInt, if_pos hz]
    have := normalised_decimal z.natAbs
    unfold normalised at this ⊢
    rw [List.map_cons, this]
    rfl
  simp only [paramInt, paramText_setParam, hk, and_self, if_true, hs]
  rfl

/-- The documented defaults -1 cannot be set explicitly: the spread becomes 0. -/
theorem C28_minus_one_violated :
    paramInt (setParam [] "CACHE-HAND-SPREAD".toList "-1".toList 0) "CACHE_HAND_SPREAD".toList (-1) 0 = 0 ∧
    paramInt (setParam [] "TIME-DIMENSION".toList "-1".toList 0) "TIME_DIMENSION".toList (-1) 0 = 0 := by
  decide +kernel

/-- **C28, partial.** Proved: every `int` for BLOCK_SIZE_n and every non-negative `int`
for every parameter is read back as the number that was set. Missing (and false, see
`C28_negative_violated`): negative numbers for other parameters. Numbers that are no `int`, see
`C28_limits`. -/
theorem C28_numbers_partial (ps : Params) (name key : Str) (default : Int) (level : Nat) (z : Int)
    (hname : SameName name key) (hkey : ∀ c ∈ key, c.toUpper = c ∧ c ≠ '-')
    (hz : 0 ≤ z ∨ "BLOCK_SIZE_".toList <+: key) (hr : InInt z) :
    paramInt (setParam ps name (decimalInt z) level) key default level = z := by
  have hk : normalised key = key := by
    conv_rhs => rw [← List.map_id key]
    apply List.map_congr_left
    intro c hc
    simp [hkey c hc]
  rw [sameName_iff, hk] at hname
  have hs : storedValue key (decimalInt z) = decimalInt z := by
    unfold storedValue
    rw [upperUnderscore_eq]
    split
    · rename_i h
      have : ¬ z < 0 := by have := hz.resolve_right h.2; omega
      rw [decimalInt, if_neg this, normalised_decimal]
    · rfl
  simp only [paramInt, paramText_setParam, hname, and_self, if_true, hs,
    parseInt_decimalInt z hr]

example : SameName "block-size-0".toList "BLOCK_SIZE_0".toList ∧
    (∀ c ∈ "BLOCK_SIZE_0".toList, c.toUpper = c ∧ c ≠ '-') ∧
    "BLOCK_SIZE_".toList <+: "BLOCK_SIZE_0".toList ∧ InInt (-120) ∧ decimalInt (-120) = "-120".toList := by
  refine ⟨by decide +kernel, by decide +kernel, by decide +kernel, by decide, ?_⟩
  rw [decimalInt, decimal, decimal, decimal]
  decide +kernel

/-- **C28.** A number beyond the range of `int` is not rejected: it is read back as the nearest limit, for
BLOCK_SIZE_n on both sides and for every parameter above. -/
theorem C28_limits (ps : Params) (name key : Str) (default : Int) (level : Nat) (z : Int)
    (hname : SameName name key) (hkey : ∀ c ∈ key, c.toUpper = c ∧ c ≠ '-')
    (hz : 0 ≤ z ∨ "BLOCK_SIZE_".toList <+: key) :
    (2 ^ 31 ≤ z → paramInt (setParam ps name (decimalInt z) level) key default level = 2 ^ 31 - 1) ∧
    (z < -2 ^ 31 → paramInt (setParam ps name (decimalInt z) level) key default level = -2 ^ 31) := by
  have hk : normalised key = key := by
    conv_rhs => rw [← List.map_id key]
    apply List.map_congr_left
    intro c hc
    simp [hkey c hc]
  rw [sameName_iff, hk] at hname
  have hs : storedValue key (decimalInt z) = decimalInt z := by
    unfold storedValue
    rw [upperUnderscore_eq]
    split
    · rename_i h
      have : ¬ z < 0 := by have := hz.resolve_right h.2; omega
      rw [decimalInt, if_neg this, normalised_decimal]
    · rfl
  simp only [paramInt, paramText_setParam, hname, and_self, if_true, hs, parseInt, leadingNumber_decimalInt]
  omega

/-- Four thousand million samples per block are asked for, which is no `int`. -/
example : decimalInt 4000000000 = "4000000000".toList ∧ (2 : Int) ^ 31 ≤ 4000000000 ∧
    paramInt (setParam [] "block-size-0".toList "4000000000".toList 0) "BLOCK_SIZE_0".toList 0 0 =
      2147483647 := by
  refine ⟨?_, by decide, by decide +kernel⟩
  rw [decimalInt]
  rw [decimal, decimal, decimal, decimal, decimal, decimal, decimal, decimal, decimal, decimal]
  decide +kernel

/-! ### C30: selection of the implementation -/

/-- A run-time environment that can occur: at least one process and domain, one process
without MPI, one domain if the detection is switched off (numa.cpp 108-110) or not compiled in
(numa.cpp 90-91). -/
structure Environment (b : Build) (ps : Params) (commSize domains : Nat) : Prop where
  someRank : 0 < commSize
  someDomain : 0 < domains
  noMpi : b.noMpi = true → commSize = 1
  noDetection : paramString ps "NUMA_COMMUNICATION".toList "ON".toList 0 = "OFF".toList → domains = 1
  noNuma : b.noNuma = true → domains = 1

/-- The settings after applying the rules for MPI. -/
theorem selectMpi_cases (b : Build) (ps : Params) (commSize : Nat) (hn : b.noMpi = true → commSize = 1) :
    let mpi := paramString ps "MPI_COMMUNICATION".toList "WINDOW".toList 0
    let r := selectMpi b ps commSize
    r.2 = (if mpi = "OFF".toList then 1 else commSize) ∧
    (r.1 = "OFF".toList ↔ r.2 = 1) ∧
    (r.1 = "THREAD".toList ↔ r.2 ≠ 1 ∧ mpi = "THREAD".toList ∧ b.threadsafeMpi = false) := by
  have e1 : "OFF".toList ≠ "THREAD".toList := by decide +kernel
  have e2 : "OFF".toList ≠ "WINDOW".toList := by decide +kernel
  have e3 : "THREAD".toList ≠ "WINDOW".toList := by decide +kernel
  simp only [selectMpi]
  generalize paramString ps "MPI_COMMUNICATION".toList "WINDOW".toList 0 = mpi
  generalize "OFF".toList = OFF at *
  generalize "THREAD".toList = THREAD at *
  generalize "WINDOW".toList = WINDOW at *
  by_cases h1 : commSize = 1
  · simp [h1, e1]
  · have hm : b.noMpi = false := by
      cases hb : b.noMpi
      · rfl
      · exact absurd (hn hb) h1
    by_cases h2 : mpi = OFF
    · subst h2; simp [h1, hm, e1]
    · by_cases h3 : mpi = THREAD
      · subst h3
        cases hb : b.threadsafeMpi <;> simp [h1, e1.symm, e2.symm, e3.symm]
      · simp [h1, h2, h3]

theorem selectType_spec (grid mpiT numaT : Str) :
    let t := selectType grid mpiT numaT
    t.kind = (if grid = "CACHE".toList then .cache
      else if grid = "PASS_THROUGH".toList then .passThrough else .full) ∧
    (t.kind ≠ .passThrough →
      t.mpi = (if mpiT = "OFF".toList then .no else if mpiT = "THREAD".toList then .thread
        else .window)) ∧
    (t.kind = .full ∨ t.kind = .cache ∧ t.mpi ≠ .no → (t.numa ≠ .no ↔ numaT ≠ "OFF".toList)) ∧
    (t.kind = .cache ∧ t.mpi = .no → (t.numa ≠ .no ↔ numaT = "OFF".toList)) ∧
    (t = .FULL ↔ t.kind = .full ∧ t.mpi = .no ∧ t.numa = .no) ∧
    (t = .CACHE ↔ t.kind = .cache ∧ t.mpi = .no ∧ t.numa = .no) := by
  simp only [selectType]
  generalize "OFF".toList = OFF at *
  generalize "THREAD".toList = THREAD at *
  generalize "CACHE".toList = CACHE at *
  generalize "PASS_THROUGH".toList = PT at *
  split_ifs <;> simp_all [ContainerType.kind, ContainerType.mpi, ContainerType.numa]

theorem selectNuma_off (b : Build) (ps : Params) (commSize domains : Nat)
    (env : Environment b ps commSize domains) :
    selectNuma b ps domains = "OFF".toList ↔ domains = 1 := by
  simp only [selectNuma]
  by_cases h : domains = 1
  · rw [if_pos h]; exact ⟨fun _ => h, fun _ => rfl⟩
  · rw [if_neg h]
    have hb : b.noNuma = false := by
      cases hb : b.noNuma
      · rfl
      · exact absurd (env.noNuma hb) h
    rw [hb]
    exact ⟨fun h' => env.noDetection h', fun h' => absurd h' h⟩

/-- **C30.** The selected implementation is of the kind the GRID parameter asks for (FULL by
default), the processes exchange blocks exactly if there are several of them and MPI
communication is not switched off (otherwise each process is on its own), and the
communication thread is used exactly if it is asked for and allowed. -/
theorem C30_kind_and_mpi (b : Build) (ps : Params) (commSize domains : Nat)
    (env : Environment b ps commSize domains) (sel : Selection)
    (h : initContainers b ps commSize domains = some sel) :
    let grid := paramString ps "GRID".toList "FULL".toList 0
    let mpi := paramString ps "MPI_COMMUNICATION".toList "WINDOW".toList 0
    sel.type.kind = (if grid = "CACHE".toList then .cache
      else if grid = "PASS_THROUGH".toList then .passThrough else .full) ∧
    sel.ranks = (if mpi = "OFF".toList then 1 else commSize) ∧
    (sel.type.kind ≠ .passThrough →
      sel.type.mpi = (if sel.ranks = 1 then .no
        else if mpi = "THREAD".toList ∧ b.threadsafeMpi = false then .thread else .window)) := by
  obtain ⟨m1, m2, m3⟩ := selectMpi_cases b ps commSize env.noMpi
  simp only [initContainers] at h
  have h' := (Option.ite_none_left_eq_some.1 h).2
  simp only [Option.some.injEq] at h'
  subst h'
  obtain ⟨s1, s2, -⟩ := selectType_spec (paramString ps "GRID".toList "FULL".toList 0)
    (selectMpi b ps commSize).1 (selectNuma b ps domains)
  refine ⟨s1, m1, fun hk => ?_⟩
  rw [s2 hk]
  by_cases h1 : (selectMpi b ps commSize).2 = 1
  · rw [if_pos (m2.2 h1), if_pos h1]
  · rw [if_neg (fun h => h1 (m2.1 h)), if_neg h1]
    by_cases h2 : (selectMpi b ps commSize).1 = "THREAD".toList
    · rw [if_pos h2, if_pos (m3.1 h2).2]
    · rw [if_neg h2, if_neg (fun h => h2 (m3.2 ⟨h1, h⟩))]

theorem selectType_window (g m n : Str) :
    selectType g m n = .CACHE_MPIWIN ∨ selectType g m n = .CACHE_MPIWIN_NUMA ↔
      g = "CACHE".toList ∧ m ≠ "OFF".toList ∧ m ≠ "THREAD".toList := by
  unfold selectType
  generalize "CACHE".toList = CACHE
  generalize "OFF".toList = OFF
  generalize "THREAD".toList = THREAD
  generalize "PASS_THROUGH".toList = PASS
  by_cases h1 : g = CACHE
  · rw [if_pos h1]
    by_cases h2 : m = OFF
    · rw [if_pos h2]; split <;> simp [h2]
    · rw [if_neg h2]
      by_cases h3 : m = THREAD
      · rw [if_pos h3]; split <;> simp [h3]
      · rw [if_neg h3]; split <;> simp [h1, h2, h3]
  · rw [if_neg h1]
    split_ifs <;> simp [h1]

/-- **C30.** The program is ended because of missing MPI-3 exactly for CACHE grids whose processes would exchange blocks by
windows: several processes, MPI communication not switched off, and no communication thread. -/
theorem C30_needs_mpi3 (b : Build) (ps : Params) (commSize domains : Nat)
    (env : Environment b ps commSize domains) :
    initContainers b ps commSize domains = none ↔
      paramString ps "GRID".toList "FULL".toList 0 = "CACHE".toList ∧ commSize ≠ 1 ∧
      paramString ps "MPI_COMMUNICATION".toList "WINDOW".toList 0 ≠ "OFF".toList ∧
      ¬ (paramString ps "MPI_COMMUNICATION".toList "WINDOW".toList 0 = "THREAD".toList ∧ b.threadsafeMpi = false) ∧
      b.mpi3 = false := by
  obtain ⟨m1, m2, m3⟩ := selectMpi_cases b ps commSize env.noMpi
  have hr : (selectMpi b ps commSize).2 ≠ 1 ↔
      commSize ≠ 1 ∧ paramString ps "MPI_COMMUNICATION".toList "WINDOW".toList 0 ≠ "OFF".toList := by
    rw [m1]
    by_cases h : paramString ps "MPI_COMMUNICATION".toList "WINDOW".toList 0 = "OFF".toList
    · rw [if_pos h]; exact ⟨fun h' => absurd rfl h', fun h' => absurd h h'.2⟩
    · rw [if_neg h]; exact ⟨fun h' => ⟨h', h⟩, And.left⟩
  have ht := selectType_window (paramString ps "GRID".toList "FULL".toList 0) (selectMpi b ps commSize).1
    (selectNuma b ps domains)
  simp only [initContainers]
  rw [ite_eq_left_iff]
  simp only [reduceCtorEq, imp_false, not_not]
  rw [ht, Ne, m2, Ne, m3]
  constructor
  · rintro ⟨⟨h1, h2, h3⟩, h4⟩
    exact ⟨h1, (hr.1 h2).1, (hr.1 h2).2, fun h => h3 ⟨h2, h⟩, by simpa using h4⟩
  · rintro ⟨h1, h2, h3, h4, h5⟩
    exact ⟨⟨h1, hr.2 ⟨h2, h3⟩, fun h => h4 h.2⟩, by simp [h5]⟩

/-- **C30, violated.** In a CACHE grid without MPI communication blocks are shared between
NUMA domains exactly if there is only one domain: with several domains (NUMA communication
switched on) the implementation without sharing is used. -/
theorem C30_cache_numa_violated (b : Build) (ps : Params) (commSize domains : Nat)
    (env : Environment b ps commSize domains) (sel : Selection)
    (h : initContainers b ps commSize domains = some sel) (hk : sel.type.kind = .cache)
    (hr : sel.ranks = 1) : sel.type.numa ≠ .no ↔ domains = 1 := by
  have hm := (C30_kind_and_mpi b ps commSize domains env sel h).2.2 (by rw [hk]; decide)
  rw [if_pos hr] at hm
  simp only [initContainers] at h
  have h' := (Option.ite_none_left_eq_some.1 h).2
  simp only [Option.some.injEq] at h'
  subst h'
  obtain ⟨-, -, -, s4, -⟩ := selectType_spec (paramString ps "GRID".toList "FULL".toList 0)
    (selectMpi b ps commSize).1 (selectNuma b ps domains)
  rw [s4 ⟨hk, hm⟩]
  exact selectNuma_off b ps commSize domains env

/-- Default build of the library. -/
def defaultBuild : Build := { noMpi := false, noNuma := false, threadsafeMpi := true, mpi3 := true }

/-- `C30_needs_mpi3`: a CACHE grid on two processes needs MPI-3, a FULL grid does not. -/
example : Environment { defaultBuild with mpi3 := false } (setParams [("GRID".toList, "CACHE".toList, 0)]) 2 1 ∧
    initContainers { defaultBuild with mpi3 := false } (setParams [("GRID".toList, "CACHE".toList, 0)]) 2 1 = none ∧
    initContainers { defaultBuild with mpi3 := false } [] 2 1 = some ⟨.FULL_MPIWIN, 2⟩ :=
  ⟨⟨by omega, by omega, by decide, by decide +kernel, by decide⟩, by decide +kernel, by decide +kernel⟩

/-- The witness: a CACHE grid on one process with two NUMA domains and default communication
settings does not share blocks between the domains. -/
theorem C30_cache_numa_witness :
    ∃ ps, Environment defaultBuild ps 1 2 ∧
      ∃ sel, initContainers defaultBuild ps 1 2 = some sel ∧ sel.type.kind = .cache ∧
        sel.type.numa = .no := by
  refine ⟨setParams [("GRID".toList, "CACHE".toList, 0)],
    ⟨by omega, by omega, by decide, by decide +kernel, by decide⟩,
    ⟨.CACHE, 1⟩, by decide +kernel, rfl, rfl⟩

/-- **C30, partial.** Proved: for FULL grids and for CACHE grids with MPI communication,
blocks are shared between the NUMA domains exactly if there are several domains (which is the
case only if NUMA communication is not switched off). Missing (and false, see
`C30_cache_numa_violated`): CACHE grids without MPI communication. -/
theorem C30_numa_partial (b : Build) (ps : Params) (commSize domains : Nat)
    (env : Environment b ps commSize domains) (sel : Selection)
    (h : initContainers b ps commSize domains = some sel)
    (hk : sel.type.kind = .full ∨ sel.type.kind = .cache ∧ sel.ranks ≠ 1) :
    sel.type.numa ≠ .no ↔ domains ≠ 1 := by
  have hm := (C30_kind_and_mpi b ps commSize domains env sel h).2.2
  simp only [initContainers] at h
  have h' := (Option.ite_none_left_eq_some.1 h).2
  simp only [Option.some.injEq] at h'
  subst h'
  obtain ⟨-, -, s3, -⟩ := selectType_spec (paramString ps "GRID".toList "FULL".toList 0)
    (selectMpi b ps commSize).1 (selectNuma b ps domains)
  rw [s3 ?_, not_iff_not]
  · exact selectNuma_off b ps commSize domains env
  · rcases hk with hk | ⟨hk, hr⟩
    · exact .inl hk
    · refine .inr ⟨hk, ?_⟩
      have hm' := hm (by rw [hk]; decide)
      rw [if_neg hr] at hm'
      intro h0
      change ContainerType.mpi _ = _ at hm'
      rw [h0] at hm'
      split at hm' <;> cases hm'

/-- **C30.** Every FULL configuration can reach every block: the implementation without any
exchange is used only for one process and one domain, the one without exchange between
processes only for one process. These are the conditions under which C05 and C07 hold. -/
theorem C30_full_reaches_all (b : Build) (ps : Params) (commSize domains : Nat)
    (env : Environment b ps commSize domains) (sel : Selection)
    (h : initContainers b ps commSize domains = some sel) (hk : sel.type.kind = .full) :
    (sel.type = .FULL → sel.ranks = 1 ∧ domains = 1) ∧
    (sel.type ≠ .FULL → sel.type.mpi ≠ .no ∨ sel.type.numa ≠ .no ∧ sel.ranks = 1) := by
  have hm := (C30_kind_and_mpi b ps commSize domains env sel h).2.2 (by rw [hk]; decide)
  have hn := C30_numa_partial b ps commSize domains env sel h (.inl hk)
  have hmpi : sel.type.mpi = .no ↔ sel.ranks = 1 := by
    rw [hm]
    by_cases hr : sel.ranks = 1
    · simp [hr]
    · rw [if_neg hr]; split <;> simp [hr]
  simp only [initContainers] at h
  have h' := (Option.ite_none_left_eq_some.1 h).2
  simp only [Option.some.injEq] at h'
  subst h'
  obtain ⟨-, -, -, -, s5, -⟩ := selectType_spec (paramString ps "GRID".toList "FULL".toList 0)
    (selectMpi b ps commSize).1 (selectNuma b ps domains)
  constructor
  · intro hf
    obtain ⟨-, f2, f3⟩ := s5.1 hf
    refine ⟨hmpi.1 f2, ?_⟩
    by_contra hd
    exact hn.2 hd f3
  · intro hf
    by_cases h1 : (selectType (paramString ps "GRID".toList "FULL".toList 0)
        (selectMpi b ps commSize).1 (selectNuma b ps domains)).mpi = .no
    · refine .inr ⟨fun h2 => hf (s5.2 ⟨hk, h1, h2⟩), hmpi.1 h1⟩
    · exact .inl h1

/-- **C30 with C05 and C07.** Whatever the parameters, the number of processes and the number
of domains: if the selected implementation is a FULL one, opening succeeds and after any
history of accesses each getter returns the file's value at the selected index. -/
theorem C30_full_value {fp : Fp} {nc : List NcAxis} {val : List Nat → α} {c : LevelCfg α}
    (b : Build) (ps : Params) (commSize domains : Nat)
    (env : Environment b ps commSize domains) (sel : Selection)
    (h : initContainers b ps commSize domains = some sel) (hk : sel.type.kind = .full)
    (ho : Opened fp (cellCentered ps) nc val c) (roundRobin : Bool) :
    let ds : Dist := ⟨sel.ranks, domains, roundRobin⟩
    (sel.type = .FULL → ∀ mem0 : Mem α, mem0.length = domainSize c ds * ds.domains →
      ∃ m, fullOpen c ds 0 mem0 = some m ∧
        ∀ pos idx, pos2index fp (openAxes fp (cellCentered ps) nc) pos = some idx →
          fullGetAt c ds m 0 pos = some (val idx)) ∧
    (sel.type ≠ .FULL →
      (∀ (cacheSize : Nat) (handDiff : Int) (zero : α) (junk : Nat → Mem α), 0 < cacheSize →
        handDiff < cacheSize →
        (∀ r, r < ds.ranks → (junk r).length = domainSize c ds * ds.domains) →
        ∃ s, fullDistOpen c ds cacheSize handDiff zero junk = some s) ∧
      ∀ s, FullDistReach c ds sel.type.numa (sel.type.mpi ≠ .no) s →
        ∀ canLock rank domain pos idx, rank < ds.ranks →
          pos2index fp (openAxes fp (cellCentered ps) nc) pos = some idx →
          ∃ s', fullDistGetAt c ds sel.type.numa (sel.type.mpi ≠ .no) s canLock rank domain pos =
            some (s', val idx)) := by
  intro ds
  obtain ⟨r1, r2⟩ := C30_full_reaches_all b ps commSize domains env sel h hk
  have hrank : 0 < sel.ranks := by
    rw [(C30_kind_and_mpi b ps commSize domains env sel h).2.1]
    split
    · omega
    · exact env.someRank
  constructor
  · intro hf mem0 hm
    exact C05_full_value ho ds (r1 hf).1 (r1 hf).2 mem0 hm
  · intro hf
    refine C07_fulldist_value ho ds hrank env.someDomain _ _ ?_
    rcases r2 hf with h' | h'
    · exact .inl (decide_eq_true h')
    · exact .inr h'

/-- Non-trivial cases of the hypotheses: four processes with two domains each use windows and
share between domains; with `MPI_COMMUNICATION=off` each process is on its own. -/
example :
    Environment defaultBuild [] 4 2 ∧
    initContainers defaultBuild [] 4 2 = some ⟨.FULL_MPIWIN_NUMA, 4⟩ ∧
    initContainers defaultBuild (setParams [("mpi-communication".toList, "off".toList, 0)]) 4 2 =
      some ⟨.FULL_NUMA, 1⟩ ∧
    initContainers defaultBuild (setParams [("GRID".toList, "Cache".toList, 0)]) 4 2 =
      some ⟨.CACHE_MPIWIN_NUMA, 4⟩ := by
  refine ⟨⟨by omega, by omega, by decide, by decide +kernel, by decide⟩, ?_⟩
  decide +kernel

end Asagi.Props
