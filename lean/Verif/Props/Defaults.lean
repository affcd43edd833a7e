import Verif.Model.OpenArgs
import Verif.Props.Params
import Mathlib.Data.List.Induction
/-
Properties of the parameters of a level and of the reported ranges: C61, C62.
-/
namespace Asagi.Props
open Asagi Asagi.Spec

theorem paramString_last (calls : List (Str × Str × Nat)) (key d : Str) (level : Nat)
    (hkey : ∀ c ∈ key, c.toUpper = c ∧ c ≠ '-') :
    paramString (setParams calls) key d level =
      match lastSetting calls key level with
      | none => d
      | some v => if key = "VARIABLE".toList ∨ "BLOCK_SIZE_".toList <+: key then v
          else normalised v := by
  unfold paramString
  rw [C27_last_setting calls key level hkey]
  cases lastSetting calls key level <;> rfl

theorem paramInt_last (calls : List (Str × Str × Nat)) (key : Str) (d : Int) (level : Nat)
    (hkey : ∀ c ∈ key, c.toUpper = c ∧ c ≠ '-') :
    (lastSetting calls key level = none → paramInt (setParams calls) key d level = d) ∧
    (∀ z : Int, lastSetting calls key level = some (decimalInt z) → InInt z →
      0 ≤ z ∨ "BLOCK_SIZE_".toList <+: key → paramInt (setParams calls) key d level = z) := by
  unfold paramInt
  rw [C27_last_setting calls key level hkey]
  constructor
  · intro h; rw [h]; rfl
  · intro z h hr hz
    rw [h]
    simp only [Option.map_some]
    have : (if key = "VARIABLE".toList ∨ "BLOCK_SIZE_".toList <+: key then decimalInt z
        else normalised (decimalInt z)) = decimalInt z := by
      split
      · rfl
      · rename_i hn
        have : ¬ z < 0 := by
          have := hz.resolve_right (fun h => hn (.inr h)); omega
        rw [decimalInt, if_neg this, normalised_decimal]
    simp only [this, parseInt_decimalInt z hr]

theorem paramUnsigned_last (calls : List (Str × Str × Nat)) (key : Str) (d level : Nat)
    (hkey : ∀ c ∈ key, c.toUpper = c ∧ c ≠ '-') :
    (lastSetting calls key level = none → paramUnsigned (setParams calls) key d level = d) ∧
    (∀ n : Nat, lastSetting calls key level = some (decimalInt n) →
      paramUnsigned (setParams calls) key d level = min (2 ^ 32 - 1) n) := by
  unfold paramUnsigned
  rw [C27_last_setting calls key level hkey]
  constructor
  · intro h; rw [h]; rfl
  · intro n h
    rw [h]
    simp only [Option.map_some]
    have : (if key = "VARIABLE".toList ∨ "BLOCK_SIZE_".toList <+: key then decimalInt n
        else normalised (decimalInt n)) = decimalInt n := by
      split
      · rfl
      · rw [decimalInt, if_neg (by omega), normalised_decimal]
    simp only [this, parseUnsigned, leadingNumber_decimalInt, Int.toNat_natCast]
    rfl

/-- **C61.** Parameters the user did not set have the documented defaults, whatever else was set: the
variable is `z`, 128 cached blocks, no hand spread given (-1), no time dimension (-1), cell-centered
values, no block size given (0). VARIABLE, CACHE_SIZE, CACHE_HAND_SPREAD and BLOCK_SIZE_n are
per level, TIME_DIMENSION and VALUE_POSITION are taken from level 0. -/
theorem C61_defaults (calls : List (Str × Str × Nat)) (level : Nat) :
    (lastSetting calls "VARIABLE".toList level = none →
      (openArgs (setParams calls) level).varName = "z".toList) ∧
    (lastSetting calls "CACHE_SIZE".toList level = none →
      (openArgs (setParams calls) level).cacheSize = 128) ∧
    (lastSetting calls "CACHE_HAND_SPREAD".toList level = none →
      (openArgs (setParams calls) level).handSpread = -1) ∧
    (lastSetting calls "TIME_DIMENSION".toList 0 = none → timeDimension (setParams calls) = -1) ∧
    (lastSetting calls "VALUE_POSITION".toList 0 = none → cellCentered (setParams calls) = true) ∧
    (∀ i, i < 4 → lastSetting calls (blockSizeName i) level = none →
      (openArgs (setParams calls) level).blockSizes[i]? = some 0) := by
  refine ⟨?_, ?_, ?_, ?_, ?_, ?_⟩
  · intro h
    simp only [openArgs]
    rw [paramString_last _ _ _ _ (by decide +kernel), h]
  · intro h
    simp only [openArgs]
    rw [(paramUnsigned_last _ _ _ _ (by decide +kernel)).1 h]
  · intro h
    simp only [openArgs]
    rw [(paramInt_last _ _ _ _ (by decide +kernel)).1 h]
  · intro h
    unfold timeDimension
    rw [(paramInt_last _ _ _ _ (by decide +kernel)).1 h]
  · intro h
    unfold cellCentered
    rw [paramString_last _ _ _ _ (by decide +kernel), h]
    decide +kernel
  · intro i hi h
    have hk : ∀ c ∈ blockSizeName i, c.toUpper = c ∧ c ≠ '-' := by
      have : i = 0 ∨ i = 1 ∨ i = 2 ∨ i = 3 := by omega
      rcases this with rfl | rfl | rfl | rfl <;> decide +kernel
    simp only [openArgs, maxDimensions, List.getElem?_map, List.getElem?_range hi, Option.map_some]
    rw [(paramInt_last _ _ _ _ hk).1 h]

/-- **C61.** Parameters the user did set have the value of the last setting: the variable name verbatim,
numbers as given (negative ones only for BLOCK_SIZE_n, see C28; CACHE_SIZE up to the largest `unsigned int`,
a larger number means the largest one; the others up to the largest `int`), and values are at the vertices exactly
if the last setting says so, in any case and with either '-' or '_'. -/
theorem C61_settings (calls : List (Str × Str × Nat)) (level : Nat) :
    (∀ v, lastSetting calls "VARIABLE".toList level = some v →
      (openArgs (setParams calls) level).varName = v) ∧
    (∀ n : Nat, lastSetting calls "CACHE_SIZE".toList level = some (decimalInt n) →
      (openArgs (setParams calls) level).cacheSize = if n < 2 ^ 32 then n else 2 ^ 32 - 1) ∧
    (∀ n : Nat, n < 2 ^ 31 → lastSetting calls "CACHE_HAND_SPREAD".toList level = some (decimalInt n) →
      (openArgs (setParams calls) level).handSpread = n) ∧
    (∀ n : Nat, n < 2 ^ 31 → lastSetting calls "TIME_DIMENSION".toList 0 = some (decimalInt n) →
      timeDimension (setParams calls) = n) ∧
    (∀ v, lastSetting calls "VALUE_POSITION".toList 0 = some v →
      (cellCentered (setParams calls) = false ↔ SameName v "VERTEX_CENTERED".toList)) ∧
    (∀ i, i < 4 → ∀ z : Int, InInt z → lastSetting calls (blockSizeName i) level = some (decimalInt z) →
      (openArgs (setParams calls) level).blockSizes[i]? = some z) := by
  refine ⟨?_, ?_, ?_, ?_, ?_, ?_⟩
  · intro v h
    simp only [openArgs]
    rw [paramString_last _ _ _ _ (by decide +kernel), h]
    simp
  · intro n h
    simp only [openArgs]
    rw [(paramUnsigned_last _ _ _ _ (by decide +kernel)).2 n h]
    split <;> omega
  · intro n hn h
    simp only [openArgs]
    rw [(paramInt_last _ _ _ _ (by decide +kernel)).2 n h (by unfold InInt; omega) (.inl (by omega))]
  · intro n hn h
    unfold timeDimension
    rw [(paramInt_last _ _ _ _ (by decide +kernel)).2 n h (by unfold InInt; omega) (.inl (by omega))]
  · intro v h
    unfold cellCentered
    rw [paramString_last _ _ _ _ (by decide +kernel), h, sameName_iff]
    have e1 : ¬ ("VALUE_POSITION".toList = "VARIABLE".toList ∨
        "BLOCK_SIZE_".toList <+: "VALUE_POSITION".toList) := by decide +kernel
    have e2 : normalised "VERTEX_CENTERED".toList = "VERTEX_CENTERED".toList := by decide +kernel
    rw [e2]
    simp only [if_neg e1, decide_eq_false_iff_not, ne_eq, Decidable.not_not]
  · intro i hi z hr h
    have hk : (∀ c ∈ blockSizeName i, c.toUpper = c ∧ c ≠ '-') := by
      have : i = 0 ∨ i = 1 ∨ i = 2 ∨ i = 3 := by omega
      rcases this with rfl | rfl | rfl | rfl <;> decide +kernel
    simp only [openArgs, maxDimensions, List.getElem?_map, List.getElem?_range hi, Option.map_some]
    rw [(paramInt_last _ _ _ _ hk).2 z h hr (.inr (List.prefix_append _ _))]

/-- Cache sizes within and beyond the range of `unsigned int`. -/
example : (openArgs (setParams [("cache-size".toList, "4000000000".toList, 0)]) 0).cacheSize = 4000000000 ∧
    (openArgs (setParams [("cache-size".toList, "5000000000".toList, 0)]) 0).cacheSize = 4294967295 ∧
    (openArgs (setParams [("cache-hand-spread".toList, "5000000000".toList, 0)]) 0).handSpread =
      2147483647 := by
  decide +kernel

theorem leadingDigits_rest (xs rest : Str) (acc : Nat) (h : ∀ x ∈ xs, x.isDigit = true)
    (hr : ∀ c ∈ rest.head?, c.isDigit = false) : leadingDigits (xs ++ rest) acc = leadingDigits xs acc := by
  induction xs generalizing acc with
  | nil =>
    cases rest with
    | nil => rfl
    | cons c rest =>
      have := hr c (by simp)
      simp [leadingDigits, this]
  | cons x xs ih =>
    have hx := h x (by simp)
    simp only [List.cons_append, leadingDigits, hx, if_true]
    exact ih _ (fun y hy => h y (by simp [hy]))

theorem decimal_rest (n : Nat) (rest : Str) (hr : ∀ c ∈ rest.head?, c.isDigit = false) :
    leadingDigits (decimal n ++ rest) 0 = n := by
  rw [leadingDigits_rest _ _ _ (fun x hx => by
    obtain ⟨d, hd, rfl⟩ := decimal_digits _ x hx; exact (digit_facts d hd).1) hr, leadingDigits_decimal]

theorem dropWhile_spaces (ws t : Str) (hw : ∀ c ∈ ws, isSpace c = true)
    (ht : ∀ c ∈ t.head?, isSpace c = false) : (ws ++ t).dropWhile isSpace = t := by
  induction ws with
  | nil =>
    cases t with
    | nil => rfl
    | cons c t => exact List.dropWhile_cons_of_neg (by simp [ht c (by simp)])
  | cons c ws ih =>
    rw [List.cons_append, List.dropWhile_cons_of_pos (hw c (by simp))]
    exact ih (fun x hx => hw x (by simp [hx]))

/-- **C61.** How the text of a block size is read: white space before the number is skipped, then a number
with or without a sign (the nearest limit, if it is outside of the range of `int`), and whatever
follows its last digit is ignored; a text that does not start with a number counts as 0 (not set). -/
theorem C61_number_text (calls : List (Str × Str × Nat)) (i : Nat) (hi : i < 4) (d : Int) (level n : Nat)
    (ws rest : Str) (hw : ∀ c ∈ ws, c = ' ' ∨ c = '\t' ∨ c = '\n')
    (hr : ∀ c ∈ rest.head?, c.isDigit = false) :
    (lastSetting calls (blockSizeName i) level = some (ws ++ (decimal n ++ rest)) →
      paramInt (setParams calls) (blockSizeName i) d level = if n < 2 ^ 31 then (n : Int) else 2 ^ 31 - 1) ∧
    (lastSetting calls (blockSizeName i) level = some (ws ++ '+' :: (decimal n ++ rest)) →
      paramInt (setParams calls) (blockSizeName i) d level = if n < 2 ^ 31 then (n : Int) else 2 ^ 31 - 1) ∧
    (lastSetting calls (blockSizeName i) level = some (ws ++ '-' :: (decimal n ++ rest)) →
      paramInt (setParams calls) (blockSizeName i) d level = if n < 2 ^ 31 then -(n : Int) else -2 ^ 31) ∧
    (lastSetting calls (blockSizeName i) level = some (ws ++ rest) →
      (∀ c ∈ rest.head?, c ≠ '+' ∧ c ≠ '-' ∧ 32 < c.toNat) →
      paramInt (setParams calls) (blockSizeName i) d level = 0) := by
  have hk : ∀ c ∈ blockSizeName i, c.toUpper = c ∧ c ≠ '-' := by
    have : i = 0 ∨ i = 1 ∨ i = 2 ∨ i = 3 := by omega
    rcases this with rfl | rfl | rfl | rfl <;> decide +kernel
  have hp : "BLOCK_SIZE_".toList <+: blockSizeName i := List.prefix_append _ _
  have hw' : ∀ c ∈ ws, isSpace c = true := by
    intro c hc
    rcases hw c hc with rfl | rfl | rfl <;> decide
  have key : ∀ v, lastSetting calls (blockSizeName i) level = some (ws ++ v) →
      (∀ c ∈ v.head?, isSpace c = false) →
      paramInt (setParams calls) (blockSizeName i) d level =
        max (-2147483648) (min 2147483647 (leadingNumber v)) := by
    intro v h hv
    unfold paramInt
    rw [C27_last_setting calls _ level hk, h]
    simp only [Option.map_some]
    rw [if_pos (.inr hp)]
    have e1 := dropWhile_spaces ws v hw' hv
    have e2 := dropWhile_spaces [] v (by simp) hv
    rw [List.nil_append] at e2
    simp only [parseInt, leadingNumber, e1, e2]
  have sp : isSpace '+' = false ∧ isSpace '-' = false := by decide
  refine ⟨fun h => ?_, fun h => ?_, fun h => ?_, fun h h1 => ?_⟩
  · have hl := decimal_rest n rest hr
    obtain ⟨x, hx, t, e⟩ := decimal_ne_nil n
    obtain ⟨-, -, -, h4, h5⟩ := digit_facts x hx
    have hsp := digit_not_space x hx
    have e1 : leadingNumber (decimal n ++ rest) = n := by
      rw [e, List.cons_append] at hl ⊢
      unfold leadingNumber
      rw [List.dropWhile_cons_of_neg (by simp [hsp])]
      split
      · rename_i h; simp at h; exact absurd h.1 h4
      · rename_i h; simp at h; exact absurd h.1 h5
      · rw [hl]
    rw [key _ h (by rw [e]; simpa using hsp), e1]
    split <;> omega
  · rw [key _ h (by simpa using sp.1)]
    have e1 : leadingNumber ('+' :: (decimal n ++ rest)) = n := by
      unfold leadingNumber
      rw [List.dropWhile_cons_of_neg (by simp [sp.1])]
      simp only [decimal_rest n rest hr]
    rw [e1]; split <;> omega
  · rw [key _ h (by simpa using sp.2)]
    have e1 : leadingNumber ('-' :: (decimal n ++ rest)) = -n := by
      unfold leadingNumber
      rw [List.dropWhile_cons_of_neg (by simp [sp.2])]
      simp only [decimal_rest n rest hr]
    rw [e1]; split <;> omega
  · replace h1 : ∀ c ∈ rest.head?, c ≠ '+' ∧ c ≠ '-' ∧ isSpace c = false := by
      intro c hc
      obtain ⟨g1, g2, g3⟩ := h1 c hc
      refine ⟨g1, g2, ?_⟩
      simp only [isSpace, decide_eq_false_iff_not]
      rintro (rfl | rfl | rfl | h | h | rfl) <;> first | omega | exact absurd g3 (by decide)
    rw [key _ h (fun c hc => (h1 c hc).2.2)]
    have e1 : leadingNumber rest = 0 := by
      cases rest with
      | nil => rfl
      | cons c rest =>
        have hc := hr c (by simp)
        obtain ⟨g1, g2, g3⟩ := h1 c (by simp)
        unfold leadingNumber
        rw [List.dropWhile_cons_of_neg (by simp [g3])]
        split
        · rename_i h; simp at h; exact absurd h.1 g2
        · rename_i h; simp at h; exact absurd h.1 g1
        · simp [leadingDigits, hc]
    rw [e1]; rfl

example : (∀ c ∈ " samples".toList.head?, c.isDigit = false) ∧
    lastSetting [("block-size-1".toList, "  +64 samples".toList, 0)] (blockSizeName 1) 0 =
      some ("  ".toList ++ '+' :: (decimal 64 ++ " samples".toList)) := by
  refine ⟨by decide, ?_⟩
  rw [decimal, decimal]
  decide +kernel

/-- **C61.** The extent of the blocks in dimension `n`: 64 samples if the user did not set BLOCK_SIZE_n
(or set it to 0), the whole dimension if it is negative, the given number otherwise; never more than
the dimension has. -/
theorem C61_block_extent {α : Type} (fp : Fp) (cc : Bool) (nc : List NcAxis) (val : List Nat → α)
    (basic : Bool) (timeDim : Int) (junk : BlockedState) (cfg : LevelCfg α)
    (calls : List (Str × Str × Nat)) (level n : Nat) (a : NcAxis) (hdims : nc.length ≤ 4)
    (hn : n < nc.length) (ha : nc[nc.length - 1 - n]? = some a)
    (h : openLevel fp cc nc val basic (openArgs (setParams calls) level).blockSizes timeDim junk =
      some cfg) :
    (lastSetting calls (blockSizeName n) level = none →
      cfg.geom[nc.length - 1 - n]? = some ⟨a.size, min 64 a.size⟩) ∧
    (∀ z : Int, InInt z → lastSetting calls (blockSizeName n) level = some (decimalInt z) →
      cfg.geom[nc.length - 1 - n]? = some ⟨a.size, if z < 0 then a.size else if z = 0 then min 64 a.size
        else min z.toNat a.size⟩) := by
  have hne : nc ≠ [] := by rintro rfl; simp at hn
  obtain ⟨_, _, _, _, _, hg, _⟩ := openLevel_spec hne h
  have hpar : (nc.map NcAxis.size).length ≤ (openArgs (setParams calls) level).blockSizes.length := by
    simp only [openLevel, Option.bind_eq_bind, Option.bind_eq_some_iff] at h
    obtain ⟨st, hst, _⟩ := h
    exact (blockedOpen_spec hst).1
  have key : ∀ z, (openArgs (setParams calls) level).blockSizes[n]? = some z →
      cfg.geom[nc.length - 1 - n]? = some ⟨a.size, if z < 0 then a.size
        else if z = 0 then min 64 a.size else min z.toNat a.size⟩ := by
    intro z hz
    rw [hg, openGeom_getElem? _ _ _ (by simp; omega) hpar]
    have hsz : (nc.map NcAxis.size)[nc.length - 1 - n]'(by simp; omega) = a.size := by
      rw [List.getElem?_eq_some_iff] at ha
      obtain ⟨_, ha⟩ := ha
      simp [ha]
    have hpp : (openArgs (setParams calls) level).blockSizes[(nc.map NcAxis.size).length -
        (nc.length - 1 - n) - 1]'(by simp at hpar ⊢; omega) = z := by
      have : (nc.map NcAxis.size).length - (nc.length - 1 - n) - 1 = n := by simp; omega
      simp only [this]
      rw [List.getElem?_eq_some_iff] at hz
      exact hz.2
    rw [hsz, hpp]
    congr 2
    unfold loopBlockSize
    by_cases h0 : z = 0
    · subst h0; simp only [if_true, Int.lt_irrefl, if_false]; split <;> omega
    · by_cases h1 : z < 0
      · simp only [if_neg h0, if_pos h1]; simp
      · simp only [if_neg h0, if_neg h1]; split <;> omega
  constructor
  · intro hl
    have := key 0 ((C61_defaults calls level).2.2.2.2.2 n (by omega) hl)
    simpa using this
  · intro z hz hl
    exact key z ((C61_settings calls level).2.2.2.2.2 n (by omega) z hz hl)

/-- A history: GRID and two block sizes are set, one of them twice, and VALUE_POSITION for a level
other than 0, which has no effect. -/
def exCalls : List (Str × Str × Nat) :=
  [("block-size-0".toList, "7".toList, 0), ("VALUE-POSITION".toList, "vertex-centered".toList, 1),
   ("BLOCK_SIZE_1".toList, "-1".toList, 0), ("Block-Size-0".toList, "2".toList, 0),
   ("Variable".toList, "Bathy".toList, 1)]

theorem decimalInt_two : decimalInt 2 = "2".toList := by
  rw [decimalInt, decimal]; decide +kernel

theorem decimalInt_minus_one : decimalInt (-1) = "-1".toList := by
  rw [decimalInt, decimal]; decide +kernel

/-- Non-trivial case for C61: the hypotheses about the last settings hold for the history above, and the
level is opened with block extents 2 and 5 (whole dimension). -/
example : lastSetting exCalls (blockSizeName 0) 0 = some (decimalInt 2) ∧
    lastSetting exCalls (blockSizeName 1) 0 = some (decimalInt (-1)) ∧
    lastSetting exCalls "VALUE_POSITION".toList 0 = none ∧
    lastSetting exCalls "VARIABLE".toList 1 = some "Bathy".toList ∧
    (openLevel .exact true [⟨5, none⟩, ⟨9, none⟩] (fun i => i) true
      (openArgs (setParams exCalls) 0).blockSizes (timeDimension (setParams exCalls))
      ⟨[0,0,0,0], [0,0,0,0], 0, 0⟩).map (fun c => c.geom) = some [⟨5, 5⟩, ⟨9, 2⟩] := by
  rw [decimalInt_two, decimalInt_minus_one]
  refine ⟨by decide +kernel, by decide +kernel, by decide +kernel, by decide +kernel, by decide +kernel⟩

/-- **C61.** The look into the caches of the node (`NUMA_COMMUNICATION` = `CACHE`) is used exactly for
FULL grids with several processes and several domains for which it is asked. -/
theorem C61_numa_cache (b : Build) (ps : Params) (commSize domains : Nat)
    (env : Environment b ps commSize domains) (sel : Selection)
    (h : initContainers b ps commSize domains = some sel) :
    sel.type.numa = .fullCache ↔
      sel.type.kind = .full ∧ sel.ranks ≠ 1 ∧ domains ≠ 1 ∧
      paramString ps "NUMA_COMMUNICATION".toList (if b.noNuma then "OFF".toList else "ON".toList) 0 =
        "CACHE".toList := by
  obtain ⟨m1, m2, m3⟩ := selectMpi_cases b ps commSize env.noMpi
  simp only [initContainers] at h
  have h' := (Option.ite_none_left_eq_some.1 h).2
  simp only [Option.some.injEq] at h'
  subst h'
  have e1 : "OFF".toList ≠ "CACHE".toList := by decide +kernel
  have e4 : "CACHE".toList ≠ "PASS_THROUGH".toList := by decide +kernel
  have e5 : "FULL".toList ≠ "PASS_THROUGH".toList := by decide +kernel
  simp only
  rw [ne_eq, ← m2]
  generalize (selectMpi b ps commSize).1 = mpi
  unfold selectNuma
  generalize paramString ps "NUMA_COMMUNICATION".toList
    (if b.noNuma then "OFF".toList else "ON".toList) 0 = numa
  generalize paramString ps "GRID".toList "FULL".toList 0 = grid
  unfold selectType
  generalize "OFF".toList = OFF at *
  generalize "CACHE".toList = CACHE at *
  generalize "THREAD".toList = THREAD at *
  generalize "PASS_THROUGH".toList = PASS at *
  by_cases g1 : grid = CACHE
  · rw [if_pos g1]
    constructor
    · intro h; exfalso; revert h; repeat' split
      all_goals simp [ContainerType.numa]
    · rintro ⟨h, -⟩; exfalso; revert h; repeat' split
      all_goals simp [ContainerType.kind]
  · rw [if_neg g1]
    by_cases g2 : grid = PASS
    · rw [if_pos g2]; simp [ContainerType.numa, ContainerType.kind]
    · rw [if_neg g2]
      by_cases d1 : domains = 1
      · rw [if_pos d1]
        constructor
        · intro h; exfalso; revert h
          rw [if_pos rfl, if_pos rfl, if_pos rfl]
          repeat' split
          all_goals exact nofun
        · rintro ⟨-, -, h, -⟩; exact absurd d1 h
      · rw [if_neg d1]
        by_cases mo : mpi = OFF
        · rw [if_pos mo]
          constructor
          · intro h; exfalso; revert h; repeat' split
            all_goals exact nofun
          · rintro ⟨-, h, -⟩; exact absurd mo h
        · rw [if_neg mo]
          by_cases nc : numa = CACHE
          · have : numa ≠ OFF := by rw [nc]; exact e1.symm
            rw [if_neg this, if_pos nc, if_neg this, if_pos nc]
            refine ⟨fun _ => ⟨?_, mo, d1, nc⟩, fun _ => ?_⟩ <;> split <;> rfl
          · rw [if_neg nc, if_neg nc]
            constructor
            · intro h; exfalso; revert h; repeat' split
              all_goals exact nofun
            · rintro ⟨-, -, -, h⟩; exact absurd h nc

/-- Non-trivial case: two processes, two domains, FULL grid, NUMA caches asked for. -/
example : Environment defaultBuild (setParams [("numa-communication".toList, "cache".toList, 0)]) 2 2 ∧
    initContainers defaultBuild (setParams [("numa-communication".toList, "cache".toList, 0)]) 2 2 =
      some ⟨.FULL_MPIWIN_NUMACACHE, 2⟩ := by
  refine ⟨⟨by omega, by omega, by decide, by decide +kernel, by decide⟩, by decide +kernel⟩

/-! ### C62: the reported ranges -/

theorem mapM_range_get {β : Type} (f : Nat → Option β) (n : Nat) (r : List β)
    (h : (List.range n).mapM f = some r) : r.length = n ∧ ∀ i, i < n → r[i]? = f i := by
  have hs := mapM_option_spec _ _ _ h
  refine ⟨by rw [hs.1, List.length_range], ?_⟩
  intro i hi
  obtain ⟨b, h1, h2⟩ := hs.2 i i (List.getElem?_range hi)
  rw [h2, h1]

/-- **C62.** After any sequence of successful `open` calls, in any order of levels: for every level that
was opened, the level is the one described by the last file opened for it, `getDelta(n, level)` is the
spacing of that file's variable, and `getMin`, `getMax` and the number of dimensions are those of
level 0, not of another level. -/
theorem C62_ranges {α : Type} (fp : Fp) (ps : Params) (basic : Bool) (jmin jmax : List Dbl)
    (ops : List (OpenCall α)) (s : ContainerState α)
    (h : openAll fp ps basic (.new jmin jmax) ops = some s) (l : Nat) (op : OpenCall α)
    (hl : ops.reverse.find? (fun o => decide (o.level = l)) = some op) :
    ∃ nc val cfg, op.file (openArgs ps l).varName = some (nc, val) ∧
      openLevel fp (cellCentered ps) nc val basic (openArgs ps l).blockSizes (timeDimension ps)
        op.junk = some cfg ∧
      s.levels[l]? = some (some cfg) ∧
      (∀ n, s.getDelta n l = getDelta (openAxes fp (cellCentered ps) nc) n) ∧
      (l = 0 → s.dims = nc.length ∧ ∀ n, n < nc.length →
        s.getMin n = getMin (openAxes fp (cellCentered ps) nc) n ∧
        s.getMax n = getMax (openAxes fp (cellCentered ps) nc) n ∧ (s.getMin n).isSome) := by
  induction ops using List.reverseRecOn generalizing s with
  | nil => simp at hl
  | append_singleton ops o ih =>
    unfold openAll at h
    rw [List.foldlM_append] at h
    simp only [Option.bind_eq_bind, Option.bind_eq_some_iff, List.foldlM_cons, List.foldlM_nil] at h
    obtain ⟨s1, e1, s2, e2, e3⟩ := h
    cases e3
    simp only [ContainerState.init, Option.bind_eq_bind, Option.bind_eq_some_iff] at e2
    obtain ⟨⟨nc, val⟩, hf, cfg, hc, e2⟩ := e2
    have haxes : cfg.axes = openAxes fp (cellCentered ps) nc := by
      simp only [openLevel, Option.bind_eq_bind, Option.bind_eq_some_iff] at hc
      obtain ⟨st, _, hc⟩ := hc
      cases hc; rfl
    obtain ⟨L, hL⟩ : ∃ L, L = (s1.levels ++
      List.replicate (o.level + 1 - s1.levels.length) none).set o.level (some cfg) := ⟨_, rfl⟩
    have hset : s.levels = L ∧
        (o.level = 0 → s.dims = nc.length ∧ ∀ n, n < nc.length →
          s.getMin n = getMin (openAxes fp (cellCentered ps) nc) n ∧
          s.getMax n = getMax (openAxes fp (cellCentered ps) nc) n ∧ (s.getMin n).isSome) ∧
        (o.level ≠ 0 → s.dims = s1.dims ∧ s.min = s1.min ∧ s.max = s1.max) := by
      rw [← hL] at e2
      by_cases h0 : o.level = 0
      · rw [if_pos h0] at e2
        simp only [Option.bind_eq_some_iff] at e2
        obtain ⟨mins, hmin, maxs, hmax, e2⟩ := e2
        cases e2
        obtain ⟨l1, g1⟩ := mapM_range_get _ _ _ hmin
        obtain ⟨l2, g2⟩ := mapM_range_get _ _ _ hmax
        refine ⟨rfl, fun _ => ⟨rfl, ?_⟩, fun h => absurd h0 h⟩
        intro n hn
        simp only [ContainerState.getMin, ContainerState.getMax]
        rw [List.getElem?_append_left (by omega), List.getElem?_append_left (by omega), g1 n hn, g2 n hn,
          haxes]
        refine ⟨rfl, rfl, ?_⟩
        rw [← haxes, ← g1 n hn]
        simp [l1, hn]
      · rw [if_neg h0] at e2
        cases e2
        exact ⟨rfl, fun h => absurd h h0, fun _ => ⟨rfl, rfl, rfl⟩⟩
    rw [List.reverse_append] at hl
    simp only [List.reverse_cons, List.reverse_nil, List.nil_append, List.singleton_append,
      List.find?_cons] at hl
    by_cases hlev : o.level = l
    · simp only [hlev, decide_true] at hl
      cases hl
      rw [hlev] at hf hc hL hset
      have hget : s.levels[l]? = some (some cfg) := by
        rw [hset.1, hL, List.getElem?_set_self (by simp; omega)]
      refine ⟨nc, val, cfg, hf, hc, hget, ?_, hset.2.1⟩
      intro n
      simp only [ContainerState.getDelta, hget, Option.bind_eq_bind, Option.bind_some, haxes]
    · simp only [hlev, decide_false] at hl
      obtain ⟨nc', val', cfg', f1, f2, f3, f4, f5⟩ := ih s1 e1 hl
      have hget : s.levels[l]? = s1.levels[l]? := by
        have hlt : l < s1.levels.length := (List.getElem?_eq_some_iff.1 f3).1
        rw [hset.1, hL, List.getElem?_set_ne hlev, List.getElem?_append_left hlt]
      refine ⟨nc', val', cfg', f1, f2, by rw [hget, f3], ?_, ?_⟩
      · intro n
        rw [← f4 n]
        simp only [ContainerState.getDelta, hget]
      · intro h0
        obtain ⟨k1, k2, k3⟩ := hset.2.2 (by omega)
        obtain ⟨q1, q2⟩ := f5 h0
        refine ⟨by rw [k1, q1], ?_⟩
        intro n hn
        simp only [ContainerState.getMin, ContainerState.getMax, k2, k3]
        exact q2 n hn

/-- A file with the variables `z` (samples 0..8 and 10, 8, 6) and `fine` (five samples). -/
def exVarFile : VarFile (List Nat) := fun v =>
  if v = "z".toList then some ([⟨3, some fun i => 10 - 2 * i⟩, ⟨9, none⟩], fun i => i)
  else if v = "fine".toList then some ([⟨5, none⟩], fun i => i) else none

def exOpens : Option (ContainerState (List Nat)) :=
  openAll .exact (setParams [("variable".toList, "fine".toList, 1),
      ("value-position".toList, "vertex-centered".toList, 0)]) true
    (.new [.fin 0, .fin 0, .fin 0, .fin 0] [.fin 0, .fin 0, .fin 0, .fin 0])
    [⟨exVarFile, 0, ⟨[0,0,0,0], [0,0,0,0], 0, 0⟩⟩, ⟨exVarFile, 1, ⟨[0,0,0,0], [0,0,0,0], 0, 0⟩⟩]

/-- Level 1 is opened after level 0 from the variable `fine`: the range is that of level 0. -/
example : exOpens.map (fun s => (s.dims, s.getMin 0, s.getMax 0)) =
    some (2, some (.fin 0), some (.fin 8)) ∧
    exOpens.map (fun s => (s.getMin 1, s.getMax 1)) = some (some (.fin 6), some (.fin 10)) ∧
    exOpens.map (fun s => (s.getDelta 1 0, s.getDelta 0 1)) = some (some (.fin 2), some (.fin 1)) := by
  decide +kernel

end Asagi.Props
