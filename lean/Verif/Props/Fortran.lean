import Verif.Spec.Fortran
/-
C72: a program does the same with the Fortran interface as with the C++ interface.
-/
namespace Asagi.Props
open Asagi Asagi.Spec

theorem intToUnsigned_count {i : Int} (h : count i) : intToUnsigned i = i.toNat := by
  unfold intToUnsigned; rw [Int.emod_eq_of_lt h.1 (by have := h.2; omega)]

theorem longToUnsigned_offset {i : Int} (h : offset i) : longToUnsigned i = i.toNat := by
  unfold longToUnsigned; rw [Int.emod_eq_of_lt h.1 (by have := h.2; omega)]

theorem optLevel_eq {l : Option Int} (h : Spec.level l) : intToUnsigned (optLevel l) = (l.getD 0).toNat := by
  cases l with
  | none => rfl
  | some i => exact intToUnsigned_count (h i rfl)

theorem optType_eq (t : Option Int) : optType t = t.getD 3 := by cases t <;> rfl

theorem cString_eq {s : Str} (h : noNull s) : cString s = s := by
  unfold cString
  induction s with
  | nil => rfl
  | cons c cs ih =>
    have hc : c ≠ '\x00' := by rintro rfl; exact h (by simp)
    rw [List.cons_append, List.takeWhile_cons, if_pos (by simpa using hc),
      ih (fun hm => h (by simp [hm]))]

/-- The relation between the states of the C++ and of the Fortran program. -/
structure FRel {σ : Type} (gs : List (Option σ)) (s : FortranState σ) : Prop where
  len : s.table.length = gs.length
  pres : ∀ (k : Nat) x, gs[k]? = some (some x) → ∃ a, s.table[k]? = some (some a) ∧ s.heap a = some x
  gone : ∀ k : Nat, gs[k]? = some none → s.table[k]? = some none
  inj : ∀ (k l : Nat) a, s.table[k]? = some (some a) → s.table[l]? = some (some a) → k = l
  live : ∀ (k : Nat) a, s.table[k]? = some (some a) → a ∈ s.live

variable {σ P V : Type} {L : GridClass σ P V} {alloc : List Nat → Nat}

theorem frel_new (ha : ∀ l, alloc l ∉ l) {gs : List (Option σ)} {s : FortranState σ} (R : FRel gs s)
    (k : GridKind) : FRel (gs ++ [some (L.create k)]) (s.new L alloc k).1 ∧
      (s.new L alloc k).2 = gs.length := by
  have hlen := R.len
  have hne : ∀ (i : Nat) a, s.table[i]? = some (some a) → a ≠ alloc s.live := by
    rintro i a h rfl; exact ha _ (R.live i _ h)
  have htab : ∀ i : Nat, (s.table ++ [some (alloc s.live)])[i]? =
      if i < s.table.length then s.table[i]? else if i = s.table.length then
        some (some (alloc s.live)) else none := by
    intro i
    by_cases h : i < s.table.length
    · rw [if_pos h, List.getElem?_append_left h]
    · rw [if_neg h, List.getElem?_append_right (by omega)]
      by_cases h2 : i = s.table.length
      · simp [h2]
      · rw [if_neg h2, List.getElem?_eq_none (by simp; omega)]
  refine ⟨⟨?_, ?_, ?_, ?_, ?_⟩, ?_⟩
  · simp [FortranState.new, PointerArray.add, hlen]
  · intro i x hi
    simp only [FortranState.new, PointerArray.add]
    by_cases h : i < gs.length
    · rw [List.getElem?_append_left h] at hi
      obtain ⟨a, h1, h2⟩ := R.pres i x hi
      refine ⟨a, ?_, ?_⟩
      · rw [List.getElem?_append_left (by omega)]; exact h1
      · rw [upd_ne _ _ (hne i a h1)]; exact h2
    · have hi' : i = gs.length := by
        have := (List.getElem?_eq_some_iff.1 hi).1; simp at this; omega
      subst hi'
      simp at hi
      subst hi
      exact ⟨alloc s.live, by rw [← hlen]; simp, upd_self ..⟩
  · intro i hi
    simp only [FortranState.new, PointerArray.add]
    by_cases h : i < gs.length
    · rw [List.getElem?_append_left h] at hi
      rw [List.getElem?_append_left (by omega)]; exact R.gone i hi
    · have hi' : i = gs.length := by
        have := (List.getElem?_eq_some_iff.1 hi).1; simp at this; omega
      subst hi'; simp at hi
  · intro i j a hi hj
    simp only [FortranState.new, PointerArray.add] at hi hj
    rw [htab] at hi hj
    split_ifs at hi hj with h1 h2 h3
    · exact R.inj i j a hi hj
    · cases hj; exact absurd rfl (hne i _ hi)
    · cases hi; exact absurd rfl (hne j _ hj)
    · omega
  · intro i a hi
    simp only [FortranState.new, PointerArray.add] at hi ⊢
    rw [htab] at hi
    split_ifs at hi with h1 h2
    · exact List.mem_cons_of_mem _ (R.live i a hi)
    · cases hi; simp
  · simp [FortranState.new, PointerArray.add, hlen]

theorem f2c_nat {s : FortranState σ} {g : Int} (h : 0 ≤ g) : s.f2c g = s.table[g.toNat]? := by
  unfold FortranState.f2c PointerArray.get
  rw [if_neg (by omega)]

theorem frel_member {gs gs' : List (Option σ)} {s : FortranState σ} {r : FortranRet V} (R : FRel gs s)
    {g : Int} (hg : count g) {c : GridCall P} (h : cxxStep L gs (.call g.toNat c) = some (gs', r)) :
    ∃ s' v, s.member L g c = some (s', v) ∧ r = .value v ∧ FRel gs' s' := by
  simp only [cxxStep, Option.bind_eq_bind, Option.bind_eq_some_iff, Option.pure_def] at h
  obtain ⟨o, ho, x, rfl, ⟨x', v⟩, hc, h⟩ := h
  cases h
  obtain ⟨a, h1, h2⟩ := R.pres _ _ ho
  refine ⟨{ s with heap := upd s.heap a (some x') }, v, ?_, rfl, ?_⟩
  · unfold FortranState.member
    rw [f2c_nat hg.1, h1]; dsimp only; rw [h2]; dsimp only; rw [hc]
  · have hlt : g.toNat < gs.length := (List.getElem?_eq_some_iff.1 ho).1
    refine ⟨by simp [R.len], ?_, ?_, R.inj, R.live⟩
    · intro k y hk
      by_cases h : k = g.toNat
      · subst h
        rw [List.getElem?_set_self hlt] at hk
        cases hk
        exact ⟨a, h1, upd_self ..⟩
      · rw [List.getElem?_set_ne (Ne.symm h)] at hk
        obtain ⟨b, h3, h4⟩ := R.pres k y hk
        refine ⟨b, h3, ?_⟩
        dsimp only
        rw [upd_ne _ _ (by rintro rfl; exact h (R.inj _ _ _ h3 h1))]
        exact h4
    · intro k hk
      by_cases h : k = g.toNat
      · subst h; rw [List.getElem?_set_self hlt] at hk; cases hk
      · rw [List.getElem?_set_ne (Ne.symm h)] at hk; exact R.gone k hk

theorem frel_close {gs gs' : List (Option σ)} {s : FortranState σ} {r : FortranRet V} (R : FRel gs s)
    {g : Int} (hg : count g) (h : cxxStep (P := P) L gs (.close g.toNat) = some (gs', r)) :
    ∃ s', s.delete g = some s' ∧ r = .unit ∧ FRel gs' s' := by
  simp only [cxxStep, Option.bind_eq_bind, Option.bind_eq_some_iff, Option.pure_def] at h
  obtain ⟨o, ho, x, rfl, h⟩ := h
  cases h
  obtain ⟨a, h1, h2⟩ := R.pres _ _ ho
  have hlt : g.toNat < gs.length := (List.getElem?_eq_some_iff.1 ho).1
  have hlt' : g.toNat < s.table.length := by rw [R.len]; exact hlt
  refine ⟨⟨upd s.heap a none, s.live.filter (· ≠ a), s.table.set g.toNat none⟩, ?_, rfl, ?_⟩
  · unfold FortranState.delete
    rw [f2c_nat hg.1, h1]; dsimp only; rw [h2]; dsimp only
    rw [PointerArray.remove, if_pos hlt']
  · have hset : ∀ (k : Nat) b, (s.table.set g.toNat none)[k]? = some (some b) →
        k ≠ g.toNat ∧ s.table[k]? = some (some b) := by
      intro k b hk
      have hkg : k ≠ g.toNat := by
        rintro rfl; rw [List.getElem?_set_self hlt'] at hk; cases hk
      exact ⟨hkg, by rwa [List.getElem?_set_ne (Ne.symm hkg)] at hk⟩
    refine ⟨by simp [R.len], ?_, ?_, ?_, ?_⟩
    · intro k y hk
      have hkg : k ≠ g.toNat := by
        rintro rfl; rw [List.getElem?_set_self hlt] at hk; cases hk
      rw [List.getElem?_set_ne (Ne.symm hkg)] at hk
      obtain ⟨b, h3, h4⟩ := R.pres k y hk
      refine ⟨b, ?_, ?_⟩
      · dsimp only; rw [List.getElem?_set_ne (Ne.symm hkg)]; exact h3
      · dsimp only; rw [upd_ne _ _ (by rintro rfl; exact hkg (R.inj _ _ _ h3 h1))]; exact h4
    · intro k hk
      by_cases h : k = g.toNat
      · subst h; exact List.getElem?_set_self hlt'
      · rw [List.getElem?_set_ne (Ne.symm h)] at hk
        dsimp only; rw [List.getElem?_set_ne (Ne.symm h)]; exact R.gone k hk
    · intro k l b hk hl
      exact R.inj k l b (hset k b hk).2 (hset l b hl).2
    · intro k b hk
      obtain ⟨h3, h4⟩ := hset k b hk
      refine List.mem_filter.2 ⟨R.live k b h4, ?_⟩
      simp only [ne_eq, decide_not, Bool.not_eq_eq_eq_not, Bool.not_true, decide_eq_false_iff_not]
      rintro rfl; exact h3 (R.inj _ _ _ h4 h1)

theorem frel_step (ha : ∀ l, alloc l ∉ l) {gs gs' : List (Option σ)} {s : FortranState σ}
    {r : FortranRet V} (R : FRel gs s) {c : FortranCall P} (hok : ok c) (hu : unpadded c)
    (h : cxxStep L gs (cxx c) = some (gs', r)) :
    ∃ s', s.step L alloc c = some (s', r) ∧ FRel gs' s' := by
  have mem : ∀ {g : Int} (_ : count g) {d : GridCall P},
      cxxStep L gs (.call g.toNat d) = some (gs', r) →
      ∃ s', FortranState.step.ret (s.member L g d) = some (s', r) ∧ FRel gs' s' := by
    intro g hg d h
    obtain ⟨s', v, h1, rfl, h3⟩ := frel_member R hg h
    exact ⟨s', by rw [h1]; rfl, h3⟩
  have new : ∀ {k : GridKind}, cxxStep (P := P) L gs (.create k) = some (gs', r) →
      some ((s.new L alloc k).1, FortranRet.handle (s.new L alloc k).2) =
        some ((s.new L alloc k).1, r) ∧ FRel gs' (s.new L alloc k).1 := by
    intro k h
    obtain ⟨h1, h2⟩ := frel_new (L := L) ha R k
    cases h
    exact ⟨by rw [h2], h1⟩
  cases c <;> simp only [ok] at hok <;> simp only [unpadded] at hu <;> simp only [cxx] at h <;>
    simp only [FortranState.step]
  case create t => rw [optType_eq]; exact ⟨_, new h⟩
  case createArray t => rw [optType_eq]; exact ⟨_, new h⟩
  case createStruct n b d t =>
    obtain ⟨h1, h2, h3⟩ := hok
    rw [intToUnsigned_count h1, List.map_congr_left (fun i hi => intToUnsigned_count (h2 i hi)),
      List.map_congr_left (fun i hi => longToUnsigned_offset (h3 i hi))]
    exact ⟨_, new h⟩
  case setComm g c => exact mem hok h
  case setThreads g n => rw [intToUnsigned_count hok.2]; exact mem hok.1 h
  case setParam g n v l =>
    obtain ⟨h1, h2, h3, h4⟩ := hok
    rw [cString_eq h2, cString_eq h3, optLevel_eq h4]
    rw [hu.1, hu.2] at h
    exact mem h1 h
  case «open» g f l =>
    obtain ⟨h1, h2, h3⟩ := hok
    rw [cString_eq h2, optLevel_eq h3]
    rw [hu] at h
    exact mem h1 h
  case dimensions g => exact mem hok h
  case min g n => rw [intToUnsigned_count hok.2]; exact mem hok.1 h
  case max g n => rw [intToUnsigned_count hok.2]; exact mem hok.1 h
  case delta g n l => rw [intToUnsigned_count hok.2.1, optLevel_eq hok.2.2]; exact mem hok.1 h
  case varSize g => exact mem hok h
  case getByte g p l => rw [optLevel_eq hok.2]; exact mem hok.1 h
  case getInt g p l => rw [optLevel_eq hok.2]; exact mem hok.1 h
  case getLong g p l => rw [optLevel_eq hok.2]; exact mem hok.1 h
  case getFloat g p l => rw [optLevel_eq hok.2]; exact mem hok.1 h
  case getDouble g p l => rw [optLevel_eq hok.2]; exact mem hok.1 h
  case getBuf g p l => rw [optLevel_eq hok.2]; exact mem hok.1 h
  case close g =>
    obtain ⟨s', h1, rfl, h3⟩ := frel_close R hok h
    exact ⟨s', by rw [h1]; rfl, h3⟩

theorem frel_run (ha : ∀ l, alloc l ∉ l) (prog : List (FortranCall P)) :
    ∀ {gs : List (Option σ)} {s : FortranState σ} {rs : List (FortranRet V)}, FRel gs s →
      (∀ c ∈ prog, ok c ∧ unpadded c) → cxxRun L gs (prog.map cxx) = some rs →
      s.run L alloc prog = some rs := by
  induction prog with
  | nil => intro gs s rs _ _ h; exact h
  | cons c cs ih =>
    intro gs s rs R hp h
    simp only [List.map_cons, cxxRun, Option.bind_eq_bind, Option.bind_eq_some_iff, Option.pure_def] at h
    obtain ⟨⟨gs', r⟩, h1, rs', h2, h3⟩ := h
    obtain ⟨s', h4, R'⟩ := frel_step ha R (hp c (by simp)).1 (hp c (by simp)).2 h1
    simp only [FortranState.run, Option.bind_eq_bind, h4, Option.bind_some, Option.pure_def,
      ih R' (fun c hc => hp c (by simp [hc])) h2]
    exact h3

/-- **C72 (strings without trailing blanks).** For every implementation of the grids, every memory
allocator (which may give the memory of a closed grid to a new one) and every program that uses the
Fortran interface: if the same C++ program has a defined result, the Fortran program returns the same
handles and the same values.
Missing: strings that end with blanks, see `C72_padding_violated`. -/
theorem C72_same_partial {σ P V : Type} (L : GridClass σ P V) (alloc : List Nat → Nat)
    (ha : ∀ used, alloc used ∉ used) (prog : List (FortranCall P)) (rs : List (FortranRet V))
    (hok : ∀ c ∈ prog, ok c) (hu : ∀ c ∈ prog, unpadded c)
    (h : cxxRun L [] (prog.map cxx) = some rs) :
    FortranState.empty.run L alloc prog = some rs := by
  refine frel_run ha prog (gs := []) ⟨rfl, ?_, ?_, ?_, ?_⟩ (fun c hc => ⟨hok c hc, hu c hc⟩) h
  · intro k x h; simp at h
  · intro k h; simp at h
  · intro k l a h; simp [FortranState.empty] at h
  · intro k a h; simp [FortranState.empty] at h

/-- **C72 (closing twice).** Closing a grid again through its handle, which is undefined with a pointer in
C++, does nothing. -/
theorem C72_close_twice {σ : Type} (s s' : FortranState σ) (g : Int) (h : s.delete g = some s') :
    s'.delete g = some s' := by
  unfold FortranState.delete at h
  by_cases hg : g < 0
  · simp [FortranState.f2c, hg] at h
  · rw [f2c_nat (by omega)] at h
    cases ht : s.table[g.toNat]? with
    | none => rw [ht] at h; cases h
    | some o =>
      rw [ht] at h
      cases o with
      | none =>
        cases h
        unfold FortranState.delete; rw [f2c_nat (by omega), ht]
      | some a =>
        have hlt : g.toNat < s.table.length := (List.getElem?_eq_some_iff.1 ht).1
        dsimp only at h
        cases hh : s.heap a with
        | none => rw [hh] at h; cases h
        | some x =>
          rw [hh] at h
          simp only [PointerArray.remove, if_pos hlt] at h
          cases h
          unfold FortranState.delete
          rw [f2c_nat (by omega)]
          dsimp only
          rw [List.getElem?_set_self hlt]

/-- The parameters of a grid, as a `GridClass`; `getDimensions` stands for the kind of grid that `open`
would select. -/
def paramGrid : GridClass Params Unit (Option Selection) where
  create _ := []
  call ps
    | .setParam n v l => some (setParam ps n v l, none)
    | .getDimensions => some (ps, initContainers ⟨true, true, false, false⟩ ps 1 1)
    | _ => none

/-- **C72, violated for padded strings**: a parameter whose name or value comes from a Fortran variable that
is longer than the text is not understood. Here the grid type PASS_THROUGH is set and a FULL grid results. -/
theorem C72_padding_violated :
    let prog : List (FortranCall Unit) :=
      [.create none, .setParam 0 "GRID  ".toList "PASS_THROUGH  ".toList none, .dimensions 0]
    (∀ c ∈ prog, ok c) ∧
    cxxRun paramGrid [] (prog.map cxx) = some [.handle 0, .value none, .value (some ⟨.PASS_THROUGH, 1⟩)] ∧
    FortranState.empty.run paramGrid (fun l => l.foldr max 0 + 1) prog =
      some [.handle 0, .value none, .value (some ⟨.FULL, 1⟩)] := by
  refine ⟨?_, by decide +kernel, by decide +kernel⟩
  intro c hc
  simp only [List.mem_cons, List.not_mem_nil, or_false] at hc
  rcases hc with rfl | rfl | rfl
  · trivial
  · exact ⟨⟨by decide, by decide⟩, by unfold noNull; decide, by unfold noNull; decide, by intro i h; cases h⟩
  · exact ⟨by decide, by decide⟩

/-- The hypotheses of `C72_same_partial`: a program with three grids, a closed grid and default arguments;
the third grid gets the memory of the first. -/
example :
    let prog : List (FortranCall Unit) :=
      [.create none, .createArray (some 4), .setParam 1 "grid".toList "pass-through".toList (some 0), .close 0,
       .create (some 1), .dimensions 1, .dimensions 2]
    let alloc : List Nat → Nat := fun l => (List.range (l.length + 1)).find? (· ∉ l) |>.getD 0
    (∀ c ∈ prog, unpadded c) ∧
    FortranState.empty.run paramGrid alloc prog =
      some [.handle 0, .handle 1, .value none, .unit, .handle 2, .value (some ⟨.PASS_THROUGH, 1⟩),
        .value (some ⟨.FULL, 1⟩)] ∧
    cxxRun paramGrid [] (prog.map cxx) = FortranState.empty.run paramGrid alloc prog := by
  refine ⟨?_, by decide +kernel, by decide +kernel⟩
  intro c hc
  simp only [List.mem_cons, List.not_mem_nil, or_false] at hc
  rcases hc with rfl | rfl | rfl | rfl | rfl | rfl | rfl <;> first | trivial | exact ⟨by decide, by decide⟩

end Asagi.Props
