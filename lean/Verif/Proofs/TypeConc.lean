import Verif.Model.TypeConc
import Mathlib.Tactic.Ring
import Mathlib.Algebra.BigOperators.Group.Finset.Basic
import Mathlib.Algebra.Order.BigOperators.Group.Finset
/-
Invariant of the concurrent `check` of element types, and `checkAll` in closed form (used for C80).
-/
namespace Asagi

/-- Call `k0` is the first one whose variable has an acceptable size. -/
def FirstValid (P : ElemParams) (k0 : Nat) : Prop :=
  P.cls.accepts (P.varSize k0) = true ∧ ∀ k < k0, P.cls.accepts (P.varSize k) = false

/-- A domain that is creating the data type, or has created it. -/
structure ElemInv (P : ElemParams) (s : ElemState) (creator : Option Nat) : Prop where
  none_iff : creator = none ↔ s.fixed = 0
  fix : s.fixed ≠ 0 → ∃ k0, FirstValid P k0 ∧ s.fixed = P.cls.count (P.varSize k0)
  unfixed : s.fixed = 0 → ∀ d k, P.cls.accepts (P.varSize k) = true → ¬ k < s.call d ∧
    (k = s.call d → s.pc d = .idle ∨ s.pc d = .want)
  valid : ∀ d, s.pc d ≠ .idle → s.pc d ≠ .waitEnd → P.cls.accepts (P.varSize (s.call d)) = true
  making : ∀ d, s.pc d = .create ∨ s.pc d = .commit → creator = some d ∧ FirstValid P (s.call d)
  lt : ∀ d, creator = some d → d < P.doms
  before : creator = none → s.mpi = .null ∧ s.created = 0
  atCreate : ∀ d, creator = some d → s.pc d = .create → s.mpi = .null ∧ s.created = 0
  atCommit : ∀ d, creator = some d → s.pc d = .commit → s.created = 1 ∧
    s.mpi = .made (P.cls.mpiBytes s.fixed (P.varSize (s.call d)))
  after : ∀ d, creator = some d → s.pc d ≠ .create → s.pc d ≠ .commit → s.created = 1 ∧
    ∃ k0, FirstValid P k0 ∧ s.mpi = .committed (P.cls.mpiBytes s.fixed (P.varSize k0))
  synced : ∀ d k, s.synced d k = true → k < s.call d ∨ k = s.call d ∧
    (s.pc d = .waitSync ∨ s.pc d = .use ∨ s.pc d = .waitEnd)
  ended : ∀ d k, s.ended d k = true → k < s.call d ∨ k = s.call d ∧ s.pc d = .waitEnd
  atUse : ∀ d, s.pc d = .use → ∀ d' < P.doms, s.synced d' (s.call d) = true
  returned : ∀ d k, k < s.call d → ∀ d' < P.doms, s.ended d' k = true
  used : ∀ d k m, s.used d k = some m → P.cls.accepts (P.varSize k) = true ∧
    P.cls.count (P.varSize k) = s.fixed ∧ s.fixed ≠ 0 ∧
    ∃ k0, FirstValid P k0 ∧ m = .committed (P.cls.mpiBytes s.fixed (P.varSize k0))
  good : ∀ d, s.pc d = .checked ∨ s.pc d = .waitSync ∨ s.pc d = .use → P.cls.count (P.varSize (s.call d)) = s.fixed ∧ s.fixed ≠ 0
  verdict : ∀ d k e, s.verdict d k = some e →
    e = if P.cls.accepts (P.varSize k) = false then .INVALID_VAR_SIZE
      else if P.cls.count (P.varSize k) = s.fixed then .SUCCESS else .WRONG_SIZE
  verdictFixed : ∀ d k e, s.verdict d k = some e → P.cls.accepts (P.varSize k) = true → s.fixed ≠ 0
  running : ∀ d, s.pc d ≠ .idle → s.call d < P.calls
  verdictLt : ∀ d k e, s.verdict d k = some e → k < P.calls

theorem FirstValid.unique {P : ElemParams} {a b : Nat} (ha : FirstValid P a) (hb : FirstValid P b) : a = b := by
  rcases Nat.lt_trichotomy a b with h | h | h
  · have := hb.2 a h; rw [ha.1] at this; cases this
  · exact h
  · have := ha.2 b h; rw [hb.1] at this; cases this

theorem ElemInv.fresh (P : ElemParams) : ElemInv P ElemState.fresh none := by
  constructor <;> simp [ElemState.fresh]

set_option maxHeartbeats 4000000 in
theorem ElemInv.step {P : ElemParams} (hpos : ∀ k, 0 < P.cls.count (P.varSize k) ∨ P.cls.accepts (P.varSize k) = false)
    {s s' : ElemState} {c : Option Nat} (h : ElemInv P s c) (hs : ElemStep P s s') : ∃ c', ElemInv P s' c' := by
  obtain ⟨i1, i2, i3, i4, i5, i6, i7, i8, i9, i10, i11, i12, i13, i14, i15, i16, i17, i18, i19, i20⟩ := h
  cases hs with
  | invalid d hd hp hc ha =>
    refine ⟨c, ?_⟩
    constructor <;> grind [upd, updAt]
  | start d hd hp hc ha =>
    refine ⟨c, ?_⟩
    constructor <;> grind [upd, updAt]
  | lockFirst d hd hp hf =>
    have hv := i4 d (by rw [hp]; simp) (by rw [hp]; simp)
    have hfirst : FirstValid P (s.call d) := by
      refine ⟨hv, fun k hk => ?_⟩
      by_contra hc
      exact ((i3 hf d k (by simpa using hc)).1 hk)
    refine ⟨some d, ?_⟩
    constructor <;> grind [upd, updAt]
  | lockOther d hd hp hf he =>
    refine ⟨c, ?_⟩
    constructor <;> grind [upd, updAt]
  | lockWrong d hd hp hf he =>
    refine ⟨c, ?_⟩
    constructor <;> grind [upd, updAt]
  | create d hd hp =>
    refine ⟨c, ?_⟩
    constructor <;> grind [upd, updAt]
  | commit d b hd hp hm =>
    obtain ⟨hcd, hfv⟩ := i5 d (Or.inr hp)
    have hf : s.fixed ≠ 0 := fun h0 => by rw [i1.2 h0] at hcd; cases hcd
    have hval : P.cls.count (P.varSize (s.call d)) = s.fixed := by
      obtain ⟨k0, h1, h2⟩ := i2 hf
      rw [h2, hfv.unique h1]
    refine ⟨c, ?_⟩
    constructor <;> grind [upd, updAt]
  | arrive d hd hp =>
    refine ⟨c, ?_⟩
    constructor <;> grind [upd, updAt]
  | leave d hd hp hall =>
    refine ⟨c, ?_⟩
    constructor <;> grind [upd, updAt]
  | use d hd hp =>
    have hg := i16 d (Or.inr (Or.inr hp))
    have hv := i4 d (by rw [hp]; simp) (by rw [hp]; simp)
    obtain ⟨k0, hk0, hfix⟩ := i2 hg.2
    obtain ⟨x, hx⟩ : ∃ x, c = some x := by
      cases hc : c with
      | none => exact absurd (i1.1 hc) hg.2
      | some x => exact ⟨x, rfl⟩
    have hlt := i6 x hx
    have hle : k0 ≤ s.call d := by
      by_contra hn
      have := hk0.2 (s.call d) (by omega)
      rw [hv] at this; cases this
    -- the creator has left `check`: it has passed a barrier after call `k0`
    have hpast : k0 < s.call x ∨ k0 = s.call x ∧ (s.pc x = .waitSync ∨ s.pc x = .use ∨ s.pc x = .waitEnd) := by
      rcases Nat.lt_or_ge k0 (s.call d) with h | h
      · rcases i12 x k0 (i14 d k0 h x hlt) with h' | ⟨h', h''⟩
        · exact Or.inl h'
        · exact Or.inr ⟨h', Or.inr (Or.inr h'')⟩
      · have : k0 = s.call d := by omega
        rw [this]
        exact i11 x _ (i13 d hp x hlt)
    have hnot : s.pc x ≠ .create ∧ s.pc x ≠ .commit := by
      constructor <;> intro hpx
      · have := (i5 x (Or.inl hpx)).2.unique hk0
        rcases hpast with h | ⟨_, h | h | h⟩
        · omega
        all_goals rw [hpx] at h; cases h
      · have := (i5 x (Or.inr hpx)).2.unique hk0
        rcases hpast with h | ⟨_, h | h | h⟩
        · omega
        all_goals rw [hpx] at h; cases h
    have hcom := (i10 x hx hnot.1 hnot.2).2
    refine ⟨c, ?_⟩
    constructor <;> grind [upd, updAt]
  | «return» d hd hp hall =>
    refine ⟨c, ?_⟩
    constructor <;> grind [upd, updAt]

theorem ElemReach.inv {P : ElemParams}
    (hpos : ∀ k, 0 < P.cls.count (P.varSize k) ∨ P.cls.accepts (P.varSize k) = false)
    {s : ElemState} (h : ElemReach P s) : ∃ c, ElemInv P s c :=
  Reachable.invariant (I := fun s => ∃ c, ElemInv P s c) (fun s hs => by subst hs; exact ⟨none, ElemInv.fresh P⟩) (fun _ _ ⟨_, hi⟩ hs => hi.step hpos hs) h

/-- `check` in terms of `accepts` and `count`. -/
theorem check_eq (t : TypeObj) (hb : ∀ b, t.cls ≠ .basic b) (v : Nat) :
    t.check v = if t.cls.accepts v = false then (t, .INVALID_VAR_SIZE)
      else if t.fixed = 0 then ({ t with fixed := t.cls.count v }, .SUCCESS)
      else if t.cls.count v = t.fixed then (t, .SUCCESS) else (t, .WRONG_SIZE) := by
  obtain ⟨cls, fixed⟩ := t
  cases cls with
  | basic b => exact absurd rfl (hb b)
  | array s => simp [TypeObj.check, TypeClass.accepts, TypeClass.count]; grind
  | struct s => simp [TypeObj.check, TypeClass.accepts, TypeClass.count]; grind

/-- The results of the checks one after the other: the first accepted size decides. -/
theorem checkAll_result (vs : List Nat) (t : TypeObj) (hb : ∀ b, t.cls ≠ .basic b) (F : Nat) (hF : F ≠ 0)
    (hf : t.fixed = F ∨ t.fixed = 0 ∧ ∀ (i : Nat) v, vs[i]? = some v → t.cls.accepts v = true →
      (∀ (j : Nat) w, j < i → vs[j]? = some w → t.cls.accepts w = false) → t.cls.count v = F)
    (k v : Nat) (hk : vs[k]? = some v) :
    (t.checkAll vs).2[k]? = some (if t.cls.accepts v = false then .INVALID_VAR_SIZE
      else if t.cls.count v = F then .SUCCESS else .WRONG_SIZE) := by
  induction vs generalizing t k with
  | nil => simp at hk
  | cons w ws ih =>
    have hc := check_eq t hb w
    rcases ha : t.cls.accepts w with _ | _
    · rw [ha, if_pos rfl] at hc
      cases k with
      | zero =>
        simp only [List.getElem?_cons_zero, Option.some.injEq] at hk
        subst hk
        simp [TypeObj.checkAll, hc, ha]
      | succ k =>
        simp only [TypeObj.checkAll, hc, List.getElem?_cons_succ] at hk ⊢
        refine ih t hb ?_ k hk
        rcases hf with hf | ⟨h0, hf⟩
        · exact Or.inl hf
        · refine Or.inr ⟨h0, fun i v hi hv hj => hf (i + 1) v (by simpa using hi) hv ?_⟩
          intro j x hjx hx
          cases j with
          | zero =>
            simp only [List.getElem?_cons_zero, Option.some.injEq] at hx
            rw [← hx]; exact ha
          | succ j => exact hj j x (by omega) (by simpa using hx)
    · rw [ha, if_neg (by simp)] at hc
      rcases hf with hf | ⟨h0, hf⟩
      · rw [if_neg (by omega)] at hc
        cases k with
        | zero =>
          simp only [List.getElem?_cons_zero, Option.some.injEq] at hk
          subst hk
          simp only [TypeObj.checkAll, hc, ha, List.getElem?_cons_zero]
          rw [hf]; split <;> simp
        | succ k =>
          have h1 : (t.check w).1 = t := by rw [hc]; split <;> rfl
          simp only [TypeObj.checkAll, List.getElem?_cons_succ] at hk ⊢
          rw [h1]
          exact ih t hb (Or.inl hf) k hk
      · have hw : t.cls.count w = F := hf 0 w (by simp) ha (by intro j x hj; omega)
        rw [if_pos h0] at hc
        cases k with
        | zero =>
          simp only [List.getElem?_cons_zero, Option.some.injEq] at hk
          subst hk
          simp [TypeObj.checkAll, hc, ha, hw]
        | succ k =>
          simp only [TypeObj.checkAll, hc, List.getElem?_cons_succ] at hk ⊢
          exact ih { t with fixed := t.cls.count w } hb (Or.inl hw) k hk

/-- A size that is not accepted is always rejected. -/
theorem checkAll_invalid (vs : List Nat) (t : TypeObj) (hb : ∀ b, t.cls ≠ .basic b) (k v : Nat)
    (hk : vs[k]? = some v) (ha : t.cls.accepts v = false) :
    (t.checkAll vs).2[k]? = some .INVALID_VAR_SIZE := by
  induction vs generalizing t k with
  | nil => simp at hk
  | cons w ws ih =>
    have hc := check_eq t hb w
    cases k with
    | zero =>
      simp only [List.getElem?_cons_zero, Option.some.injEq] at hk
      subst hk
      simp [TypeObj.checkAll, hc, ha]
    | succ k =>
      simp only [TypeObj.checkAll, List.getElem?_cons_succ] at hk ⊢
      have h1 : (t.check w).1.cls = t.cls := by rw [hc]; split <;> (try split) <;> (try split) <;> rfl
      exact ih _ (by rw [h1]; exact hb) k hk (by rw [h1]; exact ha)

theorem count_pos {P : ElemParams} (hpos : ∀ k, 0 < P.varSize k) (k : Nat) :
    0 < P.cls.count (P.varSize k) ∨ P.cls.accepts (P.varSize k) = false := by
  rcases ha : P.cls.accepts (P.varSize k) with _ | _
  · exact Or.inr rfl
  · refine Or.inl ?_
    have := hpos k
    cases hc : P.cls with
    | basic b => simpa [TypeClass.count] using this
    | struct b => simpa [TypeClass.count] using this
    | array b =>
      simp only [TypeClass.count]
      rw [hc] at ha
      have hd : P.varSize k % b.size = 0 := by simpa [TypeClass.accepts] using ha
      exact Nat.div_pos (Nat.le_of_dvd this (Nat.dvd_of_mod_eq_zero hd)) (by cases b <;> decide)

/-- The barriers: who waits has arrived. -/
structure BarrierInv (P : ElemParams) (s : ElemState) : Prop where
  atEnd : ∀ d, s.pc d = .waitEnd → s.ended d (s.call d) = true
  atSync : ∀ d, s.pc d = .waitSync → s.synced d (s.call d) = true
  atUse : ∀ d, s.pc d = .use → s.synced d (s.call d) = true
  skipped : ∀ d, s.pc d = .waitEnd → s.synced d (s.call d) = true ∨
    P.cls.accepts (P.varSize (s.call d)) = false ∨ (s.fixed ≠ 0 ∧ P.cls.count (P.varSize (s.call d)) ≠ s.fixed)
  bound : ∀ d, s.call d ≤ P.calls
  result : ∀ d k, k < s.call d ∨ (k = s.call d ∧ (s.pc d = .checked ∨ s.pc d = .waitSync ∨ s.pc d = .use ∨
    s.pc d = .waitEnd)) → s.verdict d k ≠ none

theorem BarrierInv.reach {P : ElemParams} (hpos : ∀ k, 0 < P.cls.count (P.varSize k) ∨ P.cls.accepts (P.varSize k) = false)
    {s : ElemState} (h : ElemReach P s) : BarrierInv P s := by
  induction h with
  | init h => subst h; constructor <;> simp [ElemState.fresh]
  | @step s s' h hs ih =>
    obtain ⟨c, hi⟩ := ElemReach.inv hpos h
    have hrun := hi.running
    clear hi
    obtain ⟨i1, i2, i3, i4, i5, i6⟩ := ih
    cases hs <;> constructor <;> grind [upd, updAt]

/-- While a domain has calls left, some domain can go on. -/
theorem elem_progress {P : ElemParams} (hpos : ∀ k, 0 < P.cls.count (P.varSize k) ∨ P.cls.accepts (P.varSize k) = false)
    {s : ElemState} (h : ElemReach P s) {d : Nat} (hd : d < P.doms) (hc : s.call d < P.calls) :
    ∃ s', ElemStep P s s' := by
  obtain ⟨c, hi⟩ := ElemReach.inv hpos h
  have hb := BarrierInv.reach hpos h
  by_contra hn
  have stuck : ∀ s', ¬ ElemStep P s s' := fun s' hs => hn ⟨s', hs⟩
  -- everybody with a call to do waits at a barrier
  have waits : ∀ x < P.doms, s.call x < P.calls → s.pc x = .waitSync ∨ s.pc x = .waitEnd := by
    intro x hx hcx
    cases hp : s.pc x with
    | idle =>
      cases ha : P.cls.accepts (P.varSize (s.call x)) with
      | false => exact absurd (.invalid s x hx hp hcx ha) (stuck _)
      | true => exact absurd (.start s x hx hp hcx ha) (stuck _)
    | want =>
      by_cases h0 : s.fixed = 0
      · exact absurd (.lockFirst s x hx hp h0) (stuck _)
      · by_cases h1 : P.cls.count (P.varSize (s.call x)) = s.fixed
        · exact absurd (.lockOther s x hx hp h0 h1) (stuck _)
        · exact absurd (.lockWrong s x hx hp h0 h1) (stuck _)
    | create => exact absurd (.create s x hx hp) (stuck _)
    | commit =>
      have := (hi.atCommit x (hi.making x (.inr hp)).1 hp).2
      exact absurd (.commit s x _ hx hp this) (stuck _)
    | checked => exact absurd (.arrive s x hx hp) (stuck _)
    | waitSync => exact .inl rfl
    | use => exact absurd (.use s x hx hp) (stuck _)
    | waitEnd => exact .inr rfl
  -- nobody is ahead
  have ahead : ∀ x < P.doms, ∀ y < P.doms, s.call x < s.call y → False := by
    intro x hx y hy hlt
    have hall := hi.returned y (s.call x) hlt
    rcases hi.ended x _ (hall x hx) with h' | ⟨-, hp⟩
    · omega
    · exact stuck _ (.return s x hx hp hall)
  have same : ∀ x < P.doms, s.call x = s.call d := by
    intro x hx
    rcases Nat.lt_trichotomy (s.call x) (s.call d) with h' | h' | h'
    · exact (ahead x hx d hd h').elim
    · exact h'
    · exact (ahead d hd x hx h').elim
  by_cases hs : ∃ x < P.doms, s.pc x = .waitSync
  · obtain ⟨x, hx, hp⟩ := hs
    refine stuck _ (.leave s x hx hp fun y hy => ?_)
    have e : s.call y = s.call x := (same y hy).trans (same x hx).symm
    rcases waits y hy (by rw [same y hy]; exact hc) with hy' | hy'
    · rw [← e]; exact hb.atSync y hy'
    · have hg := hi.good x (.inr (.inl hp))
      have hv := hi.valid x (by rw [hp]; nofun) (by rw [hp]; nofun)
      rcases hb.skipped y hy' with h' | h' | ⟨-, h'⟩
      · rw [← e]; exact h'
      · rw [e, hv] at h'; cases h'
      · rw [e] at h'; exact absurd hg.1 h'
  · have hend : ∀ y < P.doms, s.pc y = .waitEnd := by
      intro y hy
      rcases waits y hy (by rw [same y hy]; exact hc) with h' | h'
      · exact absurd ⟨y, hy, h'⟩ hs
      · exact h'
    refine stuck _ (.return s d hd (hend d hd) fun y hy => ?_)
    rw [← same y hy]; exact hb.atEnd y (hend y hy)

/-- How far a domain is. -/
def ElemPc.rank : ElemPc → Nat
  | .idle => 0 | .want => 1 | .create => 2 | .commit => 3 | .checked => 4 | .waitSync => 5 | .use => 6
  | .waitEnd => 7

def elemDone (s : ElemState) (d : Nat) : Nat := 8 * s.call d + (s.pc d).rank

theorem elem_forward {P : ElemParams} {s s' : ElemState} (hs : ElemStep P s s') :
    ∃ d < P.doms, elemDone s d < elemDone s' d ∧ ∀ x ≠ d, elemDone s' x = elemDone s x := by
  cases hs <;> refine ⟨_, by assumption, ?_, ?_⟩ <;> (simp_all [elemDone, upd, ElemPc.rank]; try omega)


theorem elemDone_le {P : ElemParams} (hpos : ∀ k, 0 < P.cls.count (P.varSize k) ∨ P.cls.accepts (P.varSize k) = false)
    {s : ElemState} (h : ElemReach P s) (d : Nat) : elemDone s d ≤ 8 * P.calls := by
  obtain ⟨c, hi⟩ := ElemReach.inv hpos h
  have hb := (BarrierInv.reach hpos h).bound d
  have hr := hi.running d
  unfold elemDone
  cases hp : s.pc d <;> simp_all [ElemPc.rank] <;> omega

theorem elem_finite {P : ElemParams} (hpos : ∀ k, 0 < P.cls.count (P.varSize k) ∨ P.cls.accepts (P.varSize k) = false)
    {run : Nat → ElemState} (h : ElemReach P (run 0)) (hs : ∀ n, ElemStep P (run n) (run (n + 1))) : False := by
  have hr : ∀ n, ElemReach P (run n) := by
    intro n
    induction n with
    | zero => exact h
    | succ n ih => exact .step ih (hs n)
  let f := fun n => ∑ d ∈ Finset.range P.doms, elemDone (run n) d
  have hup : ∀ n, f n < f (n + 1) := by
    intro n
    obtain ⟨d, hd, hlt, ho⟩ := elem_forward (hs n)
    refine Finset.sum_lt_sum (fun x _ => ?_) ⟨d, Finset.mem_range.2 hd, hlt⟩
    by_cases hx : x = d
    · subst hx; exact Nat.le_of_lt hlt
    · exact Nat.le_of_eq (ho x hx).symm
  have hge : ∀ n, n ≤ f n := by
    intro n
    induction n with
    | zero => exact Nat.zero_le _
    | succ n ih => have := hup n; omega
  have hle : ∀ n, f n ≤ P.doms * (8 * P.calls) := by
    intro n
    have := Finset.sum_le_card_nsmul (Finset.range P.doms) (fun d => elemDone (run n) d) (8 * P.calls)
      (fun d _ => elemDone_le hpos (hr n) d)
    simpa [f] using this
  have := hge (P.doms * (8 * P.calls) + 1)
  have := hle (P.doms * (8 * P.calls) + 1)
  omega

end Asagi
