import Verif.Spec.OpenThreads
import Verif.Props.Api
import Mathlib.Data.Finset.Card
import Mathlib.Data.Fintype.Card
import Mathlib.Data.List.Nodup
import Mathlib.Data.Finset.Dedup
import Mathlib.Algebra.Order.BigOperators.Group.Finset
/-
Invariant of `Grid::open` with several threads.
-/
namespace Asagi
open Asagi.Spec Asagi.Props

/-! ### First failure -/

theorem opError_lt {P : OpenParams} {k d i : Nat} {e : Error} (h : P.opError k d i = some e) :
    i < (P.plan k).length ∧ (P.plan k)[i]? ≠ some .sync := by
  unfold OpenParams.opError at h
  cases hp : (P.plan k)[i]? with
  | none => rw [hp] at h; cases h
  | some o =>
    refine ⟨(List.getElem?_eq_some_iff.1 hp).1, ?_⟩
    rw [hp] at h
    intro hc
    cases hc
    cases h

theorem stopsAt_le (P : OpenParams) (k d : Nat) : stopsAt P k d ≤ (P.plan k).length := by
  unfold stopsAt
  cases h : (List.range (P.plan k).length).find? fun i => (P.opError k d i).isSome with
  | none => exact Nat.le_refl _
  | some i => exact Nat.le_of_lt (List.mem_range.1 (List.mem_of_find?_eq_some h))

theorem opError_of_lt_stops {P : OpenParams} {k d i : Nat} (h : i < stopsAt P k d) :
    P.opError k d i = none := by
  have hl := stopsAt_le P k d
  unfold stopsAt at h
  cases hf : (List.range (P.plan k).length).find? fun i => (P.opError k d i).isSome with
  | none =>
    have := List.find?_eq_none.1 hf i (List.mem_range.2 (lt_of_lt_of_le h hl))
    simpa using this
  | some j =>
    rw [hf] at h
    rw [List.find?_range_eq_some] at hf
    have := hf.2.2 i h
    simpa using this

theorem opError_at_stops {P : OpenParams} {k d : Nat} (h : stopsAt P k d < (P.plan k).length) :
    ∃ e, P.opError k d (stopsAt P k d) = some e := by
  unfold stopsAt at h ⊢
  cases hf : (List.range (P.plan k).length).find? fun i => (P.opError k d i).isSome with
  | none => rw [hf] at h; simp at h
  | some j =>
    have := List.find?_some hf
    exact Option.isSome_iff_exists.1 this

/-- An operation that does not fail is before the first failure. -/
theorem stops_gt {P : OpenParams} {k d i : Nat} (hi : i ≤ stopsAt P k d) (hl : i < (P.plan k).length)
    (h : P.opError k d i = none) : i < stopsAt P k d := by
  rcases Nat.lt_or_ge i (stopsAt P k d) with h' | h'
  · exact h'
  · have : i = stopsAt P k d := le_antisymm hi h'
    subst this
    obtain ⟨e, he⟩ := opError_at_stops hl
    rw [he] at h; cases h

theorem stops_eq {P : OpenParams} {k d i : Nat} {e : Error} (hi : i ≤ stopsAt P k d)
    (h : P.opError k d i = some e) : i = stopsAt P k d := by
  rcases Nat.lt_or_ge i (stopsAt P k d) with h' | h'
  · rw [opError_of_lt_stops h'] at h; cases h
  · exact le_antisymm hi h'

theorem outcome_done {P : OpenParams} {k d i : Nat} (hi : i ≤ stopsAt P k d) (hl : (P.plan k).length ≤ i) :
    outcome P k d = .SUCCESS := by
  have : stopsAt P k d = (P.plan k).length := le_antisymm (stopsAt_le P k d) (hl.trans hi)
  unfold outcome
  cases h : P.opError k d (stopsAt P k d) with
  | none => rfl
  | some e => have := (opError_lt h).1; omega

/-! ### Counting -/

theorem card_same {n : Nat} {p q : Nat → Prop} [DecidablePred p] [DecidablePred q]
    (h : ∀ x < n, (q x ↔ p x)) :
    ((Finset.range n).filter q).card = ((Finset.range n).filter p).card := by
  congr 1
  ext x
  simp only [Finset.mem_filter, Finset.mem_range]
  constructor
  · rintro ⟨h1, h2⟩; exact ⟨h1, (h x h1).1 h2⟩
  · rintro ⟨h1, h2⟩; exact ⟨h1, (h x h1).2 h2⟩

theorem card_one_more {n t : Nat} {p q : Nat → Prop} [DecidablePred p] [DecidablePred q] (ht : t < n)
    (hp : ¬ p t) (hq : q t) (h : ∀ x < n, x ≠ t → (q x ↔ p x)) :
    ((Finset.range n).filter q).card = ((Finset.range n).filter p).card + 1 := by
  have : (Finset.range n).filter q = insert t ((Finset.range n).filter p) := by
    ext x
    simp only [Finset.mem_filter, Finset.mem_range, Finset.mem_insert]
    by_cases hx : x = t
    · subst hx; simp [ht, hq]
    · constructor
      · rintro ⟨h1, h2⟩; exact Or.inr ⟨h1, (h x h1 hx).1 h2⟩
      · rintro (h1 | ⟨h1, h2⟩)
        · exact absurd h1 hx
        · exact ⟨h1, (h x h1 hx).2 h2⟩
  rw [this, Finset.card_insert_of_notMem (by simp [hp])]

/-! ### Registration -/

/-- `arrived`: the threads in the order in which they got the lock. -/
structure RegInv (P : OpenParams) (s : OpenState) (arrived : List Nat) : Prop where
  nodup : arrived.Nodup
  lt : ∀ t ∈ arrived, t < P.n
  wait : s.waiting = arrived.length
  numa : s.numa = (registerAll P.detect (arrived.map P.node)).1
  reg : ∀ t r, s.reg t = some r ↔
    ∃ i : Nat, arrived[i]? = some t ∧ (registerAll P.detect (arrived.map P.node)).2[i]? = some r

/-- Master flag of a thread. -/
def OpenState.master (s : OpenState) (t : Nat) : Bool := ((s.reg t).map Registration.master).getD false

theorem RegInv.fresh (P : OpenParams) : RegInv P OpenState.fresh [] :=
  ⟨List.nodup_nil, by simp, rfl, rfl, by simp [OpenState.fresh]⟩

theorem registerAll_snoc (detect : Bool) (ns : List Int) (n : Int) :
    registerAll detect (ns ++ [n]) =
      ((registerThread (registerAll detect ns).1 ns.length n detect).1,
        (registerAll detect ns).2 ++ [(registerThread (registerAll detect ns).1 ns.length n detect).2]) := by
  have hl : (registerAll detect ns).2.length = ns.length := by
    rw [(registerAll_ok detect ns).len, List.length_map]
  conv_rhs => rw [← hl]
  unfold registerAll
  rw [List.foldl_append]
  rfl

theorem RegInv.register {P : OpenParams} {s : OpenState} {arrived : List Nat} (h : RegInv P s arrived) {t : Nat}
    (ht : t < P.n) (hn : s.reg t = none) (s' : OpenState)
    (h1 : s'.numa = (registerThread s.numa s.waiting (P.node t) P.detect).1)
    (h2 : s'.waiting = s.waiting + 1)
    (h3 : s'.reg = upd s.reg t (some (registerThread s.numa s.waiting (P.node t) P.detect).2)) :
    RegInv P s' (arrived ++ [t]) := by
  have hl : (registerAll P.detect (arrived.map P.node)).2.length = arrived.length := by
    rw [(registerAll_ok _ _).len, List.length_map, List.length_map]
  have hnm : t ∉ arrived := by
    intro hm
    obtain ⟨i, hi, e⟩ := List.getElem_of_mem hm
    have := (h.reg t ((registerAll P.detect (arrived.map P.node)).2[i]'(by omega))).2
      ⟨i, by rw [List.getElem?_eq_getElem hi, e], List.getElem?_eq_getElem _⟩
    rw [hn] at this; cases this
  have hsn := registerAll_snoc P.detect (arrived.map P.node) (P.node t)
  rw [List.length_map, ← h.wait, ← h.numa, ← List.map_singleton, ← List.map_append] at hsn
  refine ⟨?_, ?_, ?_, ?_, ?_⟩
  · rw [List.nodup_append]
    exact ⟨h.nodup, by simp, by simp only [List.mem_singleton]; rintro a ha b rfl rfl; exact hnm ha⟩
  · intro x hx
    rcases List.mem_append.1 hx with hx | hx
    · exact h.lt x hx
    · rw [List.mem_singleton.1 hx]; exact ht
  · rw [h2, h.wait]; simp
  · rw [h1, hsn]
  · intro x r
    rw [h3, hsn, upd_apply]
    dsimp only
    by_cases hx : x = t
    · subst hx
      rw [if_pos rfl]
      constructor
      · intro e
        cases e
        refine ⟨arrived.length, by simp, ?_⟩
        rw [List.getElem?_append_right (by omega), hl, Nat.sub_self]
        rfl
      · rintro ⟨i, e1, e2⟩
        rcases Nat.lt_or_ge i arrived.length with hi | hi
        · rw [List.getElem?_append_left hi] at e1
          exact absurd (List.mem_of_getElem? e1) hnm
        · rw [List.getElem?_append_right (by omega), hl] at e2
          have : i - arrived.length = 0 := by
            rcases Nat.eq_zero_or_pos (i - arrived.length) with h | h
            · exact h
            · rw [List.getElem?_eq_none (by simp; omega)] at e2; cases e2
          rw [this] at e2
          simpa using e2
    · rw [if_neg hx, h.reg]
      constructor
      · rintro ⟨i, e1, e2⟩
        have hi := (List.getElem?_eq_some_iff.1 e1).1
        exact ⟨i, by rw [List.getElem?_append_left hi]; exact e1,
          by rw [List.getElem?_append_left (by omega)]; exact e2⟩
      · rintro ⟨i, e1, e2⟩
        rcases Nat.lt_or_ge i arrived.length with hi | hi
        · exact ⟨i, by rw [List.getElem?_append_left hi] at e1; exact e1,
            by rw [List.getElem?_append_left (by omega)] at e2; exact e2⟩
        · rw [List.getElem?_append_right hi] at e1
          have := List.mem_of_getElem? e1
          rw [List.mem_singleton] at this
          exact absurd this hx

/-- What the registration gives the threads. -/
structure RegFacts (s : OpenState) : Prop where
  masters : ∀ t r, s.reg t = some r → s.numa.masters[r.thread]? = some r.master
  inj : ∀ t t' r r', s.reg t = some r → s.reg t' = some r' → r.thread = r'.thread → t = t'
  dom : ∀ t r, s.reg t = some r → r.domain < s.numa.domains.length
  unique : ∀ t t' r r', s.reg t = some r → s.reg t' = some r' → r.master = true → r'.master = true →
    r.domain = r'.domain → t = t'
  exists_master : ∀ d < s.numa.domains.length, ∃ t r, s.reg t = some r ∧ r.master = true ∧ r.domain = d
  zero : ∀ t r, s.reg t = some r → r.thread = 0 → r.master = true ∧ r.domain = 0

theorem RegInv.facts {P : OpenParams} {s : OpenState} {arrived : List Nat} (h : RegInv P s arrived) :
    RegFacts s := by
  obtain ⟨c1, c2, -, c4, c5, c6⟩ := C20_registration P.detect (arrived.map P.node)
  rw [List.length_map] at c1
  have hinj : ∀ (i j t : Nat), arrived[i]? = some t → arrived[j]? = some t → i = j := by
    intro i j t hi hj
    obtain ⟨hi1, hi2⟩ := List.getElem?_eq_some_iff.1 hi
    obtain ⟨hj1, hj2⟩ := List.getElem?_eq_some_iff.1 hj
    exact (List.Nodup.getElem_inj_iff h.nodup).1 (hi2.trans hj2.symm)
  constructor
  · intro t r hr
    obtain ⟨i, i1, i2⟩ := (h.reg t r).1 hr
    rw [h.numa, c6, c2 i r i2, i2]; rfl
  · intro t t' r r' hr hr' e
    obtain ⟨i, i1, i2⟩ := (h.reg t r).1 hr
    obtain ⟨j, j1, j2⟩ := (h.reg t' r').1 hr'
    have : i = j := by rw [← c2 i r i2, ← c2 j r' j2, e]
    subst this
    rw [i1] at j1
    exact Option.some.inj j1
  · intro t r hr
    obtain ⟨i, i1, i2⟩ := (h.reg t r).1 hr
    rw [h.numa]
    exact (c4 r.domain).2 ⟨i, r, i2, rfl⟩
  · intro t t' r r' hr hr' m m' e
    obtain ⟨i, i1, i2⟩ := (h.reg t r).1 hr
    obtain ⟨j, j1, j2⟩ := (h.reg t' r').1 hr'
    have : i = j := (c5 r.domain ((c4 r.domain).2 ⟨i, r, i2, rfl⟩)).unique ⟨r, i2, rfl, m⟩ ⟨r', j2, e.symm, m'⟩
    subst this
    rw [i1] at j1
    exact Option.some.inj j1
  · intro d hd
    rw [h.numa] at hd
    obtain ⟨i, ⟨r, i1, i2, i3⟩, -⟩ := c5 d hd
    have hi := (List.getElem?_eq_some_iff.1 i1).1
    have hi' : i < arrived.length := by omega
    exact ⟨arrived[i], r, (h.reg _ r).2 ⟨i, List.getElem?_eq_getElem hi', i1⟩, i3, i2⟩
  · intro t r hr h0
    obtain ⟨i, i1, i2⟩ := (h.reg t r).1 hr
    have hi0 : i = 0 := by rw [← c2 i r i2]; exact h0
    subst hi0
    obtain ⟨r0, r1, r2, r3⟩ := registerAll_zero P.detect (arrived.map P.node) (by
      intro e
      have : arrived = [] := List.map_eq_nil_iff.1 e
      rw [this] at i1; cases i1)
    rw [i2] at r1; cases r1
    exact ⟨r3, r2⟩

/-- Once all threads have arrived, every thread is registered and the number of domains is known. -/
theorem RegInv.full {P : OpenParams} {s : OpenState} {arrived : List Nat} (h : RegInv P s arrived)
    (hw : P.n ≤ s.waiting) : (∀ t < P.n, (s.reg t).isSome) ∧ s.waiting = P.n ∧
      s.numa.domains.length = domainCount P := by
  have hsub : arrived ⊆ List.range P.n := fun t ht => List.mem_range.2 (h.lt t ht)
  have hsp : arrived.Subperm (List.range P.n) := List.subperm_of_subset h.nodup hsub
  have hl := hsp.length_le
  rw [List.length_range] at hl
  have hperm : arrived.Perm (List.range P.n) :=
    hsp.perm_of_length_le (by rw [List.length_range, ← h.wait]; exact hw)
  have hrl : (registerAll P.detect (arrived.map P.node)).2.length = arrived.length := by
    rw [(registerAll_ok _ _).len, List.length_map, List.length_map]
  refine ⟨?_, by rw [h.wait] at hw ⊢; omega, ?_⟩
  · intro t ht
    have hm : t ∈ arrived := hperm.mem_iff.2 (List.mem_range.2 ht)
    obtain ⟨i, hi, e⟩ := List.getElem_of_mem hm
    rw [Option.isSome_iff_exists]
    exact ⟨_, (h.reg t ((registerAll P.detect (arrived.map P.node)).2[i]'(by omega))).2
      ⟨i, by rw [List.getElem?_eq_getElem hi, e], List.getElem?_eq_getElem _⟩⟩
  · have ok := registerAll_ok P.detect (arrived.map P.node)
    rw [← h.numa] at ok
    rw [← List.toFinset_card_of_nodup ok.nodup, domainCount]
    congr 1
    ext x
    rw [List.mem_toFinset, ok.mem]
    simp only [List.mem_map, Finset.mem_image, Finset.mem_range, exists_exists_and_eq_and]
    constructor
    · rintro ⟨t, ht, e⟩; exact ⟨t, h.lt t ht, e⟩
    · rintro ⟨t, ht, e⟩; exact ⟨t, hperm.mem_iff.2 (List.mem_range.2 ht), e⟩

/-! ### Invariant -/

/-- Order of the places within one call of `open`. -/
def OpenPc.stage (L : Nat) : OpenPc → Nat
  | .start => 0
  | .quit => 0
  | .waitReg => 1
  | .ops i => 2 * i + 2
  | .waitSync i => 2 * i + 3
  | .toFinal _ => 2 * L + 4
  | .waitFinal => 2 * L + 5

/-- The thread has come further than stage `m` of call `k`. -/
def past (P : OpenParams) (s : OpenState) (t k m : Nat) : Prop :=
  k < s.call t ∨ (k = s.call t ∧ m < (s.pc t).stage (P.plan k).length)

/-- The thread takes part in broadcast `i` of call `k`. -/
def joins (P : OpenParams) (s : OpenState) (t k i : Nat) : Prop :=
  s.master t = true ∧ (P.plan k)[i]? = some .sync ∧ i < stopsAt P k (s.domainId t)

instance (P : OpenParams) (s : OpenState) (t k m : Nat) : Decidable (past P s t k m) :=
  inferInstanceAs (Decidable (_ ∨ _))

instance (P : OpenParams) (s : OpenState) (t k i : Nat) : Decidable (joins P s t k i) :=
  inferInstanceAs (Decidable (_ ∧ _))

structure OpenInv (P : OpenParams) (s : OpenState) : Prop where
  reg : ∃ arrived, RegInv P s arrived
  init : s.initialised = true ↔ s.waiting = P.total ∧ 0 < s.waiting
  /-- before the registration is complete -/
  early : ∀ t, s.initialised = false → s.call t = 0 ∧
    (s.pc t = .start ∧ s.reg t = none ∨ s.pc t = .quit ∧ s.reg t = none ∨ s.pc t = .waitReg)
  quit : ∀ t, s.pc t = .quit → s.reg t = none ∧ P.noCpu t = true
  waitReg : ∀ t, s.pc t = .waitReg → s.call t = 0 ∧ (s.reg t).isSome
  ops : ∀ t i, s.pc t = .ops i → s.master t = true ∧ i ≤ stopsAt P (s.call t) (s.domainId t)
  sync : ∀ t i, s.pc t = .waitSync i → joins P s t (s.call t) i
  final : ∀ t e, s.pc t = .toFinal e →
    e = if s.master t then outcome P (s.call t) (s.domainId t) else .SUCCESS
  cnt : ∀ k i, s.cnt k i =
    ((Finset.range P.n).filter fun t => joins P s t k i ∧ past P s t k (2 * i + 2)).card
  left : ∀ t < P.n, ∀ k i, joins P s t k i → past P s t k (2 * i + 3) → s.cnt k i = s.numa.domains.length
  fin : ∀ k, s.fin k =
    ((Finset.range P.n).filter fun t => past P s t k (2 * (P.plan k).length + 4)).card
  finished : ∀ t k, k < s.call t → s.fin k = P.total
  data : ∀ t r k, s.reg t = some r → r.thread = 0 → past P s t k (2 * (P.plan k).length + 4) →
    s.data k = some (outcome P k 0)
  res : ∀ t k, s.res t k = if k < s.call t then some (some (outcome P k 0)) else none
  out : ∀ t, P.n ≤ t → s.call t = 0 ∧ s.pc t = .start

theorem OpenInv.fresh (P : OpenParams) : OpenInv P OpenState.fresh := by
  refine ⟨⟨[], RegInv.fresh P⟩, ?_, ?_, ?_, ?_, ?_, ?_, ?_, ?_, ?_, ?_, ?_, ?_, ?_, ?_⟩ <;>
    simp [OpenState.fresh, joins, past, OpenState.master, OpenPc.stage]

theorem OpenInv.ready {P : OpenParams} {s : OpenState} (hn : P.total = 0 ∨ P.n ≤ P.total) (h : OpenInv P s)
    (hi : s.initialised = true) :
    (∀ t < P.n, ∃ r, s.reg t = some r ∧ s.threadId t = r.thread ∧ s.domainId t = r.domain ∧ s.master t = r.master) ∧
      P.total = P.n ∧ s.numa.domains.length = domainCount P := by
  obtain ⟨h1, h2⟩ := h.init.1 hi
  obtain ⟨arrived, ha⟩ := h.reg
  obtain ⟨f1, f2, f3⟩ := ha.full (by omega)
  refine ⟨?_, by omega, f3⟩
  intro t ht
  obtain ⟨r, hr⟩ := Option.isSome_iff_exists.1 (f1 t ht)
  exact ⟨r, hr, by simp [OpenState.threadId, hr], by simp [OpenState.domainId, hr],
    by simp [OpenState.master, hr]⟩

/-- Steps that only change the place of a thread and are no arrival. -/
theorem OpenInv.move {P : OpenParams} {s : OpenState} (h : OpenInv P s) (hi : s.initialised = true) {t : Nat}
    (ht : t < P.n) (p' : OpenPc)
    (c0 : p' ≠ .quit ∧ p' ≠ .waitReg ∧ p' ≠ .waitFinal ∧ p' ≠ .start ∧ ∀ i, p' ≠ .waitSync i)
    (c1 : ∀ i, p' = .ops i → s.master t = true ∧ i ≤ stopsAt P (s.call t) (s.domainId t))
    (c3 : ∀ e, p' = .toFinal e → e = if s.master t then outcome P (s.call t) (s.domainId t) else .SUCCESS)
    (c5 : ∀ i, joins P s t (s.call t) i → 2 * i + 2 < p'.stage (P.plan (s.call t)).length →
      2 * i + 2 < (s.pc t).stage (P.plan (s.call t)).length)
    (c6 : ∀ i, joins P s t (s.call t) i → 2 * i + 3 < p'.stage (P.plan (s.call t)).length →
      2 * i + 3 < (s.pc t).stage (P.plan (s.call t)).length ∨
      s.cnt (s.call t) i = s.numa.domains.length)
    (c7 : (s.pc t).stage (P.plan (s.call t)).length ≤ p'.stage (P.plan (s.call t)).length)
    (c8 : p'.stage (P.plan (s.call t)).length ≤ 2 * (P.plan (s.call t)).length + 4) :
    OpenInv P { s with pc := upd s.pc t p' } := by
  obtain ⟨i1, i2, i3, i4, i5, i6, i7, i8, i9, i10, i11, i12, i13, i14, i15⟩ := h
  have hother : ∀ x k m, x ≠ t → (past P { s with pc := upd s.pc t p' } x k m ↔ past P s x k m) := by
    intro x k m hx
    simp only [past, upd_ne _ _ hx]
  have hself : ∀ k m, past P { s with pc := upd s.pc t p' } t k m ↔
      k < s.call t ∨ k = s.call t ∧ m < p'.stage (P.plan k).length := by
    intro k m
    simp only [past, upd_self]
  refine ⟨?_, i2, ?_, ?_, ?_, ?_, ?_, ?_, ?_, ?_, ?_, i12, ?_, i14, ?_⟩
  · obtain ⟨a, ha⟩ := i1
    exact ⟨a, ha.nodup, ha.lt, ha.wait, ha.numa, ha.reg⟩
  · intro x hx
    simp only [hi] at hx
    cases hx
  · intro x hx
    simp only [upd_apply] at hx
    split_ifs at hx
    · exact absurd hx c0.1
    · exact i4 x hx
  · intro x hx
    simp only [upd_apply] at hx
    split_ifs at hx
    · exact absurd hx c0.2.1
    · exact i5 x hx
  · intro x i hx
    simp only [upd_apply] at hx
    split_ifs at hx with hxt
    · subst hxt; exact c1 i hx
    · exact i6 x i hx
  · intro x i hx
    simp only [upd_apply] at hx
    split_ifs at hx with hxt
    · exact absurd hx (c0.2.2.2.2 i)
    · exact i7 x i hx
  · intro x e hx
    simp only [upd_apply] at hx
    split_ifs at hx with hxt
    · subst hxt; exact c3 e hx
    · exact i8 x e hx
  · intro k i
    refine (i9 k i).trans (card_same ?_)
    intro x _
    by_cases hx : x = t
    · subst hx
      rw [hself]
      refine and_congr_right fun hj => ?_
      change joins P s x k i at hj
      unfold past
      constructor
      · rintro (h1 | ⟨rfl, h2⟩)
        · exact Or.inl h1
        · exact Or.inr ⟨rfl, by omega⟩
      · rintro (h1 | ⟨rfl, h2⟩)
        · exact Or.inl h1
        · exact Or.inr ⟨rfl, c5 i hj h2⟩
    · rw [hother x _ _ hx]; exact Iff.rfl
  · intro x hxn k i hj hp
    change joins P s x k i at hj
    by_cases hx : x = t
    · subst hx
      rw [hself] at hp
      rcases hp with hp | ⟨rfl, hp⟩
      · exact i10 x hxn k i hj (Or.inl hp)
      · rcases c6 i hj hp with h' | h'
        · exact i10 x hxn _ i hj (Or.inr ⟨rfl, h'⟩)
        · exact h'
    · rw [hother x _ _ hx] at hp
      exact i10 x hxn k i hj hp
  · intro k
    refine (i11 k).trans (card_same ?_)
    intro x _
    by_cases hx : x = t
    · subst hx
      rw [hself]
      unfold past
      constructor
      · rintro (h1 | ⟨rfl, h2⟩)
        · exact Or.inl h1
        · exact Or.inr ⟨rfl, by omega⟩
      · rintro (h1 | ⟨rfl, h2⟩)
        · exact Or.inl h1
        · omega
    · rw [hother x _ _ hx]
  · intro x r k hr h0 hp
    by_cases hx : x = t
    · subst hx
      rw [hself] at hp
      rcases hp with hp | ⟨rfl, hp⟩
      · exact i13 x r k hr h0 (Or.inl hp)
      · omega
    · rw [hother x _ _ hx] at hp
      exact i13 x r k hr h0 hp
  · intro x hx
    have : x ≠ t := by omega
    simp only [upd_ne _ _ this]
    exact i15 x hx

theorem OpenInv.step {P : OpenParams} {s s' : OpenState} (hn : P.total = 0 ∨ P.n ≤ P.total) (h : OpenInv P s)
    (hs : OpenStep P s s') : OpenInv P s' := by
  have hin : ∀ t, s.pc t ≠ .start → s.pc t ≠ .quit → s.pc t ≠ .waitReg → s.initialised = true := by
    intro t h1 h2 h3
    by_contra hc
    rcases h.early t (by simpa using hc) with ⟨-, h' | h' | h'⟩
    · exact h1 h'.1
    · exact h2 h'.1
    · exact h3 h'
  cases hs with
  | noCpu t ht hp hc hi hq =>
    obtain ⟨i1, i2, i3, i4, i5, i6, i7, i8, i9, i10, i11, i12, i13, i14, i15⟩ := h
    have hpast : ∀ x k m, past P { s with pc := upd s.pc t .quit } x k m ↔ past P s x k m := by
      intro x k m
      simp only [past, upd_apply]
      split_ifs with hx
      · subst hx; rw [hp]; rfl
      · rfl
    have hr : s.reg t = none := by
      rcases (i3 t hi).2 with h' | h' | h'
      · exact h'.2
      · exact h'.2
      · rw [hp] at h'; cases h'
    refine ⟨?_, i2, ?_, ?_, ?_, ?_, ?_, ?_, ?_, ?_, ?_, i12, ?_, i14, ?_⟩
    · obtain ⟨a, ha⟩ := i1
      exact ⟨a, ha.nodup, ha.lt, ha.wait, ha.numa, ha.reg⟩
    · intro x _
      refine ⟨(i3 x hi).1, ?_⟩
      simp only [upd_apply]
      split_ifs with hx
      · subst hx; exact Or.inr (Or.inl ⟨rfl, hr⟩)
      · exact (i3 x hi).2
    · intro x hx
      simp only [upd_apply] at hx
      split_ifs at hx with hxt
      · subst hxt; exact ⟨hr, hq⟩
      · exact i4 x hx
    · intro x hx
      simp only [upd_apply] at hx
      split_ifs at hx
      exact i5 x hx
    · intro x i hx
      simp only [upd_apply] at hx
      split_ifs at hx
      exact i6 x i hx
    · intro x i hx
      simp only [upd_apply] at hx
      split_ifs at hx
      exact i7 x i hx
    · intro x e hx
      simp only [upd_apply] at hx
      split_ifs at hx
      exact i8 x e hx
    · intro k i
      refine (i9 k i).trans (card_same ?_)
      intro x _
      rw [hpast]; exact Iff.rfl
    · intro x hxn k i hj hq
      rw [hpast] at hq
      exact i10 x hxn k i hj hq
    · intro k
      refine (i11 k).trans (card_same ?_)
      intro x _
      rw [hpast]
    · intro x r k hr h0 hq
      rw [hpast] at hq
      exact i13 x r k hr h0 hq
    · intro x hx
      have : x ≠ t := by omega
      simp only [upd_ne _ _ this]
      exact i15 x hx
  | register t ht hp hc hi hq =>
    obtain ⟨i1, i2, i3, i4, i5, i6, i7, i8, i9, i10, i11, i12, i13, i14, i15⟩ := h
    have hr : s.reg t = none := by
      rcases (i3 t hi).2 with h' | h' | h'
      · exact h'.2
      · exact h'.2
      · rw [hp] at h'; cases h'
    have hno : ∀ x k m, 0 < m → ¬ past P s x k m := by
      intro x k m hm hx
      obtain ⟨h1, h2⟩ := i3 x hi
      rcases hx with hx | ⟨rfl, hx⟩
      · omega
      · rcases h2 with h2 | h2 | h2
        · rw [h2.1] at hx; simp [OpenPc.stage] at hx
        · rw [h2.1] at hx; simp [OpenPc.stage] at hx
        · rw [h2] at hx; simp only [OpenPc.stage] at hx; omega
    obtain ⟨a, ha⟩ := i1
    set s' : OpenState := { s with
        numa := (registerThread s.numa s.waiting (P.node t) P.detect).1
        waiting := s.waiting + 1
        initialised := decide (s.waiting + 1 = P.total)
        reg := upd s.reg t (some (registerThread s.numa s.waiting (P.node t) P.detect).2)
        pc := upd s.pc t .waitReg } with hs'
    have hno' : ∀ x k m, 0 < m → ¬ past P s' x k m := by
      intro x k m hm hx
      by_cases hxt : x = t
      · subst hxt
        have h0 := (i3 x hi).1
        rcases hx with hx | ⟨hk, hx⟩
        · change k < s.call x at hx; omega
        · simp only [hs', upd_self, OpenPc.stage] at hx; omega
      · refine hno x k m hm ?_
        simpa only [hs', past, upd_ne _ _ hxt] using hx
    have hpc : ∀ x, s'.pc x = .start ∧ x ≠ t ∨ s'.pc x = .quit ∧ x ≠ t ∨ s'.pc x = .waitReg := by
      intro x
      by_cases hxt : x = t
      · subst hxt; exact Or.inr (Or.inr (by simp [hs']))
      · have := (i3 x hi).2
        simp only [hs', upd_ne _ _ hxt]
        grind
    refine ⟨⟨a ++ [t], ha.register ht hr s' rfl rfl rfl⟩, ?_, ?_, ?_, ?_, ?_, ?_, ?_, ?_, ?_, ?_, ?_, ?_, i14, ?_⟩
    · simp [hs']
    · intro x _
      refine ⟨(i3 x hi).1, ?_⟩
      by_cases hxt : x = t
      · subst hxt; exact Or.inr (Or.inr (by simp [hs']))
      · simp only [hs', upd_ne _ _ hxt]
        exact (i3 x hi).2
    · intro x hx
      by_cases hxt : x = t
      · subst hxt; simp [hs'] at hx
      · simp only [hs', upd_ne _ _ hxt] at hx ⊢
        exact i4 x hx
    · intro x hx
      refine ⟨(i3 x hi).1, ?_⟩
      by_cases hxt : x = t
      · subst hxt; simp [hs']
      · simp only [hs', upd_ne _ _ hxt] at hx ⊢
        exact (i5 x hx).2
    · intro x i hx
      rcases hpc x with h' | h' | h'
      · rw [h'.1] at hx; cases hx
      · rw [h'.1] at hx; cases hx
      · rw [h'] at hx; cases hx
    · intro x i hx
      rcases hpc x with h' | h' | h'
      · rw [h'.1] at hx; cases hx
      · rw [h'.1] at hx; cases hx
      · rw [h'] at hx; cases hx
    · intro x e hx
      rcases hpc x with h' | h' | h'
      · rw [h'.1] at hx; cases hx
      · rw [h'.1] at hx; cases hx
      · rw [h'] at hx; cases hx
    · intro k i
      refine (i9 k i).trans (card_same ?_)
      intro x _
      constructor
      · rintro ⟨-, h2⟩; exact absurd h2 (hno x k _ (by omega))
      · rintro ⟨-, h2⟩; exact absurd h2 (hno' x k _ (by omega))
    · intro x hxn k i hj hq
      exact absurd hq (hno' x k _ (by omega))
    · intro k
      refine (i11 k).trans (card_same ?_)
      intro x _
      constructor
      · intro h2; exact absurd h2 (hno x k _ (by omega))
      · intro h2; exact absurd h2 (hno' x k _ (by omega))
    · intro x k hx
      have := (i3 x hi).1
      change k < s.call x at hx
      omega
    · intro x r k _ h0 hq
      exact absurd hq (hno' x k _ (by omega))
    · intro x hx
      have : x ≠ t := by omega
      simp only [hs', upd_ne _ _ this]
      exact i15 x hx
  | registered t r ht hp hi hr =>
    have hm : s.master t = r.master := by simp [OpenState.master, hr]
    cases hrm : r.master with
    | true =>
      refine h.move hi ht _ ?_ ?_ ?_ ?_ ?_ ?_ ?_ <;>
        simp [afterRegistration, hp, OpenPc.stage, hm, hrm]
    | false =>
      refine h.move hi ht _ ?_ ?_ ?_ ?_ ?_ ?_ ?_ <;>
        simp [afterRegistration, hp, OpenPc.stage, hm, hrm, joins]
  | again t ht hp hc hi =>
    obtain ⟨r, hr, e1, e2, e3⟩ := (h.ready hn hi).1 t ht
    obtain ⟨a, ha⟩ := h.reg
    have hm := ha.facts.masters t r hr
    rw [← e1, ← e3] at hm
    cases hrm : s.master t with
    | true =>
      refine h.move hi ht _ ?_ ?_ ?_ ?_ ?_ ?_ ?_ <;>
        simp [afterRegistration, hp, OpenPc.stage, hm, hrm]
    | false =>
      refine h.move hi ht _ ?_ ?_ ?_ ?_ ?_ ?_ ?_ <;>
        simp [afterRegistration, hp, OpenPc.stage, hm, hrm, joins]
  | opDone t i ht hp hl hns he =>
    have hi := hin t (by simp [hp]) (by simp [hp]) (by simp [hp])
    obtain ⟨o1, o2⟩ := h.ops t i hp
    have hlt := stops_gt o2 hl he
    refine h.move hi ht _ ?_ ?_ ?_ ?_ ?_ ?_ ?_
    · simp
    · rintro j ⟨⟩; exact ⟨o1, hlt⟩
    · rintro e ⟨⟩
    · intro j hj hlt'
      simp only [hp, OpenPc.stage] at hlt' ⊢
      have : j ≠ i := by rintro rfl; exact hns hj.2.1
      omega
    · intro j hj hlt'
      simp only [hp, OpenPc.stage] at hlt' ⊢
      have : j ≠ i := by rintro rfl; exact hns hj.2.1
      left; omega
    · simp only [hp, OpenPc.stage]; omega
    · simp only [OpenPc.stage]; omega
  | opFail t i e ht hp he =>
    have hi := hin t (by simp [hp]) (by simp [hp]) (by simp [hp])
    obtain ⟨o1, o2⟩ := h.ops t i hp
    have heq := stops_eq o2 he
    have hl := (opError_lt he).1
    refine h.move hi ht _ ?_ ?_ ?_ ?_ ?_ ?_ ?_
    · simp
    · rintro j ⟨⟩
    · rintro e' ⟨⟩
      rw [o1, if_pos rfl, outcome, ← heq, he]; rfl
    · intro j hj hlt'
      simp only [hp, OpenPc.stage]
      have := hj.2.2
      omega
    · intro j hj hlt'
      simp only [hp, OpenPc.stage]
      have := hj.2.2
      left; omega
    · simp only [hp, OpenPc.stage]; omega
    · simp only [OpenPc.stage]; omega
  | leave t i ht hp hc =>
    have hi := hin t (by simp [hp]) (by simp [hp]) (by simp [hp])
    have hj := h.sync t i hp
    have hl := (List.getElem?_eq_some_iff.1 hj.2.1).1
    refine h.move hi ht _ ?_ ?_ ?_ ?_ ?_ ?_ ?_
    · simp
    · rintro j ⟨⟩; exact ⟨hj.1, hj.2.2⟩
    · rintro e ⟨⟩
    · intro j hj hlt'
      simp only [hp, OpenPc.stage] at hlt' ⊢
      omega
    · intro j hj hlt'
      simp only [hp, OpenPc.stage] at hlt' ⊢
      by_cases hij : j = i
      · subst hij; exact Or.inr hc
      · left; omega
    · simp only [hp, OpenPc.stage]; omega
    · simp only [OpenPc.stage]; omega
  | initDone t i ht hp hl =>
    have hi := hin t (by simp [hp]) (by simp [hp]) (by simp [hp])
    obtain ⟨o1, o2⟩ := h.ops t i hp
    have hsl := stopsAt_le P (s.call t) (s.domainId t)
    refine h.move hi ht _ ?_ ?_ ?_ ?_ ?_ ?_ ?_
    · simp
    · rintro j ⟨⟩
    · rintro e' ⟨⟩
      rw [o1, if_pos rfl, outcome_done o2 hl]
    · intro j hj hlt'
      simp only [hp, OpenPc.stage]
      have := hj.2.2
      omega
    · intro j hj hlt'
      simp only [hp, OpenPc.stage]
      have := hj.2.2
      left; omega
    · simp only [hp, OpenPc.stage]; omega
    · simp only [OpenPc.stage]; omega
  | arrive t i ht hp hsy =>
    have hi := hin t (by simp [hp]) (by simp [hp]) (by simp [hp])
    obtain ⟨o1, o2⟩ := h.ops t i hp
    have hl := (List.getElem?_eq_some_iff.1 hsy).1
    have hlt := stops_gt o2 hl (by simp [OpenParams.opError, hsy])
    have hj : joins P s t (s.call t) i := ⟨o1, hsy, hlt⟩
    have hcnt := h.cnt
    have hleft := h.left
    obtain ⟨i1, i2, i3, i4, i5, i6, i7, i8, -, -, i11, i12, i13, i14, i15⟩ := h
    set s' : OpenState := { s with
        cnt := upd s.cnt (s.call t) (upd (s.cnt (s.call t)) i (s.cnt (s.call t) i + 1))
        pc := upd s.pc t (.waitSync i) } with hs'
    have hother : ∀ x k m, x ≠ t → (past P s' x k m ↔ past P s x k m) := by
      intro x k m hx
      simp only [past, hs', upd_ne _ _ hx]
    have hself : ∀ k m, past P s' t k m ↔ k < s.call t ∨ k = s.call t ∧ m < 2 * i + 3 := by
      intro k m
      simp only [past, hs', upd_self, OpenPc.stage]
    have hold : ∀ k m, past P s t k m ↔ k < s.call t ∨ k = s.call t ∧ m < 2 * i + 2 := by
      intro k m
      simp only [past, hp, OpenPc.stage]
    have hcnt' : ∀ k j, (k, j) ≠ (s.call t, i) → s'.cnt k j = s.cnt k j := by
      intro k j hne
      simp only [hs']
      by_cases h1 : k = s.call t
      · subst h1
        have h2 : j ≠ i := by rintro rfl; exact hne rfl
        rw [upd_self, upd_ne _ _ h2]
      · rw [upd_ne _ _ h1]
    have hcnt1 : s'.cnt (s.call t) i = s.cnt (s.call t) i + 1 := by simp [hs']
    have hsame : ∀ x k m, (k, m) ≠ (s.call t, 2 * i + 2) → (past P s' x k m ↔ past P s x k m) := by
      intro x k m hne
      by_cases hx : x = t
      · subst hx
        rw [hself, hold]
        have : k = s.call x → m ≠ 2 * i + 2 := by
          rintro rfl rfl; exact hne rfl
        omega
      · exact hother x k m hx
    refine ⟨?_, i2, ?_, ?_, ?_, ?_, ?_, ?_, ?_, ?_, ?_, i12, ?_, i14, ?_⟩
    · obtain ⟨a, ha⟩ := i1
      exact ⟨a, ha.nodup, ha.lt, ha.wait, ha.numa, ha.reg⟩
    · intro x hx
      simp only [hs', hi] at hx
      cases hx
    · intro x hx
      simp only [hs', upd_apply] at hx
      split_ifs at hx
      exact i4 x hx
    · intro x hx
      simp only [hs', upd_apply] at hx
      split_ifs at hx
      exact i5 x hx
    · intro x j hx
      simp only [hs', upd_apply] at hx
      split_ifs at hx
      exact i6 x j hx
    · intro x j hx
      simp only [hs', upd_apply] at hx
      split_ifs at hx with hxt
      · cases hx; subst hxt; exact hj
      · exact i7 x j hx
    · intro x e hx
      simp only [hs', upd_apply] at hx
      split_ifs at hx
      exact i8 x e hx
    · intro k j
      by_cases hkj : (k, j) = (s.call t, i)
      · cases hkj
        rw [hcnt1, hcnt]
        refine (card_one_more (t := t) ht ?_ ?_ ?_).symm
        · rintro ⟨-, h2⟩
          rw [hold] at h2
          omega
        · exact ⟨hj, (hself _ _).2 (Or.inr ⟨rfl, by omega⟩)⟩
        · intro x _ hx
          rw [hother x _ _ hx]; exact Iff.rfl
      · rw [hcnt' k j hkj, hcnt]
        refine card_same ?_
        intro x _
        rw [hsame x k _ (by
          intro e; apply hkj
          simp only [Prod.mk.injEq] at e ⊢
          exact ⟨e.1, by omega⟩)]
        exact Iff.rfl
    · intro x hxn k j hj' hq
      rw [hsame x k _ (by intro e; simp only [Prod.mk.injEq] at e; omega)] at hq
      have hd := hleft x hxn k j hj' hq
      by_cases hkj : (k, j) = (s.call t, i)
      · cases hkj
        exfalso
        -- all masters have arrived already
        obtain ⟨a, ha⟩ := i1
        have hf := ha.facts
        have hcard := hcnt (s.call t) i
        rw [hd] at hcard
        set A := (Finset.range P.n).filter fun y => joins P s y (s.call t) i ∧ past P s y (s.call t) (2 * i + 2)
          with hA
        have hmap : ∀ y ∈ insert t A, s.domainId y ∈ Finset.range s.numa.domains.length := by
          intro y hy
          have hm : s.master y = true := by
            rcases Finset.mem_insert.1 hy with rfl | hy
            · exact o1
            · exact (Finset.mem_filter.1 hy).2.1.1
          unfold OpenState.master at hm
          cases hr : s.reg y with
          | none => rw [hr] at hm; cases hm
          | some r =>
            rw [Finset.mem_range, OpenState.domainId, hr]
            exact hf.dom y r hr
        have hinj : ∀ y ∈ insert t A, ∀ z ∈ insert t A, s.domainId y = s.domainId z → y = z := by
          have hm : ∀ y ∈ insert t A, ∃ r, s.reg y = some r ∧ r.master = true := by
            intro y hy
            have hm : s.master y = true := by
              rcases Finset.mem_insert.1 hy with rfl | hy
              · exact o1
              · exact (Finset.mem_filter.1 hy).2.1.1
            unfold OpenState.master at hm
            cases hr : s.reg y with
            | none => rw [hr] at hm; cases hm
            | some r => rw [hr] at hm; exact ⟨r, rfl, hm⟩
          intro y hy z hz e
          obtain ⟨r, r1, r2⟩ := hm y hy
          obtain ⟨q, q1, q2⟩ := hm z hz
          simp only [OpenState.domainId, r1, q1, Option.map_some, Option.getD_some] at e
          exact hf.unique y z r q r1 q1 r2 q2 e
        have hle := Finset.card_le_card_of_injOn (fun y => s.domainId y) hmap
          (fun y hy z hz e => hinj y hy z hz e)
        have htA : t ∉ A := by
          intro htA
          have := (Finset.mem_filter.1 htA).2.2
          rw [hold] at this
          omega
        rw [Finset.card_insert_of_notMem htA, Finset.card_range] at hle
        omega
      · rw [hcnt' k j hkj]; exact hd
    · intro k
      refine (i11 k).trans (card_same ?_)
      intro x _
      rw [hsame x k _ (by intro e; simp only [Prod.mk.injEq] at e; obtain ⟨rfl, e⟩ := e; omega)]
    · intro x r k hr h0 hq
      rw [hsame x k _ (by intro e; simp only [Prod.mk.injEq] at e; obtain ⟨rfl, e⟩ := e; omega)] at hq
      exact i13 x r k hr h0 hq
    · intro x hx
      have : x ≠ t := by omega
      simp only [hs', upd_ne _ _ this]
      exact i15 x hx
  | arriveFinal t e ht hp =>
    have hi := hin t (by simp [hp]) (by simp [hp]) (by simp [hp])
    have hready := h.ready hn hi
    obtain ⟨rt, hrt, e1, e2, e3⟩ := hready.1 t ht
    obtain ⟨i1, i2, i3, i4, i5, i6, i7, i8, i9, i10, i11, i12, i13, i14, i15⟩ := h
    set s' : OpenState := { s with
        fin := upd s.fin (s.call t) (s.fin (s.call t) + 1)
        data := if s.threadId t = 0 then upd s.data (s.call t) (some e) else s.data
        pc := upd s.pc t .waitFinal } with hs'
    have hother : ∀ x k m, x ≠ t → (past P s' x k m ↔ past P s x k m) := by
      intro x k m hx
      simp only [past, hs', upd_ne _ _ hx]
    have hself : ∀ k m, past P s' t k m ↔ k < s.call t ∨ k = s.call t ∧ m < 2 * (P.plan k).length + 5 := by
      intro k m
      simp only [past, hs', upd_self, OpenPc.stage]
    have hold : ∀ k m, past P s t k m ↔ k < s.call t ∨ k = s.call t ∧ m < 2 * (P.plan k).length + 4 := by
      intro k m
      simp only [past, hp, OpenPc.stage]
    have hsame : ∀ x k m, (k = s.call t → m ≠ 2 * (P.plan k).length + 4) → (past P s' x k m ↔ past P s x k m) := by
      intro x k m hne
      by_cases hx : x = t
      · subst hx
        rw [hself, hold]
        omega
      · exact hother x k m hx
    have hlen : ∀ x k j, joins P s x k j → j < (P.plan k).length := fun x k j hj =>
      (List.getElem?_eq_some_iff.1 hj.2.1).1
    -- no thread has left this call
    have hfull : ¬ s.fin (s.call t) = P.total := by
      intro hc
      have hlt : ((Finset.range P.n).filter fun x => past P s x (s.call t) (2 * (P.plan (s.call t)).length + 4)).card
          < (Finset.range P.n).card := by
        refine Finset.card_lt_card ⟨Finset.filter_subset _ _, ?_⟩
        intro hsub
        have := (Finset.mem_filter.1 (hsub (Finset.mem_range.2 ht))).2
        rw [hold] at this
        omega
      rw [← i11, Finset.card_range] at hlt
      have := hready.2.1
      omega
    refine ⟨?_, i2, ?_, ?_, ?_, ?_, ?_, ?_, ?_, ?_, ?_, ?_, ?_, i14, ?_⟩
    · obtain ⟨a, ha⟩ := i1
      exact ⟨a, ha.nodup, ha.lt, ha.wait, ha.numa, ha.reg⟩
    · intro x hx
      simp only [hs', hi] at hx
      cases hx
    · intro x hx
      simp only [hs', upd_apply] at hx
      split_ifs at hx
      exact i4 x hx
    · intro x hx
      simp only [hs', upd_apply] at hx
      split_ifs at hx
      exact i5 x hx
    · intro x j hx
      simp only [hs', upd_apply] at hx
      split_ifs at hx
      exact i6 x j hx
    · intro x j hx
      simp only [hs', upd_apply] at hx
      split_ifs at hx with hxt
      exact i7 x j hx
    · intro x e hx
      simp only [hs', upd_apply] at hx
      split_ifs at hx
      exact i8 x e hx
    · intro k j
      refine (i9 k j).trans (card_same ?_)
      intro x _
      constructor
      · rintro ⟨h1, h2⟩
        exact ⟨h1, (hsame x k _ (by have := hlen x k j h1; omega)).2 h2⟩
      · rintro ⟨h1, h2⟩
        exact ⟨h1, (hsame x k _ (by have := hlen x k j h1; omega)).1 h2⟩
    · intro x hxn k j hj hq
      rw [hsame x k _ (by have := hlen x k j hj; omega)] at hq
      exact i10 x hxn k j hj hq
    · intro k
      by_cases hk : k = s.call t
      · subst hk
        have : s'.fin (s.call t) = s.fin (s.call t) + 1 := by simp [hs']
        rw [this, i11]
        refine (card_one_more (t := t) ht ?_ ?_ ?_).symm
        · rw [hold]; omega
        · rw [hself]; exact Or.inr ⟨rfl, by omega⟩
        · intro x _ hx
          exact hother x _ _ hx
      · have : s'.fin k = s.fin k := by simp [hs', upd_apply, hk]
        rw [this, i11]
        refine card_same ?_
        intro x _
        exact (hsame x k _ (fun e => absurd e hk)).symm
    · intro x k hx
      change k < s.call x at hx
      by_cases hk : k = s.call t
      · subst hk; exact absurd (i12 x _ hx) hfull
      · simp only [hs', upd_ne _ _ hk]
        exact i12 x k hx
    · intro x r k hr h0 hq
      change s.reg x = some r at hr
      obtain ⟨a, ha⟩ := i1
      by_cases hxt : x = t
      · subst hxt
        rw [hrt] at hr; cases hr
        obtain ⟨z1, z2⟩ := ha.facts.zero x rt hrt h0
        have hd : s'.data = upd s.data (s.call x) (some e) := by simp [hs', e1, h0]
        rw [hd]
        by_cases hk : k = s.call x
        · subst hk
          rw [upd_self, i8 x e hp, e3, z1, if_pos rfl, e2, z2]
        · rw [upd_ne _ _ hk]
          refine i13 x rt k hrt h0 ?_
          rcases hq with hq | hq
          · exact Or.inl hq
          · exact absurd hq.1 hk
      · rw [hother x _ _ hxt] at hq
        have hne : s.threadId t ≠ 0 := by
          rw [e1]
          intro hz
          exact hxt (ha.facts.inj x t r rt hr hrt (by rw [h0, hz]))
        have hd : s'.data = s.data := by simp [hs', hne]
        rw [hd]
        exact i13 x r k hr h0 hq
    · intro x hx
      have : x ≠ t := by omega
      simp only [hs', upd_ne _ _ this]
      exact i15 x hx
  | «return» t ht hp hf =>
    have hi := hin t (by simp [hp]) (by simp [hp]) (by simp [hp])
    have hready := h.ready hn hi
    obtain ⟨i1, i2, i3, i4, i5, i6, i7, i8, i9, i10, i11, i12, i13, i14, i15⟩ := h
    set s' : OpenState := { s with
        res := upd s.res t (upd (s.res t) (s.call t) (some (s.data (s.call t))))
        call := upd s.call t (s.call t + 1)
        pc := upd s.pc t .start } with hs'
    have hother : ∀ x k m, x ≠ t → (past P s' x k m ↔ past P s x k m) := by
      intro x k m hx
      simp only [past, hs', upd_ne _ _ hx]
    have hself : ∀ k m, past P s' t k m ↔ k < s.call t + 1 := by
      intro k m
      simp only [past, hs', upd_self, OpenPc.stage]
      omega
    have hold : ∀ k m, past P s t k m ↔ k < s.call t ∨ k = s.call t ∧ m < 2 * (P.plan k).length + 5 := by
      intro k m
      simp only [past, hp, OpenPc.stage]
    have hsame : ∀ x k m, (k = s.call t → m < 2 * (P.plan k).length + 5) → (past P s' x k m ↔ past P s x k m) := by
      intro x k m hne
      by_cases hx : x = t
      · subst hx
        rw [hself, hold]
        omega
      · exact hother x k m hx
    have hlen : ∀ x k j, joins P s x k j → j < (P.plan k).length := fun x k j hj =>
      (List.getElem?_eq_some_iff.1 hj.2.1).1
    -- all threads have arrived, so also thread 0
    have hall : ∀ x < P.n, past P s x (s.call t) (2 * (P.plan (s.call t)).length + 4) := by
      have : ((Finset.range P.n).filter fun x => past P s x (s.call t) (2 * (P.plan (s.call t)).length + 4))
          = Finset.range P.n := by
        refine Finset.eq_of_subset_of_card_le (Finset.filter_subset _ _) ?_
        rw [← i11, hf, Finset.card_range, hready.2.1]
      intro x hx
      have hx' := Finset.mem_range.2 hx
      rw [← this] at hx'
      exact (Finset.mem_filter.1 hx').2
    have hdata : s.data (s.call t) = some (outcome P (s.call t) 0) := by
      obtain ⟨a, ha⟩ := i1
      have hpos : 0 < a.length := by have := (i2.1 hi).2; have := ha.wait; omega
      have hrl : (registerAll P.detect (a.map P.node)).2.length = a.length := by
        rw [(registerAll_ok _ _).len, List.length_map, List.length_map]
      have hr0 := (ha.reg a[0] ((registerAll P.detect (a.map P.node)).2[0]'(by omega))).2
        ⟨0, List.getElem?_eq_getElem hpos, List.getElem?_eq_getElem _⟩
      refine i13 a[0] _ _ hr0 ?_ (hall _ (ha.lt _ (List.getElem_mem hpos)))
      exact (C20_registration P.detect (a.map P.node)).2.1 0 _ (List.getElem?_eq_getElem _)
    refine ⟨?_, i2, ?_, ?_, ?_, ?_, ?_, ?_, ?_, ?_, ?_, ?_, ?_, ?_, ?_⟩
    · obtain ⟨a, ha⟩ := i1
      exact ⟨a, ha.nodup, ha.lt, ha.wait, ha.numa, ha.reg⟩
    · intro x hx
      simp only [hs', hi] at hx
      cases hx
    · intro x hx
      simp only [hs', upd_apply] at hx
      split_ifs at hx
      exact i4 x hx
    · intro x hx
      by_cases hxt : x = t
      · subst hxt; simp [hs'] at hx
      · simp only [hs', upd_ne _ _ hxt] at hx ⊢
        exact i5 x hx
    · intro x j hx
      by_cases hxt : x = t
      · subst hxt; simp [hs'] at hx
      · simp only [hs', upd_ne _ _ hxt] at hx ⊢
        exact i6 x j hx
    · intro x j hx
      by_cases hxt : x = t
      · subst hxt; simp [hs'] at hx
      · simp only [hs', upd_ne _ _ hxt] at hx ⊢
        exact i7 x j hx
    · intro x e hx
      by_cases hxt : x = t
      · subst hxt; simp [hs'] at hx
      · simp only [hs', upd_ne _ _ hxt] at hx ⊢
        exact i8 x e hx
    · intro k j
      refine (i9 k j).trans (card_same ?_)
      intro x _
      constructor
      · rintro ⟨h1, h2⟩
        exact ⟨h1, (hsame x k _ (by have := hlen x k j h1; omega)).2 h2⟩
      · rintro ⟨h1, h2⟩
        exact ⟨h1, (hsame x k _ (by have := hlen x k j h1; omega)).1 h2⟩
    · intro x hxn k j hj hq
      rw [hsame x k _ (by have := hlen x k j hj; omega)] at hq
      exact i10 x hxn k j hj hq
    · intro k
      refine (i11 k).trans (card_same ?_)
      intro x _
      exact (hsame x k _ (by omega)).symm
    · intro x k hx
      by_cases hxt : x = t
      · subst hxt
        simp only [hs', upd_self] at hx
        rcases Nat.lt_or_ge k (s.call x) with hk | hk
        · exact i12 x k hk
        · have : k = s.call x := by omega
          subst this; exact hf
      · simp only [hs', upd_ne _ _ hxt] at hx
        exact i12 x k hx
    · intro x r k hr h0 hq
      rw [hsame x k _ (by omega)] at hq
      exact i13 x r k hr h0 hq
    · intro x k
      by_cases hxt : x = t
      · subst hxt
        simp only [hs', upd_self, upd_apply, i14, hdata]
        split_ifs <;> first | rfl | omega | simp_all
      · simp only [hs', upd_ne _ _ hxt]
        exact i14 x k
    · intro x hx
      have : x ≠ t := by omega
      simp only [hs', upd_ne _ _ this]
      exact i15 x hx

theorem OpenReach.inv {P : OpenParams} {s : OpenState} (hn : P.total = 0 ∨ P.n ≤ P.total)
    (h : OpenReach P s) : OpenInv P s :=
  Reachable.invariant (fun _ e => e ▸ OpenInv.fresh P) (fun _ _ hi hs => hi.step hn hs) h

end Asagi
