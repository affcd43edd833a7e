import Verif.Model.Resources
import Mathlib.Tactic.SplitIfs
import Mathlib.Data.List.Basic
import Mathlib.Data.List.Pairwise
import Mathlib.Data.List.Nodup
/- Which member owns which resource, and the order in which the destructors release them. -/
namespace Asagi

/-- A well-formed heap: numbers from `next` on are not live, and live resources use smaller ones. -/
structure Heap.WF (h : Heap) : Prop where
  fresh : ∀ i, h.next ≤ i → h.live i = none
  uses : ∀ i k us, h.live i = some (k, us) → ∀ u ∈ us, u < h.next

theorem Heap.inUse_false {h : Heap} {r : Nat} (hf : ∀ i, h.next ≤ i → h.live i = none) :
    h.inUse r = false ↔ ∀ i k us, h.live i = some (k, us) → r ∉ us := by
  unfold Heap.inUse
  rw [List.any_eq_false]
  constructor
  · intro H i k us hi hr
    have hlt : i < h.next := by
      by_contra hge
      rw [hf i (by omega)] at hi; cases hi
    have := H i (List.mem_range.2 hlt)
    rw [hi] at this
    simp [hr] at this
  · intro H i _
    cases hi : h.live i with
    | none => simp
    | some x =>
      obtain ⟨k, us⟩ := x
      have := H i k us hi
      simpa using this

/-- The places that own resources. -/
inductive Key where
  | st (d : Nat)
  | mem (d l : Nat) (m : Member)
deriving DecidableEq

def ptrK (s : GridRes) : Key → Option Nat
  | .st d => s.storage d
  | .mem d l m => s.ptr d l m

def kindK : Key → ResKind
  | .st _ => .storage
  | .mem _ _ m => .member m

def Owned (s : GridRes) : Key → Prop
  | .st d => d < s.doms
  | .mem d l m => d < s.doms ∧ l < s.size ∧ (d = 0 ∨ m.masterOnly = false)

/-- The members that a resource of this member may use. -/
def Member.uses : Member → List Member
  | .window | .cacheWin | .receiver | .transferRecv => [.data]
  | .dictWin => [.dictionary]
  | .infoRecv | .addRecv | .deleteRecv => [.dictionary, .blockLocks]
  | _ => []

def Member.self : Member → Bool
  | .receiver | .transferRecv | .infoRecv | .addRecv | .deleteRecv => true
  | _ => false

def usesK : Key → List Key
  | .st _ => []
  | .mem _ l m => m.uses.map (.mem 0 l) ++ if m.self then [.st 0] else []

/-- Invariant of a grid in a heap that had the resources of `h0` before. -/
structure ResInv (h0 : Heap) (s : GridRes) : Prop where
  doms : 0 < s.doms
  next : h0.next ≤ s.heap.next
  base : ∀ i, i < h0.next → s.heap.live i = h0.live i
  fresh : ∀ i, s.heap.next ≤ i → s.heap.live i = none
  own : ∀ k r, Owned s k → ptrK s k = some r → h0.next ≤ r ∧ ∃ us, s.heap.live r = some (kindK k, us) ∧
    ∀ u ∈ us, ∃ k' ∈ usesK k, Owned s k' ∧ ptrK s k' = some u
  inj : ∀ k k' r, Owned s k → Owned s k' → ptrK s k = some r → ptrK s k' = some r → k = k'
  cover : ∀ r, h0.next ≤ r → s.heap.live r ≠ none → ∃ k, Owned s k ∧ ptrK s k = some r
  shared : ∀ d l m, m.masterOnly = true → s.ptr d l m = s.ptr 0 l m

variable {h0 : Heap} {s s' : GridRes}

/-- A new resource for a place that had none. -/
theorem ResInv.alloc (hI : ResInv h0 s) (k0 : Key) (us : List Nat) (ho : Owned s k0)
    (hn : ptrK s k0 = none) (hu : ∀ u ∈ us, ∃ k' ∈ usesK k0, Owned s k' ∧ ptrK s k' = some u)
    (hd : s'.doms = s.doms) (hz : s'.size = s.size) (hh : s'.heap = s.heap.alloc (kindK k0) us)
    (hp : ptrK s' k0 = some s.heap.next)
    (hq : ∀ k, Owned s k → k ≠ k0 → ptrK s' k = ptrK s k)
    (hs : ∀ d l m, m.masterOnly = true → s'.ptr d l m = s'.ptr 0 l m) : ResInv h0 s' := by
  have hO : ∀ k, Owned s' k ↔ Owned s k := by
    intro k; cases k <;> simp [Owned, hd, hz]
  have hlive : ∀ i, s'.heap.live i = if i = s.heap.next then some (kindK k0, us) else s.heap.live i := by
    intro i; rw [hh]; rfl
  have hlt : ∀ k r, Owned s k → ptrK s k = some r → r < s.heap.next := by
    intro k r h1 h2
    obtain ⟨_, us, h3, _⟩ := hI.own k r h1 h2
    by_contra hge
    rw [hI.fresh r (by omega)] at h3; cases h3
  have hnext : s'.heap.next = s.heap.next + 1 := by rw [hh]; rfl
  refine ⟨by rw [hd]; exact hI.doms, by rw [hnext]; have := hI.next; omega, ?_, ?_, ?_, ?_, ?_, hs⟩
  · intro i hi
    rw [hlive, if_neg (by have := hI.next; omega)]
    exact hI.base i hi
  · intro i hi
    rw [hlive, if_neg (by omega)]
    exact hI.fresh i (by omega)
  · intro k r h1 h2
    rw [hO] at h1
    by_cases hk : k = k0
    · subst hk
      rw [hp] at h2; cases h2
      refine ⟨hI.next, us, by rw [hlive, if_pos rfl], ?_⟩
      intro u hu'
      obtain ⟨k', q1, q2, q3⟩ := hu u hu'
      refine ⟨k', q1, (hO k').2 q2, ?_⟩
      rw [hq k' q2 (by rintro rfl; rw [hn] at q3; cases q3), q3]
    · rw [hq k h1 hk] at h2
      obtain ⟨a1, us', a2, a3⟩ := hI.own k r h1 h2
      have := hlt k r h1 h2
      refine ⟨a1, us', by rw [hlive, if_neg (by omega)]; exact a2, ?_⟩
      intro u hu'
      obtain ⟨k', q1, q2, q3⟩ := a3 u hu'
      refine ⟨k', q1, (hO k').2 q2, ?_⟩
      rw [hq k' q2 (by rintro rfl; rw [hn] at q3; cases q3), q3]
  · intro k k' r h1 h1' h2 h2'
    rw [hO] at h1 h1'
    by_cases hk : k = k0 <;> by_cases hk' : k' = k0
    · rw [hk, hk']
    · subst hk
      rw [hp] at h2; cases h2
      rw [hq k' h1' hk'] at h2'
      have := hlt k' _ h1' h2'; omega
    · subst hk'
      rw [hp] at h2'; cases h2'
      rw [hq k h1 hk] at h2
      have := hlt k _ h1 h2; omega
    · rw [hq k h1 hk] at h2
      rw [hq k' h1' hk'] at h2'
      exact hI.inj k k' r h1 h1' h2 h2'
  · intro r h1 h2
    rw [hlive] at h2
    by_cases hr : r = s.heap.next
    · exact ⟨k0, (hO k0).2 ho, by rw [hp, hr]⟩
    · rw [if_neg hr] at h2
      obtain ⟨k, q1, q2⟩ := hI.cover r h1 h2
      refine ⟨k, (hO k).2 q1, ?_⟩
      rw [hq k q1 (by rintro rfl; rw [hn] at q2; cases q2), q2]

/-- A resource that nobody uses is released. -/
theorem ResInv.free (hw : h0.WF) (hI : ResInv h0 s) (k0 : Key) (ho : Owned s k0)
    (hnu : ∀ k, k0 ∉ usesK k) :
    ∃ h, s.heap.free (ptrK s k0) = some h ∧ ∀ s' : GridRes, s'.doms = s.doms → s'.size = s.size →
      s'.heap = h → ptrK s' k0 = none → (∀ k, Owned s k → k ≠ k0 → ptrK s' k = ptrK s k) →
      (∀ d l m, m.masterOnly = true → s'.ptr d l m = s'.ptr 0 l m) → ResInv h0 s' := by
  cases hp0 : ptrK s k0 with
  | none =>
    refine ⟨s.heap, rfl, ?_⟩
    intro s' hd hz hh hp hq hs
    have hO : ∀ k, Owned s' k ↔ Owned s k := by
      intro k; cases k <;> simp [Owned, hd, hz]
    have hall : ∀ k, Owned s k → ptrK s' k = ptrK s k := by
      intro k hk
      by_cases h : k = k0
      · rw [h, hp, hp0]
      · exact hq k hk h
    refine ⟨by rw [hd]; exact hI.doms, by rw [hh]; exact hI.next, by rw [hh]; exact hI.base,
      by rw [hh]; exact hI.fresh, ?_, ?_, ?_, hs⟩
    · intro k r h1 h2
      rw [hO] at h1
      rw [hall k h1] at h2
      obtain ⟨a1, us, a2, a3⟩ := hI.own k r h1 h2
      refine ⟨a1, us, by rw [hh]; exact a2, ?_⟩
      intro u hu
      obtain ⟨k', b1, b2, b3⟩ := a3 u hu
      exact ⟨k', b1, (hO k').2 b2, by rw [hall k' b2]; exact b3⟩
    · intro k k' r h1 h1' h2 h2'
      rw [hO] at h1 h1'
      rw [hall k h1] at h2
      rw [hall k' h1'] at h2'
      exact hI.inj k k' r h1 h1' h2 h2'
    · intro r h1 h2
      rw [hh] at h2
      obtain ⟨k, b1, b2⟩ := hI.cover r h1 h2
      exact ⟨k, (hO k).2 b1, by rw [hall k b1]; exact b2⟩
  | some r0 =>
    obtain ⟨c1, us0, c2, c3⟩ := hI.own k0 r0 ho hp0
    have hnouse : s.heap.inUse r0 = false := by
      rw [Heap.inUse_false hI.fresh]
      intro i k us hi hr
      by_cases hlt : i < h0.next
      · rw [hI.base i hlt] at hi
        have := hw.uses i k us hi r0 hr
        omega
      · obtain ⟨ki, d1, d2⟩ := hI.cover i (by omega) (by rw [hi]; simp)
        obtain ⟨-, us', d3, d4⟩ := hI.own ki i d1 d2
        rw [hi] at d3; cases d3
        obtain ⟨k', e1, e2, e3⟩ := d4 r0 hr
        have := hI.inj k' k0 r0 e2 ho e3 hp0
        subst this
        exact hnu ki e1
    refine ⟨{ s.heap with live := fun i => if i = r0 then none else s.heap.live i },
      by simp [Heap.free, c2, hnouse], ?_⟩
    intro s' hd hz hh hp hq hs
    have hO : ∀ k, Owned s' k ↔ Owned s k := by
      intro k; cases k <;> simp [Owned, hd, hz]
    have hlive : ∀ i, s'.heap.live i = if i = r0 then none else s.heap.live i := by
      intro i; rw [hh]
    refine ⟨by rw [hd]; exact hI.doms, by rw [hh]; exact hI.next, ?_, ?_, ?_, ?_, ?_, hs⟩
    · intro i hi
      rw [hlive, if_neg (by omega)]; exact hI.base i hi
    · intro i hi
      rw [hh] at hi
      rw [hlive]; split
      · rfl
      · exact hI.fresh i hi
    · intro k r h1 h2
      rw [hO] at h1
      have hk : k ≠ k0 := by rintro rfl; rw [hp] at h2; cases h2
      rw [hq k h1 hk] at h2
      obtain ⟨a1, us, a2, a3⟩ := hI.own k r h1 h2
      have hr : r ≠ r0 := by
        rintro rfl
        exact hk (hI.inj k k0 r h1 ho h2 hp0)
      refine ⟨a1, us, by rw [hlive, if_neg hr]; exact a2, ?_⟩
      intro u hu
      obtain ⟨k', b1, b2, b3⟩ := a3 u hu
      refine ⟨k', b1, (hO k').2 b2, ?_⟩
      rw [hq k' b2 (by rintro rfl; exact hnu k b1)]; exact b3
    · intro k k' r h1 h1' h2 h2'
      rw [hO] at h1 h1'
      have hk : k ≠ k0 := by rintro rfl; rw [hp] at h2; cases h2
      have hk' : k' ≠ k0 := by rintro rfl; rw [hp] at h2'; cases h2'
      rw [hq k h1 hk] at h2
      rw [hq k' h1' hk'] at h2'
      exact hI.inj k k' r h1 h1' h2 h2'
    · intro r h1 h2
      rw [hlive] at h2
      have hr : r ≠ r0 := by rintro rfl; simp at h2
      rw [if_neg hr] at h2
      obtain ⟨k, b1, b2⟩ := hI.cover r h1 h2
      have hk : k ≠ k0 := by
        rintro rfl
        rw [hp0] at b2; cases b2; exact hr rfl
      exact ⟨k, (hO k).2 b1, by rw [hq k b1 hk]; exact b2⟩

/-! ### Statements of `open` -/

/-- The member of a statement that acquires a resource. -/
def Stmt.target : Stmt → Option Member
  | .each m => some m
  | .master m _ _ => some m
  | .drop _ => none

/-- What the proofs need of a statement. -/
def Stmt.ok : Stmt → Bool
  | .each m => !m.masterOnly && m.uses.isEmpty && !m.self
  | .master m us self => m.masterOnly && us.all (fun u => m.uses.contains u && u.masterOnly) && (!self || m.self)
  | .drop m => m = .inputFile

/-- Facts about one level that change while it is opened. -/
structure ResStep (s s' : GridRes) (l : Nat) (st : Stmt) : Prop where
  doms : s'.doms = s.doms
  size : s'.size = s.size
  cap : s'.cap = s.cap
  storage : s'.storage = s.storage
  /-- other members and levels keep their pointers -/
  keep : ∀ d l' m, l' ≠ l ∨ (st ≠ .drop m ∧ st.target ≠ some m) → s'.ptr d l' m = s.ptr d l' m
  /-- the new pointer is set in all domains -/
  set : ∀ m, st.target = some m → ∀ d, d < s.doms → s'.ptr d l m ≠ none

theorem newEach_spec (hI : ResInv h0 s) (l : Nat) (m : Member) (hm : m.masterOnly = false) (hu : m.uses = [])
    (hs : m.self = false) (hl : l < s.size) (hn : ∀ d, s.ptr d l m = none) (n : Nat) (hnd : n ≤ s.doms) :
    ResInv h0 (newEach s l m n) ∧ (newEach s l m n).doms = s.doms ∧ (newEach s l m n).size = s.size ∧
      (newEach s l m n).cap = s.cap ∧ (newEach s l m n).storage = s.storage ∧
      (∀ d l' m', l' ≠ l ∨ m' ≠ m → (newEach s l m n).ptr d l' m' = s.ptr d l' m') ∧
      (∀ d, n ≤ d → (newEach s l m n).ptr d l m = none) ∧
      (∀ d, d < n → (newEach s l m n).ptr d l m ≠ none) := by
  induction n with
  | zero => exact ⟨hI, rfl, rfl, rfl, rfl, fun _ _ _ _ => rfl, fun d _ => hn d, fun d h => by omega⟩
  | succ n ih =>
    obtain ⟨i1, i2, i3, i4, i5, i6, i7, i8⟩ := ih (by omega)
    refine ⟨?_, i2, i3, i4, i5, ?_, ?_, ?_⟩
    · refine i1.alloc (.mem n l m) [] ⟨by rw [i2]; omega, by rw [i3]; exact hl, .inr hm⟩ (i7 n (by omega))
        (by simp) rfl rfl rfl ?_ ?_ ?_
      · simp [newEach, ptrK, Ptrs.set]
      · intro k _ hk
        cases k with
        | st d => rfl
        | mem d' l' m' =>
          simp only [newEach, ptrK, Ptrs.set]
          rw [if_neg]
          rintro ⟨rfl, rfl, rfl⟩; exact hk rfl
      · intro d l' m' h'
        have : m' ≠ m := by rintro rfl; rw [hm] at h'; cases h'
        simp only [newEach, Ptrs.set, this, and_false, if_false]
        exact i1.shared d l' m' h'
    · intro d l' m' h
      simp only [newEach, Ptrs.set]
      rw [if_neg (by rintro ⟨-, rfl, rfl⟩; simp at h)]
      exact i6 d l' m' h
    · intro d h
      simp only [newEach, Ptrs.set]
      rw [if_neg (by rintro ⟨rfl, -⟩; omega)]
      exact i7 d (by omega)
    · intro d h
      simp only [newEach, Ptrs.set]
      split
      · simp
      · rename_i hne
        refine i8 d ?_
        rcases Nat.lt_succ_iff_lt_or_eq.1 h with h | h
        · exact h
        · subst h; simp at hne

theorem dropEach_spec (hw : h0.WF) (hI : ResInv h0 s) (l : Nat) (hl : l < s.size) (n : Nat) (hnd : n ≤ s.doms) :
    ∃ s', dropEach s l .inputFile n = some s' ∧ ResInv h0 s' ∧ s'.doms = s.doms ∧ s'.size = s.size ∧
      s'.cap = s.cap ∧ s'.storage = s.storage ∧
      (∀ d l' m', l' ≠ l ∨ m' ≠ .inputFile → s'.ptr d l' m' = s.ptr d l' m') := by
  induction n with
  | zero => exact ⟨s, rfl, hI, rfl, rfl, rfl, rfl, fun _ _ _ _ => rfl⟩
  | succ n ih =>
    obtain ⟨s1, e1, i1, i2, i3, i4, i5, i6⟩ := ih (by omega)
    obtain ⟨h, f1, f2⟩ := i1.free hw (.mem n l .inputFile) ⟨by rw [i2]; omega, by rw [i3]; exact hl, .inr rfl⟩
      (by
        intro k hk
        cases k with
        | st d => simp [usesK] at hk
        | mem d l m => cases m <;> simp [usesK, Member.uses, Member.self] at hk)
    refine ⟨{ s1 with heap := h, ptr := s1.ptr.set n l .inputFile none }, ?_, ?_, i2, i3, i4, i5, ?_⟩
    · simp only [dropEach, e1, Option.bind_eq_bind, Option.bind_some]
      simp only [ptrK] at f1
      rw [f1]; rfl
    · refine f2 _ rfl rfl rfl ?_ ?_ ?_
      · simp [ptrK, Ptrs.set]
      · intro k _ hk
        cases k with
        | st d => rfl
        | mem d' l' m' =>
          simp only [ptrK, Ptrs.set]
          rw [if_neg]
          rintro ⟨rfl, rfl, rfl⟩; exact hk rfl
      · intro d l' m' h'
        have : m' ≠ .inputFile := by rintro rfl; cases h'
        simp only [Ptrs.set, this, and_false, if_false]
        exact i1.shared d l' m' h'
    · intro d l' m' h'
      simp only [Ptrs.set]
      rw [if_neg (by rintro ⟨-, rfl, rfl⟩; simp at h')]
      exact i6 d l' m' h'

theorem Stmt.exec_spec (hw : h0.WF) (hI : ResInv h0 s) {l : Nat} {st : Stmt} (hok : st.ok = true)
    (hl : l < s.size) (hn : ∀ m, st.target = some m → ∀ d, s.ptr d l m = none) :
    ∃ s', st.exec s l = some s' ∧ ResInv h0 s' ∧ ResStep s s' l st := by
  cases st with
  | each m =>
    simp [Stmt.ok] at hok
    obtain ⟨i1, i2, i3, i4, i5, i6, i7, i8⟩ :=
      newEach_spec hI l m hok.1.1 hok.1.2 hok.2 hl (hn m rfl) s.doms le_rfl
    refine ⟨_, rfl, i1, i2, i3, i4, i5, ?_, ?_⟩
    · intro d l' m' h
      refine i6 d l' m' (h.imp_right ?_)
      rintro ⟨-, h⟩ rfl; exact h rfl
    · rintro m' ⟨⟩ d hd
      exact i8 d hd
  | drop m =>
    simp [Stmt.ok] at hok
    subst hok
    obtain ⟨s', e, i1, i2, i3, i4, i5, i6⟩ := dropEach_spec hw hI l hl s.doms le_rfl
    refine ⟨s', e, i1, i2, i3, i4, i5, ?_, ?_⟩
    · intro d l' m' h
      refine i6 d l' m' (h.imp_right ?_)
      rintro ⟨h, -⟩ rfl; exact h rfl
    · rintro m' ⟨⟩
  | master m us self =>
    simp [Stmt.ok] at hok
    obtain ⟨⟨h1, h2⟩, h3⟩ := hok
    refine ⟨_, rfl, ?_, ⟨rfl, rfl, rfl, rfl, ?_, ?_⟩⟩
    · refine hI.alloc (.mem 0 l m) _ ⟨hI.doms, hl, .inl rfl⟩ (hn m rfl 0) ?_ rfl rfl rfl ?_ ?_ ?_
      · intro u hu
        rw [List.mem_append] at hu
        rcases hu with hu | hu
        · rw [List.mem_filterMap] at hu
          obtain ⟨m', q1, q2⟩ := hu
          exact ⟨.mem 0 l m', by simp [usesK, (h2 m' q1).1], ⟨hI.doms, hl, .inl rfl⟩, q2⟩
        · split at hu
          · rename_i hself
            refine ⟨.st 0, ?_, hI.doms, by simpa [ptrK] using hu⟩
            rcases h3 with h3 | h3
            · rw [h3] at hself; cases hself
            · simp [usesK, h3]
          · simp at hu
      · simp [ptrK]
      · intro k hk hne
        cases k with
        | st d => rfl
        | mem d' l' m' =>
          simp only [ptrK]
          rw [if_neg]
          rintro ⟨rfl, rfl⟩
          rcases hk.2.2 with h | h
          · subst h; exact hne rfl
          · rw [h1] at h; cases h
      · intro d l' m' h'
        simp only
        split
        · rfl
        · exact hI.shared d l' m' h'
    · intro d l' m' h
      simp only
      rw [if_neg]
      rintro ⟨rfl, rfl⟩
      rcases h with h | h
      · exact h rfl
      · exact h.2 rfl
    · rintro m' ⟨⟩ d _
      simp

/-- The members that a list of statements acquires. -/
def targets (sts : List Stmt) : List Member := sts.filterMap Stmt.target

theorem execAll_spec (hw : h0.WF) (l : Nat) (sts : List Stmt) :
    ∀ s, ResInv h0 s → l < s.size → (∀ st ∈ sts, st.ok = true) → (targets sts).Nodup →
      (∀ m ∈ targets sts, ∀ d, s.ptr d l m = none) →
    ∃ s', execAll s l sts = some s' ∧ ResInv h0 s' ∧ s'.doms = s.doms ∧ s'.size = s.size ∧ s'.cap = s.cap ∧
      s'.storage = s.storage ∧
      (∀ d l' m, l' ≠ l ∨ (m ∉ targets sts ∧ m ≠ .inputFile) → s'.ptr d l' m = s.ptr d l' m) ∧
      (∀ m ∈ targets sts, m ≠ .inputFile → ∀ d, d < s.doms → s'.ptr d l m ≠ none) := by
  induction sts with
  | nil =>
    intro s hI hl _ _ _
    exact ⟨s, rfl, hI, rfl, rfl, rfl, rfl, fun _ _ _ _ => rfl, by simp [targets]⟩
  | cons st sts ih =>
    intro s hI hl hok hnd hn
    have htc : targets (st :: sts) = st.target.toList ++ targets sts := by
      unfold targets
      cases h : st.target <;> simp [h]
    obtain ⟨s1, e1, I1, R1⟩ := Stmt.exec_spec hw hI (hok st (by simp)) hl
      (fun m hm => hn m (by rw [htc, hm]; simp))
    rw [htc, List.nodup_append] at hnd
    have hdrop : ∀ m, st = .drop m → m = .inputFile := by
      rintro m rfl
      have := hok (.drop m) (by simp)
      simpa [Stmt.ok] using this
    obtain ⟨s', e2, I2, d1, d2, d3, d4, d5, d6⟩ := ih s1 I1 (by rw [R1.size]; exact hl)
      (fun st h => hok st (by simp [h])) hnd.2.1 (by
        intro m hm d
        by_cases hi : st = .drop m
        · -- a dropped pointer is null as well, but dropped members are not acquired again
          subst hi
          have hd := hn m (by rw [htc]; simp [hm])
          have := hdrop m rfl
          subst this
          have hex : dropEach s l .inputFile s.doms = some s1 := e1
          have key : ∀ n (s2 : GridRes), dropEach s l .inputFile n = some s2 →
              ∀ d, s2.ptr d l .inputFile = none := by
            intro n
            induction n with
            | zero => intro s2 h d; simp [dropEach] at h; subst h; exact hd d
            | succ n ihn =>
              intro s2 h d
              simp only [dropEach, Option.bind_eq_bind, Option.bind_eq_some_iff] at h
              obtain ⟨s3, h3, hh, h4, h5⟩ := h
              cases h5
              simp only [Ptrs.set]
              split
              · rfl
              · exact ihn s3 h3 d
          exact key _ _ hex d
        · have hne : st.target ≠ some m := by
            intro ht
            have := hnd.2.2 m (by simp [ht]) m hm
            exact this rfl
          rw [R1.keep d l m (.inr ⟨hi, hne⟩)]
          exact hn m (by rw [htc]; simp [hm]) d)
    refine ⟨s', by simp [execAll, e1, e2], I2, by rw [d1, R1.doms], by rw [d2, R1.size], by rw [d3, R1.cap],
      by rw [d4, R1.storage], ?_, ?_⟩
    · intro d l' m h
      rw [d5 d l' m (h.imp_right fun h => ⟨fun hm => h.1 (by rw [htc]; simp [hm]), h.2⟩)]
      refine R1.keep d l' m (h.imp_right fun h => ⟨?_, ?_⟩)
      · intro hi; exact h.2 (hdrop m hi)
      · intro ht; exact h.1 (by rw [htc]; simp [ht])
    · intro m hm hne d hd
      rw [htc, List.mem_append] at hm
      rcases hm with hm | hm
      · have ht : st.target = some m := by simpa using hm
        have hnot : m ∉ targets sts := fun h => hnd.2.2 m hm m h rfl
        rw [d5 d l m (.inr ⟨hnot, hne⟩)]
        exact R1.set m ht d hd
      · exact d6 m hm hne d (by rw [R1.doms]; exact hd)

/-! ### The vector of levels -/

theorem Heap.freeAll_none (h : Heap) (L : List (Option Nat)) (hL : ∀ x ∈ L, x = none) : h.freeAll L = some h := by
  induction L with
  | nil => rfl
  | cons x L ih =>
    have := hL x (by simp)
    subst this
    simpa [Heap.freeAll, Heap.free] using ih (fun x hx => hL x (by simp [hx]))

theorem ResInv.extend (hI : ResInv h0 s) (hd : s'.doms = s.doms) (hz : s'.size = s.size + 1)
    (hh : s'.heap = s.heap) (hst : s'.storage = s.storage)
    (hp : ∀ d l m, l < s.size → s'.ptr d l m = s.ptr d l m) (hn : ∀ d m, s'.ptr d s.size m = none)
    (hs : ∀ d l m, m.masterOnly = true → s'.ptr d l m = s'.ptr 0 l m) : ResInv h0 s' := by
  have hO : ∀ k, Owned s k → Owned s' k ∧ ptrK s' k = ptrK s k := by
    intro k hk
    cases k with
    | st d => exact ⟨by simpa [Owned, hd] using hk, by simp [ptrK, hst]⟩
    | mem d l m => exact ⟨⟨by rw [hd]; exact hk.1, by rw [hz]; have := hk.2.1; omega, hk.2.2⟩, hp d l m hk.2.1⟩
  have hO' : ∀ k r, Owned s' k → ptrK s' k = some r → Owned s k := by
    intro k r hk hr
    cases k with
    | st d => simpa [Owned, hd] using hk
    | mem d l m =>
      refine ⟨by rw [← hd]; exact hk.1, ?_, hk.2.2⟩
      have := hk.2.1
      rw [hz] at this
      by_contra hge
      have : l = s.size := by omega
      subst this
      simp [ptrK, hn] at hr
  refine ⟨by rw [hd]; exact hI.doms, by rw [hh]; exact hI.next, by rw [hh]; exact hI.base,
    by rw [hh]; exact hI.fresh, ?_, ?_, ?_, hs⟩
  · intro k r h1 h2
    have h1' := hO' k r h1 h2
    rw [(hO k h1').2] at h2
    obtain ⟨a1, us, a2, a3⟩ := hI.own k r h1' h2
    refine ⟨a1, us, by rw [hh]; exact a2, ?_⟩
    intro u hu
    obtain ⟨k', b1, b2, b3⟩ := a3 u hu
    exact ⟨k', b1, (hO k' b2).1, by rw [(hO k' b2).2]; exact b3⟩
  · intro k k' r h1 h1' h2 h2'
    have q := hO' k r h1 h2
    have q' := hO' k' r h1' h2'
    rw [(hO k q).2] at h2
    rw [(hO k' q').2] at h2'
    exact hI.inj k k' r q q' h2 h2'
  · intro r h1 h2
    rw [hh] at h2
    obtain ⟨k, b1, b2⟩ := hI.cover r h1 h2
    exact ⟨k, (hO k b1).1, by rw [(hO k b1).2]; exact b2⟩

theorem newStorage_spec (hI : ResInv h0 s) (hn : ∀ d, s.storage d = none) (n : Nat) (hnd : n ≤ s.doms) :
    ResInv h0 (newStorage s n) ∧ (newStorage s n).doms = s.doms ∧ (newStorage s n).size = s.size ∧
      (newStorage s n).ptr = s.ptr ∧ ∀ d, n ≤ d → (newStorage s n).storage d = none := by
  induction n with
  | zero => exact ⟨hI, rfl, rfl, rfl, fun d _ => hn d⟩
  | succ n ih =>
    obtain ⟨i1, i2, i3, i4, i5⟩ := ih (by omega)
    refine ⟨?_, i2, i3, i4, ?_⟩
    · refine i1.alloc (.st n) [] (by simp only [Owned]; omega) (i5 n le_rfl) (by simp) rfl rfl rfl ?_ ?_ i1.shared
      · simp [newStorage, ptrK]
      · intro k _ hk
        cases k with
        | st d =>
          simp only [newStorage, ptrK]
          rw [if_neg]
          rintro rfl; exact hk rfl
        | mem d l m => rfl
    · intro d hd
      simp only [newStorage]
      rw [if_neg (by omega)]
      exact i5 d (by omega)

theorem addLevels_spec (hI : ResInv h0 s) (h0s : s.size = 0) (hn : ∀ d l m, s.ptr d l m = none) (n : Nat) :
    ResInv h0 { addLevels s 0 n with size := n } ∧ (addLevels s 0 n).doms = s.doms ∧
      (addLevels s 0 n).storage = s.storage ∧
      (∀ d l m, m ≠ .numaComm → (addLevels s 0 n).ptr d l m = none) := by
  induction n with
  | zero =>
    refine ⟨?_, rfl, rfl, fun d l m _ => hn d l m⟩
    have : { addLevels s 0 0 with size := 0 } = s := by
      simp only [addLevels]
      cases s; simp at h0s; subst h0s; rfl
    rw [this]; exact hI
  | succ n ih =>
    obtain ⟨i1, i2, i3, i4⟩ := ih
    refine ⟨?_, i2, i3, ?_⟩
    · have hY : ResInv h0 { addLevels s 0 n with
          size := n + 1
          ptr := fun d l m => if l = n then none else (addLevels s 0 n).ptr d l m } := by
        refine i1.extend rfl rfl rfl rfl ?_ ?_ ?_
        · intro d l m hl
          have : l ≠ n := by simp only at hl; omega
          simp [this]
        · intro d m; simp
        · intro d l m hm
          simp only
          split
          · rfl
          · exact i1.shared d l m hm
      refine hY.alloc (.mem 0 n .numaComm) [] ⟨hY.doms, by simp, .inl rfl⟩ (by simp [ptrK]) (by simp) rfl rfl rfl ?_ ?_ ?_
      · simp [addLevels, ptrK]
      · intro k hk hne
        cases k with
        | st d => rfl
        | mem d l m =>
          simp only [addLevels, ptrK, Nat.zero_add]
          by_cases hl : l = n
          · rw [if_pos hl, if_pos hl, if_neg]
            rintro rfl
            rcases hk.2.2 with h | h
            · subst h; subst hl; exact hne rfl
            · cases h
          · rw [if_neg hl, if_neg hl]
      · intro d l m hm
        simp only [addLevels]
        split
        · rfl
        · exact i1.shared d l m hm
    · intro d l m hm
      simp only [addLevels]
      split
      · rfl
      · exact i4 d l m hm

/-- The heap with one number skipped: the temporary object of `resize` had it. -/
def Heap.skip (h : Heap) : Heap := { h with next := h.next + 1 }

theorem Heap.WF.skip {h : Heap} (hw : h.WF) : h.skip.WF := by
  refine ⟨fun i hi => hw.fresh i (by simp only [Heap.skip] at hi; omega), ?_⟩
  intro i k us hi u hu
  have := hw.uses i k us hi u hu
  simp only [Heap.skip]; omega

theorem ResInv.constructed {h : Heap} (hw : h.WF) {doms : Nat} (hd : 0 < doms) :
    ResInv h (GridRes.constructed h doms) := by
  refine ⟨hd, le_rfl, fun _ _ => rfl, hw.fresh, ?_, ?_, ?_, fun _ _ _ _ => rfl⟩
  · intro k r _ h; cases k <;> simp [ptrK, GridRes.constructed] at h
  · intro k k' r _ _ h; cases k <;> simp [ptrK, GridRes.constructed] at h
  · intro r h1 h2; exact absurd (hw.fresh r h1) h2

/-- The first enlargement of the vector. -/
theorem resize_spec (hw : h0.WF) (t : ContainerType) {doms : Nat} (hd : 0 < doms) (n : Nat) (hn : 0 < n) :
    ∃ s, (GridRes.constructed h0 doms).resize t n = some s ∧ ResInv h0.skip s ∧ s.doms = doms ∧ s.size = n ∧
      ∀ d l m, m ≠ .numaComm → s.ptr d l m = none := by
  let hb := h0.alloc (.member .numaComm) []
  have hbw : hb.WF := by
    constructor
    · intro i hi
      simp only [hb, Heap.alloc] at hi ⊢
      rw [if_neg (by omega)]; exact hw.fresh i (by omega)
    · intro i k us hi u hu
      simp only [hb, Heap.alloc] at hi ⊢
      split at hi
      · cases hi; cases hu
      · have := hw.uses i k us hi u hu; omega
  have hI := ResInv.constructed hbw hd
  obtain ⟨i1, i2, i3, i4, -⟩ := newStorage_spec hI (fun _ => rfl) doms le_rfl
  obtain ⟨j1, j2, j3, j4⟩ := addLevels_spec i1 (by rw [i3]; rfl) (by rw [i4]; intros; rfl) n
  set A := addLevels (newStorage (GridRes.constructed hb doms) doms) 0 n with hA
  have hfree : A.heap.free (some h0.next) = some { A.heap with live := fun i => if i = h0.next then none else A.heap.live i } := by
    have hl : A.heap.live h0.next = some (.member .numaComm, []) := by
      rw [j1.base h0.next (by simp [hb, Heap.alloc])]
      simp [hb, Heap.alloc]
    have hu : A.heap.inUse h0.next = false := by
      rw [Heap.inUse_false j1.fresh]
      intro i k us hi hr
      by_cases hlt : i < hb.next
      · rw [j1.base i hlt] at hi
        simp only [hb, Heap.alloc] at hi
        split at hi
        · cases hi; cases hr
        · have := hw.uses i k us hi _ hr; omega
      · obtain ⟨k1, d1, d2⟩ := j1.cover i (by omega) (by rw [hi]; simp)
        obtain ⟨-, us', d3, d4⟩ := j1.own k1 i d1 d2
        rw [hi] at d3; cases d3
        obtain ⟨k', -, e2, e3⟩ := d4 _ hr
        have := (j1.own k' _ e2 e3).1
        simp only [hb, Heap.alloc] at this; omega
    simp [Heap.free, hl, hu]
  refine ⟨{ A with
      heap := { A.heap with live := fun i => if i = h0.next then none else A.heap.live i }
      size := n
      cap := max (2 * 0) n }, ?_, ?_, ?_, rfl, j4⟩
  · have hnc : ¬ n ≤ 0 := by omega
    have hfa : A.heap.freeAll ((List.range doms).flatMap (containerPtrs t (GridRes.constructed hb doms)))
        = some A.heap := by
      apply Heap.freeAll_none
      intro x hx
      simp [containerPtrs, GridRes.constructed] at hx
      exact hx.2
    simp only [GridRes.resize]
    have e1 : ({ GridRes.constructed h0 doms with
        heap := (GridRes.constructed h0 doms).heap.alloc (.member .numaComm) [] } : GridRes)
        = GridRes.constructed hb doms := rfl
    rw [e1]
    have e2 : (GridRes.constructed h0 doms).cap = 0 := rfl
    have e3 : (GridRes.constructed h0 doms).size = 0 := rfl
    have e4 : (GridRes.constructed h0 doms).doms = doms := rfl
    have e5 : (GridRes.constructed h0 doms).heap = h0 := rfl
    simp only [e2, e3, e4, e5, if_neg hnc, copyLevels, Nat.sub_zero]
    rw [← hA, hfa]
    simp only [Option.bind_eq_bind, Option.bind_some, Option.pure_def]
    rw [hfree]; rfl
  · have hge : ∀ k r, Owned { A with size := n } k → ptrK { A with size := n } k = some r → r ≠ h0.next := by
      intro k r h1 h2 hr
      have := (j1.own k r h1 h2).1
      simp only [hb, Heap.alloc] at this; omega
    refine ⟨j1.doms, j1.next, ?_, ?_, ?_, j1.inj, ?_, j1.shared⟩
    · intro i hi
      simp only [Heap.skip] at hi ⊢
      split
      · rename_i h; rw [h, hw.fresh _ le_rfl]
      · rw [j1.base i (by simpa [hb, Heap.alloc] using hi)]
        simp only [hb, Heap.alloc]
        rw [if_neg (by assumption)]
    · intro i hi
      simp only
      split
      · rfl
      · exact j1.fresh i hi
    · intro k r h1 h2
      obtain ⟨a1, us, a2, a3⟩ := j1.own k r h1 h2
      refine ⟨a1, us, ?_, a3⟩
      simp only
      rw [if_neg (hge k r h1 h2)]; exact a2
    · intro r h1 h2
      simp only [Heap.skip] at h1
      simp only at h2
      rw [if_neg (by omega)] at h2
      exact j1.cover r (by simpa [hb, Heap.alloc] using h1) h2
  · simp only; rw [j2, i2]; rfl

/-! ### Closing -/

/-- Releasing the resources of a list of places, in an order in which no resource is used by a later one. -/
theorem freeAll_keys (hw : h0.WF) (hI : ResInv h0 s) (L : List Key) :
    ∀ (D : List Key) (h : Heap), h.next = s.heap.next →
      (∀ i, h.live i = if ∃ k ∈ D, ptrK s k = some i then none else s.heap.live i) →
      (∀ k ∈ D, Owned s k) → (∀ k ∈ L, Owned s k) → L.Nodup → (∀ k ∈ L, k ∉ D) →
      L.Pairwise (fun a b => a ∉ usesK b) → (∀ k ∈ L, k ∉ usesK k) →
      (∀ k, Owned s k → ptrK s k ≠ none → k ∉ D → k ∉ L → ∀ k' ∈ L, k' ∉ usesK k) →
    ∃ h', h.freeAll (L.map (ptrK s)) = some h' ∧
      ∀ i, h'.live i = if ∃ k ∈ D ++ L, ptrK s k = some i then none else s.heap.live i := by
  induction L with
  | nil =>
    intro D h _ hl _ _ _ _ _ _ _
    exact ⟨h, rfl, by simpa using hl⟩
  | cons k0 L ih =>
    intro D h hnx hl hD hL hnd hnD hpw hirr hout
    rw [List.nodup_cons] at hnd
    rw [List.pairwise_cons] at hpw
    have hfr : ∀ i, h.next ≤ i → h.live i = none := by
      intro i hi
      rw [hl]; split
      · rfl
      · exact hI.fresh i (by omega)
    have hk0 := hL k0 (by simp)
    have key : ∃ h1, h.free (ptrK s k0) = some h1 ∧ h1.next = s.heap.next ∧
        ∀ i, h1.live i = if ∃ k ∈ k0 :: D, ptrK s k = some i then none else s.heap.live i := by
      cases hp : ptrK s k0 with
      | none => exact ⟨h, rfl, hnx, by intro i; rw [hl]; simp [hp]⟩
      | some r =>
        obtain ⟨-, us, c2, -⟩ := hI.own k0 r hk0 hp
        have hlr : h.live r = some (kindK k0, us) := by
          rw [hl, if_neg, c2]
          rintro ⟨k, q1, q2⟩
          have := hI.inj k k0 r (hD k q1) hk0 q2 hp
          subst this
          exact hnD k (by simp) q1
        have hu : h.inUse r = false := by
          rw [Heap.inUse_false hfr]
          intro i k us' hi hr
          rw [hl] at hi
          split at hi
          · cases hi
          rename_i hnotD
          by_cases hlt : i < h0.next
          · rw [hI.base i hlt] at hi
            have := hw.uses i k us' hi r hr
            have := (hI.own k0 r hk0 hp).1
            omega
          · obtain ⟨ki, d1, d2⟩ := hI.cover i (by omega) (by rw [hi]; simp)
            obtain ⟨-, us'', d3, d4⟩ := hI.own ki i d1 d2
            rw [hi] at d3; cases d3
            obtain ⟨k', e1, e2, e3⟩ := d4 r hr
            have := hI.inj k' k0 r e2 hk0 e3 hp
            subst this
            have hkD : ki ∉ D := fun h => hnotD ⟨ki, h, d2⟩
            by_cases hkL : ki ∈ k' :: L
            · rw [List.mem_cons] at hkL
              rcases hkL with hkL | hkL
              · subst hkL; exact hirr ki (by simp) e1
              · exact hpw.1 ki hkL e1
            · exact hout ki d1 (by rw [d2]; simp) hkD hkL k' (by simp) e1
        refine ⟨{ h with live := fun i => if i = r then none else h.live i }, by simp [Heap.free, hlr, hu], hnx, ?_⟩
        intro i
        simp only [hl]
        by_cases hir : i = r
        · subst hir
          rw [if_pos rfl, if_pos ⟨k0, by simp, hp⟩]
        · rw [if_neg hir]
          have : (∃ k ∈ k0 :: D, ptrK s k = some i) ↔ ∃ k ∈ D, ptrK s k = some i := by
            simp only [List.mem_cons, exists_eq_or_imp, hp, Option.some.injEq]
            constructor
            · rintro (h | h)
              · exact absurd h.symm hir
              · exact h
            · exact .inr
          simp only [this]
    obtain ⟨h1, f1, f2, f3⟩ := key
    obtain ⟨h', g1, g2⟩ := ih (k0 :: D) h1 f2 f3
      (by intro k hk; rw [List.mem_cons] at hk; rcases hk with rfl | hk; exacts [hk0, hD k hk])
      (fun k hk => hL k (by simp [hk])) hnd.2
      (by
        intro k hk hk'
        rw [List.mem_cons] at hk'
        rcases hk' with rfl | hk'
        · exact hnd.1 hk
        · exact hnD k (by simp [hk]) hk')
      hpw.2 (fun k hk => hirr k (by simp [hk]))
      (by
        intro k h1 h2 h3 h4 k' hk'
        rw [List.mem_cons, not_or] at h3
        exact hout k h1 h2 h3.2 (by rw [List.mem_cons, not_or]; exact ⟨h3.1, h4⟩) k' (by simp [hk']))
    refine ⟨h', by simp [Heap.freeAll, f1, g1], ?_⟩
    intro i
    rw [g2]
    have : (∃ k ∈ k0 :: D ++ L, ptrK s k = some i) ↔ ∃ k ∈ D ++ k0 :: L, ptrK s k = some i := by
      constructor <;> rintro ⟨k, q1, q2⟩ <;> exact ⟨k, by simp at q1 ⊢; tauto, q2⟩
    simp only [this]

/-- The places in the order in which `close` releases them. -/
def levelKeys (t : ContainerType) (p : Ptrs) (d l : Nat) : List Key :=
  ((dtorMembers t (p d l)).filter fun m => d = 0 ∨ m.masterOnly = false).map (.mem d l)

def closeKeys (t : ContainerType) (s : GridRes) : List Key :=
  (List.range s.doms).flatMap fun d => (List.range s.size).flatMap (levelKeys t s.ptr d) ++ [.st d]

theorem close_eq (t : ContainerType) (s : GridRes) :
    s.close t = s.heap.freeAll ((closeKeys t s).map (ptrK s)) := by
  unfold GridRes.close closeKeys
  congr 1
  rw [List.map_flatMap]
  congr 1
  funext d
  simp only [containerPtrs, List.map_append, List.map_flatMap, List.map_cons, List.map_nil, ptrK]
  congr 2
  funext l
  simp only [dtorPtrs, levelKeys, List.map_map]
  rfl

/-- The destructors of a level release every member once, and no member before one that uses it. -/
theorem dtorMembers_order (t : ContainerType) (p : Member → Option Nat) :
    (dtorMembers t p).Nodup ∧ (dtorMembers t p).Pairwise (fun a b => a ∉ b.uses) := by
  unfold dtorMembers mpiFullDtor mpiCacheDtor
  generalize (p .window).isSome = a
  generalize (p .receiver).isSome = b
  generalize (p .infoRecv).isSome = c
  revert a b c
  cases t <;> decide

theorem Member.not_uses_self (m : Member) : m ∉ m.uses := by cases m <;> decide

theorem closeKeys_owned {t : ContainerType} {k : Key} (hk : k ∈ closeKeys t s) : Owned s k := by
  simp only [closeKeys, List.mem_flatMap, List.mem_range, List.mem_append, List.mem_singleton, levelKeys,
    List.mem_map, List.mem_filter, decide_eq_true_eq] at hk
  obtain ⟨d, hd, ⟨l, hl, m, ⟨-, hm⟩, rfl⟩ | rfl⟩ := hk
  · exact ⟨hd, hl, hm⟩
  · exact hd

theorem mem_closeKeys {t : ContainerType} {d l : Nat} {m : Member} (ho : Owned s (.mem d l m))
    (hm : m ∈ dtorMembers t (s.ptr d l)) : Key.mem d l m ∈ closeKeys t s := by
  simp only [closeKeys, List.mem_flatMap, List.mem_range, List.mem_append, List.mem_singleton, levelKeys,
    List.mem_map, List.mem_filter, decide_eq_true_eq]
  exact ⟨d, ho.1, .inl ⟨l, ho.2.1, m, ⟨hm, ho.2.2⟩, rfl⟩⟩

theorem not_uses_of_dom {d l : Nat} {m : Member} {k : Key} (hd : d ≠ 0) : Key.mem d l m ∉ usesK k := by
  cases k with
  | st d => simp [usesK]
  | mem d' l' m' =>
    simp only [usesK, List.mem_append, List.mem_map, not_or, not_exists, not_and]
    constructor
    · intro m1 _ h
      cases h; exact hd rfl
    · split <;> simp

theorem not_uses_of_level {d d' l l' : Nat} {m m' : Member} (hl : l ≠ l') : Key.mem d l m ∉ usesK (.mem d' l' m') := by
  simp only [usesK, List.mem_append, List.mem_map, not_or, not_exists, not_and]
  constructor
  · intro m1 _ h
    cases h; exact hl rfl
  · split <;> simp

theorem not_uses_of_member {d d' l l' : Nat} {m m' : Member} (h : m ∉ m'.uses) : Key.mem d l m ∉ usesK (.mem d' l' m') := by
  simp only [usesK, List.mem_append, List.mem_map, not_or, not_exists, not_and]
  constructor
  · intro m1 h1 h2
    cases h2; exact h h1
  · split <;> simp

theorem Member.self_masterOnly (m : Member) (h : m.self = true) : m.masterOnly = true := by
  cases m <;> first | rfl | cases h

theorem levelKeys_mem {t : ContainerType} {p : Ptrs} {d l : Nat} {k : Key} (h : k ∈ levelKeys t p d l) :
    ∃ m, k = .mem d l m ∧ m ∈ dtorMembers t (p d l) ∧ (d = 0 ∨ m.masterOnly = false) := by
  simp only [levelKeys, List.mem_map, List.mem_filter, decide_eq_true_eq] at h
  obtain ⟨m, ⟨h1, h2⟩, rfl⟩ := h
  exact ⟨m, rfl, h1, h2⟩

/-- The order of the release is safe. -/
theorem closeKeys_order (t : ContainerType) (s : GridRes) :
    (closeKeys t s).Nodup ∧ (closeKeys t s).Pairwise (fun a b => a ∉ usesK b) := by
  have hinj : ∀ d l, Function.Injective (Key.mem d l) := by
    intro d l a b h; cases h; rfl
  constructor
  · unfold closeKeys
    rw [List.nodup_flatMap]
    constructor
    · intro d _
      rw [List.nodup_append]
      refine ⟨?_, by simp, ?_⟩
      · rw [List.nodup_flatMap]
        constructor
        · intro l _
          exact List.Nodup.map (hinj d l) ((dtorMembers_order t _).1.filter _)
        · refine List.Pairwise.imp ?_ (List.nodup_range (n := s.size))
          intro l l' hne x hx hx'
          obtain ⟨m, rfl, -⟩ := levelKeys_mem hx
          obtain ⟨m', h, -⟩ := levelKeys_mem hx'
          cases h; exact hne rfl
      · intro x hx y hy
        rw [List.mem_singleton] at hy
        subst hy
        rintro rfl
        rw [List.mem_flatMap] at hx
        obtain ⟨l, -, hx⟩ := hx
        obtain ⟨m, h, -⟩ := levelKeys_mem hx
        cases h
    · refine List.Pairwise.imp ?_ (List.nodup_range (n := s.doms))
      intro d d' hne x hx hx'
      simp only [List.mem_append, List.mem_flatMap, List.mem_singleton] at hx hx'
      rcases hx with ⟨l, -, hx⟩ | rfl <;> rcases hx' with ⟨l', -, hx'⟩ | hx'
      · obtain ⟨m, rfl, -⟩ := levelKeys_mem hx
        obtain ⟨m', h, -⟩ := levelKeys_mem hx'
        cases h; exact hne rfl
      · obtain ⟨m, rfl, -⟩ := levelKeys_mem hx
        cases hx'
      · obtain ⟨m', h, -⟩ := levelKeys_mem hx'
        cases h
      · cases hx'; exact hne rfl
  · unfold closeKeys
    rw [List.pairwise_flatMap]
    constructor
    · intro d _
      rw [List.pairwise_append]
      refine ⟨?_, by simp, ?_⟩
      · rw [List.pairwise_flatMap]
        constructor
        · intro l _
          unfold levelKeys
          rw [List.pairwise_map]
          refine List.Pairwise.imp ?_ ((dtorMembers_order t _).2.filter _)
          intro a b h
          exact not_uses_of_member h
        · refine List.Pairwise.imp ?_ (List.nodup_range (n := s.size))
          intro l l' hne x hx y hy
          obtain ⟨m, rfl, -⟩ := levelKeys_mem hx
          obtain ⟨m', rfl, -⟩ := levelKeys_mem hy
          exact not_uses_of_level hne
      · intro x _ y hy
        rw [List.mem_singleton] at hy
        subst hy
        simp [usesK]
    · refine List.Pairwise.imp ?_ (List.pairwise_lt_range (n := s.doms))
      intro d d' hlt x hx y hy
      simp only [List.mem_append, List.mem_flatMap, List.mem_singleton] at hx hy
      rcases hy with ⟨l', -, hy⟩ | rfl
      · obtain ⟨m', rfl, -, hm'⟩ := levelKeys_mem hy
        have hmo : m'.masterOnly = false := hm'.resolve_left (by omega)
        have hself : m'.self = false := by
          cases h : m'.self
          · rfl
          · rw [m'.self_masterOnly h] at hmo; cases hmo
        have hus : m'.uses = [] := by cases m' <;> first | rfl | cases hmo
        simp [usesK, hself, hus]
      · simp [usesK]

/-! ### All levels -/

theorem openStmts_ok (t : ContainerType) :
    (∀ st ∈ openStmts t, st.ok = true) ∧ (targets (openStmts t)).Nodup ∧ .numaComm ∉ targets (openStmts t) := by
  cases t <;> decide

/-- How far the level was opened: after `k` statements. -/
def OpenedTo (t : ContainerType) (s : GridRes) (l k : Nat) : Prop :=
  ∀ d, d < s.doms → ∀ m, m ≠ .inputFile → m ≠ .numaComm →
    (s.ptr d l m ≠ none ↔ m ∈ targets ((openStmts t).take k))

theorem execAll_opened (hw : h0.WF) (t : ContainerType) (hI : ResInv h0 s) {l k : Nat} (hl : l < s.size)
    (hn : ∀ d m, m ≠ .numaComm → s.ptr d l m = none) :
    ∃ s', execAll s l ((openStmts t).take k) = some s' ∧ ResInv h0 s' ∧ s'.doms = s.doms ∧ s'.size = s.size ∧
      (∀ d l' m, l' ≠ l → s'.ptr d l' m = s.ptr d l' m) ∧ OpenedTo t s' l k := by
  obtain ⟨o1, o2, o3⟩ := openStmts_ok t
  have hsub : List.Sublist (targets ((openStmts t).take k)) (targets (openStmts t)) :=
    (List.take_sublist k _).filterMap _
  obtain ⟨s', e, i1, i2, i3, -, -, i6, i7⟩ := execAll_spec hw l ((openStmts t).take k) s hI hl
    (fun st h => o1 st (List.mem_of_mem_take h)) (o2.sublist hsub)
    (fun m hm d => hn d m (by rintro rfl; exact o3 (hsub.subset hm)))
  refine ⟨s', e, i1, i2, i3, fun d l' m h => i6 d l' m (.inl h), ?_⟩
  intro d hd m h1 h2
  rw [i2] at hd
  constructor
  · intro h
    by_contra hm
    rw [i6 d l m (.inr ⟨hm, h1⟩), hn d m h2] at h
    exact h rfl
  · intro h
    exact i7 m h h1 d hd

theorem openAll_spec (hw : h0.WF) (t : ContainerType) (ops : List (Nat × Nat)) :
    ∀ s, ResInv h0 s → (ops.map Prod.fst).Nodup → (∀ o ∈ ops, o.1 < s.size) →
      (∀ o ∈ ops, ∀ d m, m ≠ .numaComm → s.ptr d o.1 m = none) →
    ∃ s', s.openAll t ops = some s' ∧ ResInv h0 s' ∧ s'.doms = s.doms ∧ s'.size = s.size ∧
      (∀ l, l ∉ ops.map Prod.fst → ∀ d m, s'.ptr d l m = s.ptr d l m) ∧
      (∀ o ∈ ops, OpenedTo t s' o.1 o.2) := by
  induction ops with
  | nil => intro s hI _ _ _; exact ⟨s, rfl, hI, rfl, rfl, fun _ _ _ _ => rfl, by simp⟩
  | cons o ops ih =>
    obtain ⟨l, k⟩ := o
    intro s hI hnd hlt hn
    rw [List.map_cons, List.nodup_cons] at hnd
    have hl : l < s.size := hlt (l, k) (by simp)
    obtain ⟨s1, e1, a1, a2, a3, a4, a5⟩ := execAll_opened hw t hI (k := k) hl (hn (l, k) (by simp))
    have hne : ∀ o ∈ ops, o.1 ≠ l := by
      intro o ho h
      exact hnd.1 (List.mem_map.2 ⟨o, ho, h⟩)
    obtain ⟨s', e2, b1, b2, b3, b4, b5⟩ := ih s1 a1 hnd.2 (by intro o ho; rw [a3]; exact hlt o (by simp [ho]))
      (by intro o ho d m hm; rw [a4 d o.1 m (hne o ho)]; exact hn o (by simp [ho]) d m hm)
    refine ⟨s', ?_, b1, by rw [b2, a2], by rw [b3, a3], ?_, ?_⟩
    · simp only [GridRes.openAll, GridRes.openLevel, if_neg (Nat.not_le.2 hl)]
      simp [e1, e2]
    · intro l' h' d m
      simp only [List.map_cons, List.mem_cons, not_or] at h'
      rw [b4 l' h'.2 d m, a4 d l' m h'.1]
    · intro o ho
      rw [List.mem_cons] at ho
      rcases ho with rfl | ho
      · intro d hd m h1 h2
        rw [b4 l hnd.1 d m]
        exact a5 d (by rw [← b2]; exact hd) m h1 h2
      · exact b5 o ho

theorem GridRes.openAll_cons (t : ContainerType) (s : GridRes) (l k : Nat) (ops : List (Nat × Nat)) :
    s.openAll t ((l, k) :: ops) = (s.openLevel t l k).bind fun s => s.openAll t ops := rfl

/-- The finest level first, then other levels: every level is opened or untouched. -/
theorem openAll_top (hw : h0.WF) (t : ContainerType) {doms : Nat} (hd : 0 < doms) (top k : Nat)
    (ops : List (Nat × Nat)) (hnd : (top :: ops.map Prod.fst).Nodup) (hle : ∀ o ∈ ops, o.1 ≤ top) :
    ∃ s, (GridRes.constructed h0 doms).openAll t ((top, k) :: ops) = some s ∧ ResInv h0.skip s ∧
      s.doms = doms ∧ s.size = top + 1 ∧
      ∀ l, l ≤ top → (∃ k', (l, k') ∈ (top, k) :: ops ∧ OpenedTo t s l k') ∨
        (OpenedTo t s l 0 ∧ ∀ d, s.ptr d l .inputFile = none) := by
  obtain ⟨s0, e0, r1, r2, r3, r4⟩ := resize_spec hw t hd (top + 1) (by omega)
  obtain ⟨s, e, i1, i2, i3, i4, i5⟩ := openAll_spec hw.skip t ((top, k) :: ops) s0 r1 (by simpa using hnd)
    (by
      intro o ho
      rw [r3]
      rw [List.mem_cons] at ho
      rcases ho with rfl | ho
      · simp
      · have := hle o ho; omega)
    (fun o _ d m hm => r4 d o.1 m hm)
  refine ⟨s, ?_, i1, by rw [i2, r2], by rw [i3, r3], ?_⟩
  · rw [GridRes.openAll_cons] at e ⊢
    rw [← e]
    congr 1
    unfold GridRes.openLevel
    rw [if_pos (by simp [GridRes.constructed]), if_neg (by omega), e0]
    rfl
  · intro l _
    by_cases h : l ∈ ((top, k) :: ops).map Prod.fst
    · rw [List.mem_map] at h
      obtain ⟨⟨l', k'⟩, h1, rfl⟩ := h
      exact .inl ⟨k', h1, i5 _ h1⟩
    · right
      constructor
      · intro d _ m _ h2
        rw [i4 l h d m, r4 d l m h2]
        simp [targets]
      · intro d
        rw [i4 l h d _]
        exact r4 d l _ (by simp)

/-- The members whose destructors are skipped when the guard of the destructor fails. -/
def Member.leakable (t : ContainerType) (m : Member) : Bool :=
  (t.kind = .full && t.mpi = .window && m = .winMutex) ||
  (t.kind = .cache && t.mpi = .thread && (m = .managers || m = .blockLocks))

/-- The destructors with the guards as Booleans. -/
theorem dtor_covers (t : ContainerType) (k : Nat) (p : Member → Option Nat) (m : Member)
    (hp : ∀ m, m ≠ .inputFile → m ≠ .numaComm → (p m ≠ none ↔ m ∈ targets ((openStmts t).take k)))
    (hm : p m ≠ none) :
    m ∈ dtorMembers t p ∨ (m.leakable t = true ∧ 0 < k ∧ k < (openStmts t).length) := by
  by_cases h1 : m = .inputFile
  · subst h1; left; simp [dtorMembers]
  by_cases h2 : m = .numaComm
  · subst h2; left; simp [dtorMembers]
  have hm' := (hp m h1 h2).1 hm
  have g1 : (p .window).isSome = decide (.window ∈ targets ((openStmts t).take k)) := by
    rw [Bool.eq_iff_iff, decide_eq_true_eq, ← hp .window (by simp) (by simp), Option.isSome_iff_ne_none]
  have g2 : (p .receiver).isSome = decide (.receiver ∈ targets ((openStmts t).take k)) := by
    rw [Bool.eq_iff_iff, decide_eq_true_eq, ← hp .receiver (by simp) (by simp), Option.isSome_iff_ne_none]
  have g3 : (p .infoRecv).isSome = decide (.infoRecv ∈ targets ((openStmts t).take k)) := by
    rw [Bool.eq_iff_iff, decide_eq_true_eq, ← hp .infoRecv (by simp) (by simp), Option.isSome_iff_ne_none]
  unfold dtorMembers mpiFullDtor mpiCacheDtor
  rw [g1, g2, g3]
  clear g1 g2 g3 hp hm
  have hk : ∃ j, j ≤ (openStmts t).length ∧ (openStmts t).take k = (openStmts t).take j ∧
      (0 < j → j < (openStmts t).length → 0 < k ∧ k < (openStmts t).length) := by
    by_cases h : k ≤ (openStmts t).length
    · exact ⟨k, h, rfl, fun a b => ⟨a, b⟩⟩
    · exact ⟨_, le_rfl, by rw [List.take_of_length_le (by omega), List.take_of_length_le le_rfl], fun _ h => by omega⟩
  obtain ⟨j, hj, hjk, hj2⟩ := hk
  rw [hjk] at hm' ⊢
  suffices H : ∀ j ∈ List.range ((openStmts t).length + 1), ∀ m ∈ targets ((openStmts t).take j),
      (m ∈ (match t.kind with
        | .passThrough => [Member.buf]
        | .full => (if t = .FULL then [] else
            .ownCache :: numaFullDtor t.numa ++ (match t.mpi with
              | .no => []
              | .window => if (decide (.window ∈ targets ((openStmts t).take j))) = true then [.winMutex, .window] else []
              | .thread => if (decide (.receiver ∈ targets ((openStmts t).take j))) = true then [.receiver, .sendRecvMutex] else []) ++ managerDtor) ++ [.data]
        | .cache => numaCacheDtor t.numa ++ (match t.mpi with
              | .no => []
              | .window => [.mpiMutex, .dictWinMutex, .cacheWinMutex, .dictWin, .cacheWin, .dictionary]
              | .thread => (if (decide (.infoRecv ∈ targets ((openStmts t).take j))) = true then [.managers, .infoRecv, .transferRecv, .addRecv, .deleteRecv,
                .blockLocks, .infoMutex, .transferMutex] else []) ++ [.dictionary]) ++ .data :: managerDtor) ++
        [.inputFile, .numaComm]) ∨ (m.leakable t = true ∧ 0 < j ∧ j < (openStmts t).length) by
    rcases H j (List.mem_range.2 (by omega)) m hm' with h | ⟨h, h3, h4⟩
    · exact .inl h
    · exact .inr ⟨h, hj2 h3 h4⟩
  clear hj2 hjk hm' hj h1 h2
  cases t <;> decide

theorem Member.leakable_uses {t : ContainerType} {m : Member} (h : m.leakable t = true) : m.uses = [] ∧ m.self = false := by
  cases m <;> simp [Member.leakable, Member.uses, Member.self] at h ⊢

/-- Closing a grid whose levels were opened to some point: everything is released but the members above. -/
theorem close_spec (hw : h0.WF) (t : ContainerType) (hI : ResInv h0 s)
    (ho : ∀ l, l < s.size → ∃ k, OpenedTo t s l k) :
    ∃ h, s.close t = some h ∧ ∀ i, h.live i = h0.live i ∨
      (h0.live i = none ∧ ∃ m us, h.live i = some (.member m, us) ∧ m.leakable t = true ∧
        ∃ l, l < s.size ∧ ∀ k, OpenedTo t s l k → 0 < k ∧ k < (openStmts t).length) := by
  obtain ⟨n1, n2⟩ := closeKeys_order t s
  -- a key with a resource is in the list or can leak
  have hcov : ∀ k, Owned s k → ptrK s k ≠ none → k ∈ closeKeys t s ∨
      ∃ d l m, k = .mem d l m ∧ m.leakable t = true ∧ l < s.size ∧
        ∀ k, OpenedTo t s l k → 0 < k ∧ k < (openStmts t).length := by
    intro k hk hp
    cases k with
    | st d =>
      left
      simp only [closeKeys, List.mem_flatMap, List.mem_range, List.mem_append, List.mem_singleton]
      exact ⟨d, hk, .inr rfl⟩
    | mem d l m =>
      by_cases hin : m ∈ dtorMembers t (s.ptr d l)
      · exact .inl (mem_closeKeys hk hin)
      · right
        obtain ⟨k, hk'⟩ := ho l hk.2.1
        refine ⟨d, l, m, rfl, ((dtor_covers t k _ m (hk' d hk.1) hp).resolve_left hin).1, hk.2.1, ?_⟩
        intro k hk'
        exact ((dtor_covers t k _ m (hk' d hk.1) hp).resolve_left hin).2
  obtain ⟨h, e, f⟩ := freeAll_keys hw hI (closeKeys t s) [] s.heap rfl (by simp) (by simp)
    (fun k hk => closeKeys_owned hk) n1 (by simp) n2
    (by
      intro k _
      cases k with
      | st d => simp [usesK]
      | mem d l m => exact not_uses_of_member m.not_uses_self)
    (by
      intro k h1 h2 _ h4 k' _
      rcases hcov k h1 h2 with h | ⟨d, l, m, rfl, hm, -⟩
      · exact absurd h h4
      · obtain ⟨u1, u2⟩ := Member.leakable_uses hm
        simp [usesK, u1, u2])
  refine ⟨h, by rw [close_eq]; exact e, ?_⟩
  intro i
  rw [f]
  simp only [List.nil_append]
  by_cases hlt : i < h0.next
  · left
    rw [if_neg, hI.base i hlt]
    rintro ⟨k, q1, q2⟩
    have := (hI.own k i (closeKeys_owned q1) q2).1
    omega
  · have h0i := hw.fresh i (by omega)
    split
    · left; rw [h0i]
    · rename_i hne
      cases hl : s.heap.live i with
      | none => left; rw [h0i]
      | some x =>
        right
        obtain ⟨k, q1, q2⟩ := hI.cover i (by omega) (by rw [hl]; simp)
        rcases hcov k q1 (by rw [q2]; simp) with h | ⟨d, l, m, rfl, hm, h3, h4⟩
        · exact absurd ⟨k, h, q2⟩ hne
        · obtain ⟨-, us, h5, -⟩ := hI.own _ i q1 q2
          rw [hl] at h5; cases h5
          exact ⟨h0i, m, us, rfl, hm, l, h3, h4⟩

end Asagi
