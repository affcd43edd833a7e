import Verif.Spec.CountInc
import Verif.Proofs.CacheCount
import Mathlib.Data.Finset.Card
/-
Increments of the counters as reads and writes: with the mutexes, they have the same effect as single actions.
-/
namespace Asagi
open Spec
variable {β α : Type} {P : DistParams β} {s s' : AddState β} {l : Ledger}

/-- The counters that are incremented. -/
def CounterType.Native (ty : CounterType) : Prop := ty = .access ∨ ty = .numa ∨ ty = .mpi ∨ ty = .file

/-- The counter that a thread is going to write. -/
def AddPc.ty : AddPc → Option CounterType
  | .out => none
  | .want ty | .locked ty | .got ty _ => some ty

theorem native_put {c : Counters} {v : Nat} {ty ty' : CounterType} (h : ty'.Native) :
    (c.put v ty).native ty' = if ty' = ty then v else c.native ty' := by
  rcases h with rfl | rfl | rfl | rfl <;> cases ty <;> rfl

theorem native_inc_of {c : Counters} {ty ty' : CounterType} (h : ty'.Native) :
    (c.inc ty).native ty' = if ty' = ty then (c.native ty' + 1) % ulongRange else c.native ty' := by
  rcases h with rfl | rfl | rfl | rfl <;> cases ty <;> rfl

theorem native_ext {c c' : Counters} (h : ∀ ty : CounterType, ty.Native → c.native ty = c'.native ty) : c = c' := by
  have h1 := h .access (.inl rfl)
  have h2 := h .numa (.inr (.inl rfl))
  have h3 := h .mpi (.inr (.inr (.inl rfl)))
  have h4 := h .file (.inr (.inr (.inr rfl)))
  cases c; cases c'
  simp only [Counters.native] at h1 h2 h3 h4
  subst h1 h2 h3 h4; rfl

/-- The number of threads of a domain that are going to write a counter. -/
def owed (dom : Nat → Nat) (add : Nat → AddPc) (T : Finset Nat) (d : Nat) (ty : CounterType) : Nat :=
  (T.filter fun t => dom t = d ∧ (add t).ty = some ty).card

theorem owed_same {dom : Nat → Nat} {add add' : Nat → AddPc} {T : Finset Nat}
    (h : ∀ t, (add' t).ty = (add t).ty) (d : Nat) (ty : CounterType) : owed dom add' T d ty = owed dom add T d ty := by
  unfold owed; simp only [h]

theorem owed_insert {dom : Nat → Nat} {add : Nat → AddPc} {T : Finset Nat} {t : Nat} (ht : t ∉ T) (p : AddPc)
    (d : Nat) (ty : CounterType) : owed dom (upd add t p) (insert t T) d ty =
      owed dom add T d ty + if dom t = d ∧ p.ty = some ty then 1 else 0 := by
  unfold owed
  have e : (T.filter fun u => dom u = d ∧ (upd add t p u).ty = some ty) =
      T.filter fun u => dom u = d ∧ (add u).ty = some ty := by
    refine Finset.filter_congr fun u hu => ?_
    rw [upd_ne _ _ (by rintro rfl; exact ht hu)]
  rw [Finset.filter_insert, e, upd_self]
  split
  · rw [Finset.card_insert_of_notMem (by simp [ht])]
  · rfl

/-- What holds in all executions of a build with THREADSAFE_COUNTER. -/
structure AddInv (dom : Nat → Nat) (s : AddState β) (c' : Nat → Counters) (T : Finset Nat) : Prop where
  mem : ∀ t, t ∈ T ↔ s.add t ≠ .out
  hold : ∀ t ty, (s.add t = .locked ty ∨ ∃ v, s.add t = .got ty v) → s.mutex (dom t) ty = some t
  value : ∀ t ty v, s.add t = .got ty v → v = (s.c (dom t)).native ty
  range : ∀ d ty, ty.Native → (s.c d).native ty < ulongRange
  sum : ∀ d ty, ty.Native → (c' d).native ty = ((s.c d).native ty + owed dom s.add T d ty) % ulongRange

theorem enter_out {k : Option CounterType} (h : AddPc.enter k ≠ .out) : ∃ ty, k = some ty := by
  cases k with
  | none => exact absurd rfl h
  | some ty => exact ⟨ty, rfl⟩

/-- A step that counts does not end the getter. -/
theorem counts_busy {ld : Nat → CounterType} {p p' : Pc β} {ty : CounterType} (h : pcCounts ld p p' = some ty) :
    p' ≠ .idle := by
  rintro rfl
  unfold pcCounts at h
  split at h <;> simp_all

/-- A thread begins an increment. -/
theorem AddInv.enter {dom : Nat → Nat} {c' : Nat → Counters} {T : Finset Nat} (hI : AddInv dom s c' T) {t : Nat}
    {k : Option CounterType} (h1 : s.add t = .out) (h3 : s'.add = upd s.add t (.enter k)) (h4 : s'.c = s.c)
    (h5 : s'.mutex = s.mutex) : ∃ T', AddInv dom s' (bump c' (dom t) k) T' := by
  have hT : t ∉ T := fun h => (hI.mem t).1 h h1
  cases k with
  | none =>
    have ea : s'.add = s.add := by
      rw [h3]
      funext u
      rw [upd_apply]
      split
      · next e => subst e; exact h1.symm
      · rfl
    refine ⟨T, ?_, ?_, ?_, ?_, ?_⟩
    · rw [ea]; exact hI.mem
    · rw [ea, h5]; exact hI.hold
    · rw [ea, h4]; exact hI.value
    · rw [h4]; exact hI.range
    · rw [ea, h4]; exact hI.sum
  | some ty =>
    have ea : s'.add = upd s.add t (.want ty) := h3
    have hne : ∀ u, u ≠ t → s'.add u = s.add u := fun u hu => by rw [ea, upd_ne _ _ hu]
    have hself : s'.add t = .want ty := by rw [ea, upd_self]
    refine ⟨insert t T, fun u => ?_, fun u ty' hu => ?_, fun u ty' v hu => ?_, ?_, fun d ty' hty => ?_⟩
    · by_cases e : u = t
      · subst e; rw [hself]; simp
      · rw [hne u e]; simp [e, hI.mem u]
    · by_cases e : u = t
      · subst e; rw [hself] at hu; simp at hu
      · rw [hne u e] at hu; rw [h5]; exact hI.hold u ty' hu
    · by_cases e : u = t
      · subst e; rw [hself] at hu; cases hu
      · rw [hne u e] at hu; rw [h4]; exact hI.value u ty' v hu
    · rw [h4]; exact hI.range
    · rw [ea, h4]
      rw [owed_insert hT]
      show (upd c' (dom t) ((c' (dom t)).inc ty) d).native ty' = _
      rw [upd_apply]
      have hsum := hI.sum d ty' hty
      by_cases e : d = dom t
      · rw [if_pos e, ← e, native_inc_of hty, hsum]
        by_cases e' : ty' = ty
        · subst e'; simp [AddPc.ty, Nat.add_assoc]
        · have : ty ≠ ty' := fun h => e' h.symm
          simp [AddPc.ty, e', this]
      · have : dom t ≠ d := fun h => e h.symm
        rw [if_neg e, hsum]; simp [this]

/-- A step of an increment. -/
theorem AddInv.inc {dom : Nat → Nat} {c' : Nat → Counters} {T : Finset Nat} (hI : AddInv dom s c' T)
    (hs : IncStep dom true s s') : ∃ T', AddInv dom s' c' T' := by
  cases hs with
  | noLock t ty h1 h2 => cases h2
  | lock t ty h1 _ h2 =>
    refine ⟨T, fun u => ?_, fun u ty' hu => ?_, fun u ty' v hu => ?_, hI.range, fun d ty' hty => ?_⟩
    · show u ∈ T ↔ upd s.add t (.locked ty) u ≠ .out
      rw [hI.mem u, upd_apply]
      split
      · next e => subst e; rw [h1]; simp
      · rfl
    · change upd s.add t (.locked ty) u = .locked ty' ∨ ∃ v, upd s.add t (.locked ty) u = .got ty' v at hu
      show upd s.mutex (dom t) (upd (s.mutex (dom t)) ty (some t)) (dom u) ty' = some u
      by_cases e : u = t
      · subst e
        rw [upd_self] at hu
        rcases hu with hu | ⟨v, hu⟩
        · injection hu with hu; subst hu
          rw [upd_self, upd_self]
        · cases hu
      · rw [upd_ne _ _ e] at hu
        have hm := hI.hold u ty' hu
        rw [upd_apply]
        split
        · next e1 =>
          rw [e1] at hm
          rw [upd_ne _ _ (by rintro rfl; rw [h2] at hm; cases hm)]
          exact hm
        · exact hm
    · change upd s.add t (.locked ty) u = .got ty' v at hu
      rw [upd_apply] at hu
      split at hu
      · cases hu
      · exact hI.value u ty' v hu
    · rw [hI.sum d ty' hty]
      show _ = (_ + owed dom (upd s.add t (.locked ty)) T d ty') % _
      rw [owed_same fun u => ?_]
      rw [upd_apply]
      split
      · next e => subst e; rw [h1]; rfl
      · rfl
  | read t ty h1 =>
    refine ⟨T, fun u => ?_, fun u ty' hu => ?_, fun u ty' v hu => ?_, hI.range, fun d ty' hty => ?_⟩
    · show u ∈ T ↔ upd s.add t (.got ty _) u ≠ .out
      rw [hI.mem u, upd_apply]
      split
      · next e => subst e; rw [h1]; simp
      · rfl
    · change upd s.add t (.got ty _) u = .locked ty' ∨ ∃ v, upd s.add t (.got ty _) u = .got ty' v at hu
      refine hI.hold u ty' ?_
      by_cases e : u = t
      · subst e
        rw [upd_self] at hu
        rcases hu with hu | ⟨v, hu⟩
        · cases hu
        · injection hu with hu; subst hu; exact .inl h1
      · rw [upd_ne _ _ e] at hu; exact hu
    · change upd s.add t (.got ty _) u = .got ty' v at hu
      rw [upd_apply] at hu
      split at hu
      · next e =>
        subst e
        injection hu with h3 h4
        subst h3; exact h4.symm
      · exact hI.value u ty' v hu
    · rw [hI.sum d ty' hty]
      show _ = (_ + owed dom (upd s.add t (.got ty _)) T d ty') % _
      rw [owed_same fun u => ?_]
      rw [upd_apply]
      split
      · next e => subst e; rw [h1]; rfl
      · rfl
  | write t ty v h1 =>
    have hne : ∀ u, u ≠ t → upd s.add t .out u = s.add u := fun u hu => upd_ne _ _ hu
    have hmt := hI.hold t ty (.inr ⟨v, h1⟩)
    have hv := hI.value t ty v h1
    have htT : t ∈ T := (hI.mem t).2 (by rw [h1]; nofun)
    refine ⟨T.erase t, fun u => ?_, fun u ty' hu => ?_, fun u ty' v' hu => ?_, fun d ty' hty => ?_,
      fun d ty' hty => ?_⟩
    · show u ∈ T.erase t ↔ upd s.add t .out u ≠ .out
      by_cases e : u = t
      · subst e; rw [upd_self]; simp
      · rw [hne u e]; simp [e, hI.mem u]
    · change upd s.add t .out u = .locked ty' ∨ ∃ v, upd s.add t .out u = .got ty' v at hu
      by_cases e : u = t
      · subst e; rw [upd_self] at hu; simp at hu
      · rw [hne u e] at hu
        have hm := hI.hold u ty' hu
        show upd s.mutex (dom t) (upd (s.mutex (dom t)) ty none) (dom u) ty' = some u
        rw [upd_apply]
        split
        · next e1 =>
          rw [e1] at hm
          rw [upd_ne _ _ (by rintro rfl; rw [hmt] at hm; exact e (Option.some.inj hm).symm)]
          exact hm
        · exact hm
    · change upd s.add t .out u = .got ty' v' at hu
      by_cases e : u = t
      · subst e; rw [upd_self] at hu; cases hu
      · rw [hne u e] at hu
        rw [hI.value u ty' v' hu]
        show _ = (upd s.c (dom t) ((s.c (dom t)).put ((v + 1) % ulongRange) ty) (dom u)).native ty'
        rw [upd_apply]
        split
        · next e1 =>
          have hty : ty' ≠ ty := by
            rintro rfl
            have hm := hI.hold u ty' (.inr ⟨v', hu⟩)
            rw [e1, hmt] at hm
            exact e (Option.some.inj hm).symm
          rw [e1]
          cases ty' <;> cases ty <;> first | rfl | exact absurd rfl hty
        · rfl
    · show (upd s.c (dom t) ((s.c (dom t)).put ((v + 1) % ulongRange) ty) d).native ty' < _
      rw [upd_apply]
      split
      · rw [native_put hty]
        split
        · exact Nat.mod_lt _ (by decide)
        · exact hI.range _ ty' hty
      · exact hI.range d ty' hty
    · rw [hI.sum d ty' hty]
      show _ = ((upd s.c (dom t) ((s.c (dom t)).put ((v + 1) % ulongRange) ty) d).native ty' +
        owed dom (upd s.add t .out) (T.erase t) d ty') % _
      have key := owed_insert (dom := dom) (add := upd s.add t .out) (Finset.notMem_erase t T) (s.add t) d ty'
      rw [Finset.insert_erase htT] at key
      have e0 : upd (upd s.add t .out) t (s.add t) = s.add := by
        funext u
        by_cases e : u = t
        · subst e; rw [upd_self]
        · rw [upd_ne _ _ e, upd_ne _ _ e]
      rw [e0] at key
      rw [key, h1, upd_apply]
      by_cases e : d = dom t
      · rw [if_pos e, native_put hty]
        by_cases e' : ty' = ty
        · subst e'; subst e; subst hv
          simp [AddPc.ty]
          congr 1; omega
        · have : ty ≠ ty' := fun h => e' h.symm
          subst e
          simp [AddPc.ty, e', this]
      · have : dom t ≠ d := fun h => e h.symm
        rw [if_neg e]; simp [this]

/-- In an increment, a thread does not begin another one, and the caches do not change. -/
theorem incStep_frame {dom : Nat → Nat} {k : Bool} (hs : IncStep dom k s s') :
    s'.st = s.st ∧ ∀ u, s'.add u ≠ .out → s.add u ≠ .out := by
  have key : ∀ (t : Nat) (p : AddPc), s.add t ≠ .out → ∀ u, upd s.add t p u ≠ .out → s.add u ≠ .out := by
    intro t p h u hu
    rw [upd_apply] at hu
    split at hu
    · next e => subst e; exact h
    · exact hu
  cases hs with
  | lock t ty h1 => exact ⟨rfl, key t _ (by rw [h1]; nofun)⟩
  | noLock t ty h1 => exact ⟨rfl, key t _ (by rw [h1]; nofun)⟩
  | read t ty h1 => exact ⟨rfl, key t _ (by rw [h1]; nofun)⟩
  | write t ty v h1 => exact ⟨rfl, key t _ (by rw [h1]; nofun)⟩

theorem add_start {dom : Nat → Nat} {st : DistState β} :
    AddInv dom ⟨st, fun _ => {}, fun _ _ => none, fun _ => .out⟩ (fun _ => {}) ∅ := by
  refine ⟨by simp, nofun, nofun, fun d ty hty => ?_, fun d ty hty => ?_⟩
  · rcases hty with rfl | rfl | rfl | rfl <;> exact (by decide : (0 : Nat) < ulongRange)
  · rcases hty with rfl | rfl | rfl | rfl <;> simp [owed, Counters.native]

theorem add_history (hl : Legal P) (h : AddHistory P true s l) : ∃ c' T, CacheHistory P ⟨s.st, c'⟩ l ∧
    AddInv P.dom s c' T ∧ ∀ t, s.add t ≠ .out → s.st.pc (.user t) ≠ .idle := by
  induction h with
  | opened c hc => exact ⟨_, _, .opened c hc, add_start, nofun⟩
  | @user s s' l t _ hs ih =>
    obtain ⟨c', T, hh, hI, hb⟩ := ih
    obtain ⟨h1, h2, h3, h4, h5⟩ := hs
    obtain ⟨T', hI'⟩ := hI.enter h1 h3 h4 h5
    refine ⟨_, T', .user (s' := ⟨s'.st, bump c' (P.dom t) _⟩) t hh ⟨h2, rfl⟩, hI', fun u hu => ?_⟩
    rw [h3, upd_apply] at hu
    split at hu
    · next e =>
      subst e
      obtain ⟨ty, hk⟩ := enter_out hu
      exact counts_busy hk
    · next e =>
      rw [(userStep_move (cache_sheet hl hh).2 h2).2.1 _ fun e' => e (by injection e')]
      exact hb u hu
  | @inc s s' l _ hs ih =>
    obtain ⟨c', T, hh, hI, hb⟩ := ih
    obtain ⟨T', hI'⟩ := hI.inc hs
    obtain ⟨e, hf⟩ := incStep_frame hs
    exact ⟨c', T', by rw [e]; exact hh, hI', fun u hu => by rw [e]; exact hb u (hf u hu)⟩
  | @comm s l st' r _ hs ih =>
    obtain ⟨c', T, hh, hI, hb⟩ := ih
    refine ⟨c', T, .comm r hh hs, ⟨hI.mem, hI.hold, hI.value, hI.range, hI.sum⟩, fun u hu => ?_⟩
    have e := congrFun (commStep_users hs).1 u
    exact fun h => hb u hu (e.symm.trans h)

theorem add_full_history {c : LevelCfg α} {F : FullCfg α} {data : Nat → Mem α} {s : AddState α}
    (h : AddFullHistory c F data true s l) : ∃ c' T, FullHistory c F data ⟨s.st, c'⟩ l ∧ AddInv F.dom s c' T := by
  induction h with
  | opened cl hc => exact ⟨_, _, .opened cl hc, add_start⟩
  | @user s s' l t _ hs ih =>
    obtain ⟨c', T, hh, hI⟩ := ih
    obtain ⟨h1, ⟨h2, h2'⟩, h3, h4, h5⟩ := hs
    obtain ⟨T', hI'⟩ := hI.enter h1 h3 h4 h5
    exact ⟨_, T', .user (s' := ⟨s'.st, bump c' (F.dom t) _⟩) t hh ⟨h2, h2', rfl⟩, hI'⟩
  | @own s s' l t b _ hs ih =>
    obtain ⟨c', T, hh, hI⟩ := ih
    obtain ⟨h1, ⟨h2, h2'⟩, rfl⟩ := hs
    obtain ⟨T', hI'⟩ := hI.enter (s' := { s with add := upd s.add t (.enter (some .access)) }) h1 rfl rfl rfl
    exact ⟨_, T', .own t b hh ⟨h2, h2', rfl⟩, hI'⟩
  | @inc s s' l _ hs ih =>
    obtain ⟨c', T, hh, hI⟩ := ih
    obtain ⟨T', hI'⟩ := hI.inc hs
    exact ⟨c', T', by rw [(incStep_frame hs).1]; exact hh, hI'⟩

/-- A mutex is held by a thread that is reading and writing this counter. -/
def Held (dom : Nat → Nat) (s : AddState β) : Prop :=
  ∀ d ty u, s.mutex d ty = some u → dom u = d ∧ (s.add u = .locked ty ∨ ∃ v, s.add u = .got ty v)

theorem Held.enter {dom : Nat → Nat} (hH : Held dom s) {t : Nat} {k : Option CounterType} (h1 : s.add t = .out)
    (h3 : s'.add = upd s.add t (.enter k)) (h5 : s'.mutex = s.mutex) : Held dom s' := by
  intro d ty u hu
  rw [h5] at hu
  obtain ⟨e, h⟩ := hH d ty u hu
  have hne : u ≠ t := by rintro rfl; rw [h1] at h; simp at h
  exact ⟨e, by rw [h3, upd_ne _ _ hne]; exact h⟩

theorem Held.inc {dom : Nat → Nat} (hH : Held dom s) (hs : IncStep dom true s s') : Held dom s' := by
  intro d ty' u hu
  cases hs with
  | noLock t ty h1 h2 => cases h2
  | lock t ty h1 _ h2 =>
    change upd s.mutex (dom t) (upd (s.mutex (dom t)) ty (some t)) d ty' = some u at hu
    show dom u = d ∧ (upd s.add t (.locked ty) u = .locked ty' ∨ ∃ v, upd s.add t (.locked ty) u = .got ty' v)
    have old : s.mutex d ty' = some u →
        dom u = d ∧ (upd s.add t (.locked ty) u = .locked ty' ∨ ∃ v, upd s.add t (.locked ty) u = .got ty' v) := by
      intro h
      obtain ⟨e, h'⟩ := hH d ty' u h
      have hne : u ≠ t := by rintro rfl; rw [h1] at h'; simp at h'
      rw [upd_ne _ _ hne]
      exact ⟨e, h'⟩
    by_cases e : d = dom t
    · subst e
      rw [upd_self] at hu
      by_cases e' : ty' = ty
      · subst e'
        rw [upd_self] at hu
        obtain rfl := Option.some.inj hu
        exact ⟨rfl, .inl (upd_self _ _ _)⟩
      · rw [upd_ne _ _ e'] at hu
        exact old hu
    · rw [upd_ne _ _ e] at hu
      exact old hu
  | read t ty h1 =>
    obtain ⟨e, h⟩ := hH d ty' u hu
    refine ⟨e, ?_⟩
    show upd s.add t (.got ty _) u = .locked ty' ∨ ∃ v, upd s.add t (.got ty _) u = .got ty' v
    by_cases e : u = t
    · subst e
      rw [h1] at h
      simp only [AddPc.locked.injEq, reduceCtorEq, exists_false, or_false] at h
      subst h
      exact .inr ⟨_, upd_self _ _ _⟩
    · rw [upd_ne _ _ e]; exact h
  | write t ty v h1 =>
    change upd s.mutex (dom t) (upd (s.mutex (dom t)) ty none) d ty' = some u at hu
    show dom u = d ∧ (upd s.add t .out u = .locked ty' ∨ ∃ v, upd s.add t .out u = .got ty' v)
    have hm : s.mutex d ty' = some u ∧ ¬ (d = dom t ∧ ty' = ty) := by
      by_cases e : d = dom t
      · subst e
        rw [upd_self] at hu
        by_cases e' : ty' = ty
        · subst e'; rw [upd_self] at hu; cases hu
        · rw [upd_ne _ _ e'] at hu
          exact ⟨hu, fun h => e' h.2⟩
      · rw [upd_ne _ _ e] at hu
        exact ⟨hu, fun h => e h.1⟩
    obtain ⟨e, h⟩ := hH d ty' u hm.1
    have hne : u ≠ t := by
      rintro rfl
      rw [h1] at h
      refine hm.2 ⟨e.symm, ?_⟩
      rcases h with h | ⟨_, h⟩
      · cases h
      · injection h with h _; exact h.symm
    rw [upd_ne _ _ hne]
    exact ⟨e, h⟩

/-- A thread in an increment, or the one that it waits for, can go on. -/
theorem Held.go {dom : Nat → Nat} (hH : Held dom s) {t : Nat} (ht : s.add t ≠ .out) :
    ∃ u s', dom u = dom t ∧ s.add u ≠ .out ∧ IncStep dom true s s' ∧ s'.add u ≠ s.add u := by
  have run : ∀ u ty, dom u = dom t → (s.add u = .locked ty ∨ ∃ v, s.add u = .got ty v) →
      ∃ u s', dom u = dom t ∧ s.add u ≠ .out ∧ IncStep dom true s s' ∧ s'.add u ≠ s.add u := by
    rintro u ty e (h | ⟨v, h⟩)
    · refine ⟨u, _, e, by rw [h]; nofun, .read s u ty h, ?_⟩
      show upd s.add u _ u ≠ _
      rw [upd_self, h]; nofun
    · refine ⟨u, _, e, by rw [h]; nofun, .write s u ty v h, ?_⟩
      show upd s.add u _ u ≠ _
      rw [upd_self, h]; nofun
  cases h : s.add t with
  | out => exact absurd h ht
  | want ty =>
    cases hm : s.mutex (dom t) ty with
    | none =>
      refine ⟨t, _, rfl, ht, .lock s t ty h rfl hm, ?_⟩
      show upd s.add t _ t ≠ _
      rw [upd_self, h]; nofun
    | some u =>
      obtain ⟨e, h'⟩ := hH _ _ _ hm
      exact run u ty e h'
  | locked ty => exact run t ty rfl (.inl h)
  | got ty v => exact run t ty rfl (.inr ⟨v, h⟩)

theorem add_held (h : AddHistory P true s l) : Held P.dom s := by
  induction h with
  | opened c hc => exact nofun
  | user t _ hs ih => exact ih.enter hs.1 hs.2.2.1 hs.2.2.2.2
  | inc _ hs ih => exact ih.inc hs
  | comm r _ hs ih => exact ih

theorem add_full_held {c : LevelCfg α} {F : FullCfg α} {data : Nat → Mem α} {s : AddState α}
    (h : AddFullHistory c F data true s l) : Held F.dom s := by
  induction h with
  | opened cl hc => exact nofun
  | user t _ hs ih => exact ih.enter hs.1 hs.2.2.1 hs.2.2.2.2
  | own t b _ hs ih => obtain ⟨h1, -, rfl⟩ := hs; exact ih.enter h1 rfl rfl
  | inc _ hs ih => exact ih.inc hs

/-- The steps that are left of an increment. -/
def AddPc.left : AddPc → Nat
  | .out => 0
  | .want _ => 3
  | .locked _ => 2
  | .got _ _ => 1

theorem inc_left {dom : Nat → Nat} {k : Bool} (hs : IncStep dom k s s') :
    ∃ t, (s'.add t).left + 1 = (s.add t).left ∧ ∀ u, u ≠ t → s'.add u = s.add u := by
  have key : ∀ (t : Nat) (p : AddPc), p.left + 1 = (s.add t).left →
      ∃ t', (upd s.add t p t').left + 1 = (s.add t').left ∧ ∀ u, u ≠ t' → upd s.add t p u = s.add u :=
    fun t p h => ⟨t, by rw [upd_self]; exact h, fun u hu => upd_ne _ _ hu⟩
  cases hs with
  | lock t ty h1 => exact key t _ (by rw [h1]; rfl)
  | noLock t ty h1 => exact key t _ (by rw [h1]; rfl)
  | read t ty h1 => exact key t _ (by rw [h1]; rfl)
  | write t ty v h1 => exact key t _ (by rw [h1]; rfl)

end Asagi
