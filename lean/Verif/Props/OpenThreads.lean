import Verif.Proofs.OpenThreads
import Mathlib.Data.Finset.Max
/-
C79: all threads of a process return from `open`, with the same result.
-/
namespace Asagi.Props
open Asagi.Spec

/-! ### Helpers -/

theorem cpu_registered {P : OpenParams} {s : OpenState} (h : OpenReach P s) :
    ∀ t, (s.reg t).isSome → P.noCpu t = false := by
  refine Reachable.invariant (I := fun s => ∀ t, (s.reg t).isSome → P.noCpu t = false) ?_ ?_ h
  · rintro _ rfl t ht
    simp [OpenState.fresh] at ht
  · intro s s' hi hs
    cases hs with
    | register t ht hp hc hin hq =>
      intro x hx
      simp only [upd_apply] at hx
      split_ifs at hx with hxt
      · subst hxt; exact hq
      · exact hi x hx
    | _ => exact hi

theorem returned_call {P : OpenParams} {s : OpenState} (hn : P.total = 0 ∨ P.n ≤ P.total) (h : OpenReach P s)
    {t k : Nat} : Returned s t k ↔ k < s.call t := by
  rw [Returned, (h.inv hn).res]
  split_ifs with hk <;> simp [hk]

/-- If a thread has left call `k`, all threads have come to the end of that call. -/
theorem all_arrived {P : OpenParams} {s : OpenState} (hn : P.total = 0 ∨ P.n ≤ P.total) (h : OpenReach P s)
    {t k : Nat} (ht : k < s.call t) :
    s.initialised = true ∧ ∀ x < P.n, past P s x k (2 * (P.plan k).length + 4) := by
  have hI := h.inv hn
  have hi : s.initialised = true := by
    by_contra hc
    have := (hI.early t (by simpa using hc)).1
    omega
  have hf := hI.finished t k ht
  refine ⟨hi, ?_⟩
  have : ((Finset.range P.n).filter fun x => past P s x k (2 * (P.plan k).length + 4)) = Finset.range P.n := by
    refine Finset.eq_of_subset_of_card_le (Finset.filter_subset _ _) ?_
    rw [← hI.fin, hf, Finset.card_range, (hI.ready hn hi).2.1]
  intro x hx
  have hx' := Finset.mem_range.2 hx
  rw [← this] at hx'
  exact (Finset.mem_filter.1 hx').2

/-! ### Same result -/

/-- **C79.** Whatever happens, all threads that return from the same call of `open` return the same value:
the result of the initialisation of domain 0. -/
theorem C79_same_result (P : OpenParams) (hn : P.total = 0 ∨ P.n ≤ P.total) (s : OpenState) (h : OpenReach P s)
    (t k : Nat) (hr : Returned s t k) : ReturnedWith s t k (outcome P k 0) := by
  rw [returned_call hn h] at hr
  rw [ReturnedWith, (h.inv hn).res, if_pos hr]

/-! ### Hang -/

/-- **C79**, why `open` can hang: if in call `k` one domain fails before a broadcast in which another domain
takes part, no thread ever returns from this call (or a later one). -/
theorem C79_hang (P : OpenParams) (hn : P.total = 0 ∨ P.n ≤ P.total) (s : OpenState) (h : OpenReach P s)
    (k : Nat) (hk : ¬ Agree P k) (t k' : Nat) (hkk : k ≤ k') : ¬ Returned s t k' := by
  rw [returned_call hn h]
  intro hr
  have hr : k < s.call t := by omega
  obtain ⟨hi, hall⟩ := all_arrived hn h hr
  have hI := h.inv hn
  obtain ⟨h1, h2, h3⟩ := hI.ready hn hi
  obtain ⟨a, ha⟩ := hI.reg
  have hf := ha.facts
  -- the masters of the two domains
  have hcon : ∀ i d d', (P.plan k)[i]? = some .sync → d < domainCount P → d' < domainCount P →
      i < stopsAt P k d → ¬ i < stopsAt P k d' → False := by
    intro i d d' hsy hd hd' hid hid'
    rw [← h3] at hd hd'
    obtain ⟨m, r, m1, m2, m3⟩ := hf.exists_master d hd
    have hmn : m < P.n := by
      obtain ⟨j, j1, -⟩ := (ha.reg m r).1 m1
      exact ha.lt m (List.mem_of_getElem? j1)
    have hj : joins P s m k i := by
      refine ⟨by simp [OpenState.master, m1, m2], hsy, ?_⟩
      simpa [OpenState.domainId, m1, m3] using hid
    have hl := (List.getElem?_eq_some_iff.1 hsy).1
    have hpast : past P s m k (2 * i + 3) := by
      rcases hall m hmn with h' | ⟨h', h''⟩
      · exact Or.inl h'
      · exact Or.inr ⟨h', by omega⟩
    have hc := hI.left m hmn k i hj hpast
    rw [hI.cnt] at hc
    have hle : ((Finset.range P.n).filter fun t => joins P s t k i ∧ past P s t k (2 * i + 2)).card
        ≤ ((Finset.range s.numa.domains.length).erase d').card := by
      have hm : ∀ y ∈ (Finset.range P.n).filter fun t => joins P s t k i ∧ past P s t k (2 * i + 2),
          ∃ r, s.reg y = some r ∧ r.master = true ∧ s.domainId y = r.domain ∧ i < stopsAt P k r.domain := by
        intro y hy
        have hjy := (Finset.mem_filter.1 hy).2.1
        have hm := hjy.1
        unfold OpenState.master at hm
        cases hr : s.reg y with
        | none => rw [hr] at hm; cases hm
        | some r =>
          rw [hr] at hm
          have hdom : s.domainId y = r.domain := by simp [OpenState.domainId, hr]
          exact ⟨r, rfl, hm, hdom, hdom ▸ hjy.2.2⟩
      refine Finset.card_le_card_of_injOn (fun y => s.domainId y) ?_ ?_
      · intro y hy
        obtain ⟨r, r1, r2, r3, r4⟩ := hm y hy
        simp only [Finset.coe_erase, Set.mem_sdiff, Finset.mem_coe, Finset.mem_range, Set.mem_singleton_iff]
        rw [r3]
        exact ⟨hf.dom y r r1, by rintro rfl; exact hid' r4⟩
      · intro y hy z hz e
        obtain ⟨r, r1, r2, r3, -⟩ := hm y hy
        obtain ⟨q, q1, q2, q3, -⟩ := hm z hz
        dsimp only at e
        exact hf.unique y z r q r1 q1 r2 q2 (by rw [← r3, ← q3, e])
    rw [Finset.card_erase_of_mem (Finset.mem_range.2 hd'), Finset.card_range] at hle
    omega
  apply hk
  intro i hsy d hd d' hd'
  constructor
  · intro h'
    by_contra hc
    exact hcon i d d' hsy hd hd' h' hc
  · intro h'
    by_contra hc
    exact hcon i d' d hsy hd' hd h' hc

/-- **C79**, number of threads: if fewer threads call `open` than were announced with `setThreads`, if none were
announced (`setThreads(0)`), or if the CPU of one of the threads cannot be determined, no thread ever
completes a call. -/
theorem C79_missing_thread (P : OpenParams) (hn : P.total = 0 ∨ P.n ≤ P.total)
    (hm : P.total ≠ P.n ∨ P.total = 0 ∨ ∃ t < P.n, P.noCpu t = true)
    (s : OpenState) (h : OpenReach P s) (t k : Nat) : ¬ Returned s t k := by
  rw [returned_call hn h]
  intro hr
  obtain ⟨hi, -⟩ := all_arrived hn h hr
  have hI := h.inv hn
  obtain ⟨h1, h2, -⟩ := hI.ready hn hi
  have h0 := hI.init.1 hi
  rcases hm with hm | hm | ⟨x, hx, hxc⟩
  · exact hm h2
  · omega
  · obtain ⟨r, hr, -⟩ := h1 x hx
    have := cpu_registered h x (by rw [hr]; rfl)
    rw [this] at hxc; cases hxc

/-! ### Termination -/

/-- Number of places in the calls before call `k`. -/
def callStart (P : OpenParams) : Nat → Nat
  | 0 => 0
  | k + 1 => callStart P k + (2 * (P.plan k).length + 6)

theorem callStart_mono (P : OpenParams) {k k' : Nat} (h : k ≤ k') : callStart P k ≤ callStart P k' := by
  induction h with
  | refl => exact Nat.le_refl _
  | step _ ih => exact ih.trans (Nat.le_add_right _ _)

/-- How far thread `t` has come. -/
def openPos (P : OpenParams) (s : OpenState) (t : Nat) : Nat :=
  callStart P (s.call t) + (s.pc t).stage (P.plan (s.call t)).length

theorem calls_bound {P : OpenParams} {s : OpenState} (h : OpenReach P s) :
    ∀ t, s.call t ≤ P.calls ∧ (s.pc t ≠ .start → s.call t < P.calls) := by
  refine Reachable.invariant (I := fun s => ∀ t, s.call t ≤ P.calls ∧ (s.pc t ≠ .start → s.call t < P.calls))
    ?_ ?_ h
  · rintro _ rfl t
    exact ⟨Nat.zero_le _, fun h => absurd rfl h⟩
  · intro s s' hi hs x
    have hx := hi x
    cases hs <;> simp only [upd_apply] <;> split_ifs with hxt <;>
      first
      | exact hx
      | (subst hxt
         first
         | (refine ⟨hx.1, fun _ => ?_⟩; first | assumption | (apply hx.2; simp [*]))
         | (refine ⟨hx.2 (by simp [*]), fun h => absurd rfl h⟩))

theorem stage_lt {P : OpenParams} {s : OpenState} (h : OpenInv P s) (t : Nat) :
    (s.pc t).stage (P.plan (s.call t)).length < 2 * (P.plan (s.call t)).length + 6 := by
  cases hp : s.pc t with
  | ops i =>
    have := (h.ops t i hp).2
    have := stopsAt_le P (s.call t) (s.domainId t)
    simp only [OpenPc.stage]; omega
  | waitSync i =>
    have := (List.getElem?_eq_some_iff.1 (h.sync t i hp).2.1).1
    simp only [OpenPc.stage]; omega
  | _ => simp only [OpenPc.stage]; omega

theorem pos_lt_next {P : OpenParams} {s : OpenState} (h : OpenInv P s) (t : Nat) {k : Nat} (hk : s.call t < k) :
    openPos P s t < callStart P k := by
  have h1 := stage_lt h t
  have h2 : callStart P (s.call t + 1) ≤ callStart P k := callStart_mono P hk
  simp only [callStart] at h2
  unfold openPos
  omega

theorem pos_le {P : OpenParams} {s : OpenState} (hn : P.total = 0 ∨ P.n ≤ P.total) (h : OpenReach P s)
    (t : Nat) : openPos P s t ≤ callStart P P.calls := by
  have hb := calls_bound h t
  rcases Nat.lt_or_ge (s.call t) P.calls with hc | hc
  · exact Nat.le_of_lt (pos_lt_next (h.inv hn) t hc)
  · have hp : s.pc t = .start := by
      by_contra hp
      have := hb.2 hp
      omega
    have : s.call t = P.calls := by omega
    simp [openPos, hp, this, OpenPc.stage]

/-- Steps thread `t` can still make. -/
def openLeft (P : OpenParams) (s : OpenState) (t : Nat) : Nat :=
  callStart P P.calls + 1 - (openPos P s t + if s.pc t = .quit then 1 else 0)

theorem step_pos {P : OpenParams} {s s' : OpenState} (h : OpenInv P s) (hs : OpenStep P s s') :
    ∃ t < P.n, (∀ x, x ≠ t → s'.pc x = s.pc x ∧ s'.call x = s.call x) ∧ s.pc t ≠ .quit ∧
      (openPos P s t < openPos P s' t ∨ openPos P s t = openPos P s' t ∧ s'.pc t = .quit) := by
  cases hs with
  | «return» t ht hp hf =>
    refine ⟨t, ht, fun x hx => ⟨by simp [upd_ne _ _ hx], by simp [upd_ne _ _ hx]⟩, by simp [hp], Or.inl ?_⟩
    simp only [openPos, upd_self, hp, OpenPc.stage, callStart]
    omega
  | noCpu t ht hp hc hi hq =>
    refine ⟨t, ht, fun x hx => ⟨by simp [upd_ne _ _ hx], rfl⟩, by simp [hp], Or.inr ?_⟩
    simp [openPos, hp, OpenPc.stage]
  | register t ht hp hc hi hq =>
    refine ⟨t, ht, fun x hx => ⟨by simp [upd_ne _ _ hx], rfl⟩, by simp [hp], Or.inl ?_⟩
    simp only [openPos, upd_self, hp, OpenPc.stage]
    omega
  | registered t r ht hp hi hr =>
    refine ⟨t, ht, fun x hx => ⟨by simp [upd_ne _ _ hx], rfl⟩, by simp [hp], Or.inl ?_⟩
    simp only [openPos, upd_self, hp, afterRegistration]
    split_ifs <;> simp only [OpenPc.stage] <;> omega
  | again t ht hp hc hi =>
    refine ⟨t, ht, fun x hx => ⟨by simp [upd_ne _ _ hx], rfl⟩, by simp [hp], Or.inl ?_⟩
    simp only [openPos, upd_self, hp, afterRegistration]
    split_ifs <;> simp only [OpenPc.stage] <;> omega
  | opDone t i ht hp hl hns he =>
    refine ⟨t, ht, fun x hx => ⟨by simp [upd_ne _ _ hx], rfl⟩, by simp [hp], Or.inl ?_⟩
    simp only [openPos, upd_self, hp, OpenPc.stage]
    omega
  | opFail t i e ht hp he =>
    refine ⟨t, ht, fun x hx => ⟨by simp [upd_ne _ _ hx], rfl⟩, by simp [hp], Or.inl ?_⟩
    have := (opError_lt he).1
    simp only [openPos, upd_self, hp, OpenPc.stage]
    omega
  | arrive t i ht hp hsy =>
    refine ⟨t, ht, fun x hx => ⟨by simp [upd_ne _ _ hx], rfl⟩, by simp [hp], Or.inl ?_⟩
    simp only [openPos, upd_self, hp, OpenPc.stage]
    omega
  | leave t i ht hp hc =>
    refine ⟨t, ht, fun x hx => ⟨by simp [upd_ne _ _ hx], rfl⟩, by simp [hp], Or.inl ?_⟩
    simp only [openPos, upd_self, hp, OpenPc.stage]
    omega
  | initDone t i ht hp hl =>
    refine ⟨t, ht, fun x hx => ⟨by simp [upd_ne _ _ hx], rfl⟩, by simp [hp], Or.inl ?_⟩
    have := (h.ops t i hp).2
    have := stopsAt_le P (s.call t) (s.domainId t)
    simp only [openPos, upd_self, hp, OpenPc.stage]
    omega
  | arriveFinal t e ht hp =>
    refine ⟨t, ht, fun x hx => ⟨by simp [upd_ne _ _ hx], rfl⟩, by simp [hp], Or.inl ?_⟩
    simp only [openPos, upd_self, hp, OpenPc.stage]
    omega

/-- All threads together make a bounded number of steps. -/
theorem openLeft_decreases {P : OpenParams} (hn : P.total = 0 ∨ P.n ≤ P.total) {s s' : OpenState}
    (h : OpenReach P s) (hs : OpenStep P s s') :
    (∑ t ∈ Finset.range P.n, openLeft P s' t) < ∑ t ∈ Finset.range P.n, openLeft P s t := by
  obtain ⟨t, ht, ho, hq, hp⟩ := step_pos (h.inv hn) hs
  have h1 := pos_le hn h t
  have h2 := pos_le hn (.step h hs) t
  refine Finset.sum_lt_sum ?_ ⟨t, Finset.mem_range.2 ht, ?_⟩
  · intro x _
    by_cases hx : x = t
    · subst hx
      unfold openLeft
      rw [if_neg hq]
      rcases hp with hp | ⟨hp, hp'⟩ <;> omega
    · rw [openLeft, openLeft, openPos, openPos, (ho x hx).1, (ho x hx).2]
  · unfold openLeft
    rw [if_neg hq]
    rcases hp with hp | ⟨hp, hp'⟩
    · omega
    · rw [if_pos hp']; omega

/-- As long as a thread has not returned from all its calls, some thread can make a step. -/
theorem open_progress {P : OpenParams} (hn : P.total = P.n) (hcpu : ∀ t < P.n, P.noCpu t = false)
    (hagree : ∀ k < P.calls, Agree P k) {s : OpenState} (h : OpenReach P s)
    (hopen : ∃ t < P.n, s.call t < P.calls) : ∃ s', OpenStep P s s' := by
  have hn' : P.total = 0 ∨ P.n ≤ P.total := Or.inr (by omega)
  have hI := h.inv hn'
  obtain ⟨t0, ht0, hc0⟩ := hopen
  obtain ⟨t, ht, hmin⟩ := Finset.exists_min_image (Finset.range P.n) (openPos P s) ⟨t0, Finset.mem_range.2 ht0⟩
  rw [Finset.mem_range] at ht
  have hmin : ∀ x < P.n, openPos P s t ≤ openPos P s x := fun x hx => hmin x (Finset.mem_range.2 hx)
  have hct : s.call t < P.calls := by
    by_contra hc
    have h1 := pos_lt_next hI t0 hc0
    have h2 : callStart P P.calls ≤ callStart P (s.call t) := callStart_mono P (by omega)
    have h3 := hmin t0 ht0
    unfold openPos at h3 h1
    omega
  -- every other thread has come at least as far
  have hpast : ∀ x < P.n, ∀ m, m < (s.pc t).stage (P.plan (s.call t)).length → past P s x (s.call t) m := by
    intro x hx m hm
    have h3 := hmin x hx
    rcases Nat.lt_trichotomy (s.call x) (s.call t) with hc | hc | hc
    · have := pos_lt_next hI x hc
      unfold openPos at h3 this
      omega
    · refine Or.inr ⟨hc.symm, ?_⟩
      unfold openPos at h3
      rw [hc] at h3
      omega
    · exact Or.inl hc
  cases hp : s.pc t with
  | start =>
    cases hi : s.initialised with
    | true => exact ⟨_, .again s t ht hp hct hi⟩
    | false => exact ⟨_, .register s t ht hp hct hi (hcpu t ht)⟩
  | quit =>
    have := (hI.quit t hp).2
    rw [hcpu t ht] at this; cases this
  | waitReg =>
    obtain ⟨r, hr⟩ := Option.isSome_iff_exists.1 (hI.waitReg t hp).2
    have hi : s.initialised = true := by
      by_contra hc
      have hc : s.initialised = false := by simpa using hc
      obtain ⟨a, ha⟩ := hI.reg
      have hall : List.range P.n ⊆ a := by
        intro x hx
        have hx := List.mem_range.1 hx
        have h1 := hpast x hx 0 (by simp [hp, OpenPc.stage])
        obtain ⟨e1, e2⟩ := hI.early x hc
        have hw : s.pc x = .waitReg := by
          rcases e2 with e2 | e2 | e2
          · rcases h1 with h1 | ⟨-, h1⟩
            · omega
            · rw [e2.1] at h1; simp [OpenPc.stage] at h1
          · rcases h1 with h1 | ⟨-, h1⟩
            · omega
            · rw [e2.1] at h1; simp [OpenPc.stage] at h1
          · exact e2
        obtain ⟨q, hq⟩ := Option.isSome_iff_exists.1 (hI.waitReg x hw).2
        obtain ⟨j, j1, -⟩ := (ha.reg x q).1 hq
        exact List.mem_of_getElem? j1
      have hl := (List.subperm_of_subset List.nodup_range hall).length_le
      rw [List.length_range, ← ha.wait] at hl
      have := (ha.full hl).2.1
      rw [hI.init.2 ⟨by omega, by omega⟩] at hc
      cases hc
    exact ⟨_, .registered s t r ht hp hi hr⟩
  | ops i =>
    rcases Nat.lt_or_ge i (P.plan (s.call t)).length with hl | hl
    · by_cases hsy : (P.plan (s.call t))[i]? = some .sync
      · exact ⟨_, .arrive s t i ht hp hsy⟩
      · cases he : P.opError (s.call t) (s.domainId t) i with
        | none => exact ⟨_, .opDone s t i ht hp hl hsy he⟩
        | some e => exact ⟨_, .opFail s t i e ht hp he⟩
    · exact ⟨_, .initDone s t i ht hp hl⟩
  | waitSync i =>
    have hi : s.initialised = true := by
      by_contra hc
      rcases (hI.early t (by simpa using hc)).2 with h' | h' | h'
      · rw [hp] at h'; cases h'.1
      · rw [hp] at h'; cases h'.1
      · rw [hp] at h'; cases h'
    obtain ⟨h1, h2, h3⟩ := hI.ready hn' hi
    obtain ⟨a, ha⟩ := hI.reg
    have hf := ha.facts
    have hj := hI.sync t i hp
    obtain ⟨rt, hrt, -, et, -⟩ := h1 t ht
    refine ⟨_, .leave s t i ht hp (le_antisymm ?_ ?_)⟩
    · rw [hI.cnt]
      have hm : ∀ y ∈ (Finset.range P.n).filter fun x => joins P s x (s.call t) i ∧ past P s x (s.call t) (2 * i + 2),
          ∃ r, s.reg y = some r ∧ r.master = true ∧ s.domainId y = r.domain := by
        intro y hy
        have hm := (Finset.mem_filter.1 hy).2.1.1
        obtain ⟨r, hr, -, e2, e3⟩ := h1 y (Finset.mem_range.1 (Finset.mem_filter.1 hy).1)
        exact ⟨r, hr, by rw [← e3, hm], e2⟩
      have := Finset.card_le_card_of_injOn (t := Finset.range s.numa.domains.length) (fun y => s.domainId y)
        (fun y hy => by
          obtain ⟨r, r1, -, r3⟩ := hm y hy
          rw [Finset.mem_coe, Finset.mem_range]
          dsimp only
          rw [r3]
          exact hf.dom y r r1)
        (fun y hy z hz e => by
          obtain ⟨r, r1, r2, r3⟩ := hm y hy
          obtain ⟨q, q1, q2, q3⟩ := hm z hz
          dsimp only at e
          exact hf.unique y z r q r1 q1 r2 q2 (by rw [← r3, ← q3, e]))
      rwa [Finset.card_range] at this
    · rw [hI.cnt]
      have hsur : Finset.range s.numa.domains.length ⊆
          ((Finset.range P.n).filter fun x => joins P s x (s.call t) i ∧
            past P s x (s.call t) (2 * i + 2)).image s.domainId := by
        intro d hd
        rw [Finset.mem_range] at hd
        obtain ⟨m, r, m1, m2, m3⟩ := hf.exists_master d hd
        have hmn : m < P.n := by
          obtain ⟨j, j1, -⟩ := (ha.reg m r).1 m1
          exact ha.lt m (List.mem_of_getElem? j1)
        rw [Finset.mem_image]
        have hdm : s.domainId m = d := by simp [OpenState.domainId, m1, m3]
        refine ⟨m, ?_, hdm⟩
        rw [Finset.mem_filter, Finset.mem_range]
        refine ⟨hmn, ⟨by simp [OpenState.master, m1, m2], hj.2.1, ?_⟩, hpast m hmn _ ?_⟩
        · rw [hdm]
          have hdt : s.domainId t < domainCount P := by rw [← h3, et]; exact hf.dom t rt hrt
          exact ((hagree _ hct i hj.2.1 _ hdt d (by rw [← h3]; exact hd)).1 hj.2.2)
        · simp only [hp, OpenPc.stage]; omega
      have := (Finset.card_le_card hsur).trans Finset.card_image_le
      rwa [Finset.card_range] at this
  | toFinal e => exact ⟨_, .arriveFinal s t e ht hp⟩
  | waitFinal =>
    refine ⟨_, .«return» s t ht hp ?_⟩
    rw [hI.fin, hn]
    have : ((Finset.range P.n).filter fun x => past P s x (s.call t) (2 * (P.plan (s.call t)).length + 4))
        = Finset.range P.n := by
      refine Finset.filter_true_of_mem ?_
      intro x hx
      exact hpast x (Finset.mem_range.1 hx) _ (by simp only [hp, OpenPc.stage]; omega)
    rw [this, Finset.card_range]

/-- **C79.** If all announced threads call `open` and the domains agree at the broadcasts (for example because
nothing fails, `C79_agree`), then every execution is finite, and where it ends all threads have returned from all
their calls, with the result of the initialisation of domain 0. -/
theorem C79_open_returns_partial (P : OpenParams) (hn : P.total = P.n) (hcpu : ∀ t < P.n, P.noCpu t = false)
    (hagree : ∀ k < P.calls, Agree P k) :
    (∃ μ : OpenState → Nat, ∀ s s', OpenReach P s → OpenStep P s s' → μ s' < μ s) ∧
    ∀ s, OpenReach P s → (∀ s', ¬ OpenStep P s s') →
      ∀ t < P.n, ∀ k < P.calls, ReturnedWith s t k (outcome P k 0) := by
  have hn' : P.total = 0 ∨ P.n ≤ P.total := Or.inr (by omega)
  refine ⟨⟨fun s => ∑ t ∈ Finset.range P.n, openLeft P s t, fun s s' h hs => openLeft_decreases hn' h hs⟩, ?_⟩
  intro s h hstuck t ht k hk
  refine C79_same_result P hn' s h t k ?_
  rw [returned_call hn' h]
  by_contra hc
  obtain ⟨s', hs⟩ := open_progress hn hcpu hagree h ⟨t, ht, by omega⟩
  exact hstuck s' hs

/-- From every reachable state some state is reached in which no step is possible. -/
theorem open_ends (P : OpenParams) (hn : P.total = 0 ∨ P.n ≤ P.total) (s : OpenState) (h : OpenReach P s) :
    ∃ s', OpenReach P s' ∧ ∀ s'', ¬ OpenStep P s' s'' := by
  by_contra hc
  push Not at hc
  have key : ∀ m s, OpenReach P s → (∑ t ∈ Finset.range P.n, openLeft P s t) = m → False := by
    intro m
    induction m using Nat.strong_induction_on with
    | _ m ih =>
      intro s h e
      obtain ⟨s', hs⟩ := hc s h
      exact ih _ (e ▸ openLeft_decreases hn h hs) s' (.step h hs) rfl
  exact key _ s h rfl

/-- **C79**, exactly: the calls of `open` return on all threads if and only if the domains agree. -/
theorem C79_returns_iff (P : OpenParams) (hn : P.total = P.n) (hpos : 0 < P.n)
    (hcpu : ∀ t < P.n, P.noCpu t = false) :
    (∀ s, OpenReach P s → (∀ s', ¬ OpenStep P s s') → ∀ t < P.n, ∀ k < P.calls, Returned s t k) ↔
      ∀ k < P.calls, Agree P k := by
  have hn' : P.total = 0 ∨ P.n ≤ P.total := Or.inr (by omega)
  constructor
  · intro h k hk
    by_contra hc
    obtain ⟨s, hs, hst⟩ := open_ends P hn' _ (.init rfl)
    exact C79_hang P hn' s hs k hc 0 k (Nat.le_refl _) (h s hs hst 0 hpos k hk)
  · intro h s hs hst t ht k hk
    have := (C79_open_returns_partial P hn hcpu h).2 s hs hst t ht k hk
    rw [Returned, this]; rfl

/-! ### When do the domains agree? -/

theorem stops_of_none {P : OpenParams} {k d : Nat} (h : ∀ i, P.opError k d i = none) :
    stopsAt P k d = (P.plan k).length := by
  rcases Nat.lt_or_ge (stopsAt P k d) (P.plan k).length with hl | hl
  · obtain ⟨e, he⟩ := opError_at_stops hl
    rw [h] at he; cases he
  · exact le_antisymm (stopsAt_le P k d) hl

theorem stops_congr {P : OpenParams} {k d d' : Nat} (h : ∀ i, (P.opError k d i).isSome = (P.opError k d' i).isSome) :
    stopsAt P k d = stopsAt P k d' := by
  unfold stopsAt
  simp only [h]

/-- **C79**: the domains agree if there is only one (for example with NUMA_COMMUNICATION off); if the operations
of domain 0 alone succeed and all others succeed or fail in all domains alike (a missing file, a variable that
does not exist); and always for PASS_THROUGH grids. -/
theorem C79_agree (P : OpenParams) (k : Nat)
    (h : P.detect = false ∨ P.n ≤ 1 ∨
      (∀ d i, (P.fail k d i).isSome → (P.plan k)[i]? = some .work ∧ ∀ d', (P.fail k d' i).isSome) ∨
      ∃ comms, P.plan k = initPlan .PASS_THROUGH comms) : Agree P k := by
  have hone : domainCount P ≤ 1 → Agree P k := by
    intro h1 i _ d hd d' hd'
    have : d = d' := by omega
    rw [this]
  rcases h with h | h | h | ⟨comms, h⟩
  · apply hone
    have : ((Finset.range P.n).image fun t => if P.detect then P.node t else 0) ⊆ {0} := by
      intro x hx
      obtain ⟨t, -, e⟩ := Finset.mem_image.1 hx
      simp [h] at e
      simp [← e]
    have := Finset.card_le_card this
    rwa [Finset.card_singleton] at this
  · apply hone
    exact Finset.card_image_le.trans (by rw [Finset.card_range]; exact h)
  · intro i _ d _ d' _
    have : stopsAt P k d = stopsAt P k d' := by
      apply stops_congr
      intro j
      rw [Bool.eq_iff_iff]
      have aux : ∀ x y, (P.opError k x j).isSome → (P.opError k y j).isSome := by
        intro x y hx
        unfold OpenParams.opError at hx ⊢
        cases hp : (P.plan k)[j]? with
        | none => rw [hp] at hx; cases hx
        | some o =>
          rw [hp] at hx
          cases o with
          | work => exact (h x j hx).2 y
          | root =>
            dsimp only at hx
            split_ifs at hx
            · have := (h x j hx).1; rw [hp] at this; cases this
            · cases hx
          | sync => cases hx
      exact ⟨aux d d', aux d' d⟩
    rw [this]
  · intro i hi d _ d' _
    have hlt : i < comms := by
      rw [h] at hi
      unfold initPlan levelPlan at hi
      simp only [ContainerType.kind] at hi
      by_contra hc
      rw [List.getElem?_append_right (by simp; omega), List.length_replicate] at hi
      cases hd : i - comms with
      | zero => rw [hd] at hi; cases hi
      | succ j => rw [hd] at hi; cases hi
    have aux : ∀ x, i < stopsAt P k x := by
      intro x
      by_contra hc
      have hlen : comms < (P.plan k).length := by rw [h]; simp [initPlan, levelPlan, ContainerType.kind]
      have hst : stopsAt P k x < (P.plan k).length := by omega
      obtain ⟨e, he⟩ := opError_at_stops hst
      refine (opError_lt he).2 ?_
      rw [h, initPlan, List.getElem?_append_left (by simp; omega)]
      simp only [List.getElem?_replicate]
      rw [if_pos (by omega)]
    exact ⟨fun _ => aux d', fun _ => aux d⟩

/-- **C79**, allocation: for every other container type, if memory allocation in domain 0 fails
(operation `comms + 1`) and the process has a second domain, no thread ever returns from this `open`. -/
theorem C79_allocation_hang (P : OpenParams) (hn : P.total = 0 ∨ P.n ≤ P.total) (c : ContainerType)
    (hc : c ≠ .PASS_THROUGH) (k comms : Nat) (hp : P.plan k = initPlan c comms) (hd : 2 ≤ domainCount P)
    (e : Error) (hf : P.fail k 0 (comms + 1) = some e) (hw : P.fail k 1 comms = none)
    (s : OpenState) (h : OpenReach P s) (t : Nat) : ¬ Returned s t k := by
  refine C79_hang P hn s h k ?_ t k (Nat.le_refl _)
  intro ha
  have hlev : ∃ rest, levelPlan c = .work :: .root :: .sync :: rest := by
    cases c <;> first | exact absurd rfl hc | exact ⟨_, rfl⟩
  obtain ⟨rest, hrest⟩ := hlev
  have hget : ∀ j, (P.plan k)[comms + j]? = (levelPlan c)[j]? := by
    intro j
    rw [hp, initPlan, List.getElem?_append_right (by simp), List.length_replicate]
    congr 1; omega
  have h0 := hget 0
  have h1 := hget 1
  have h2 := hget 2
  rw [hrest] at h0 h1 h2
  simp only [List.getElem?_cons_zero, List.getElem?_cons_succ, Nat.add_zero] at h0 h1 h2
  have hsync : ∀ j < comms, (P.plan k)[j]? = some .sync := by
    intro j hj
    rw [hp, initPlan, List.getElem?_append_left (by simp; omega), List.getElem?_replicate, if_pos hj]
  have hl := (List.getElem?_eq_some_iff.1 h2).1
  -- domain 0 stops before the broadcast
  have hs0 : stopsAt P k 0 ≤ comms + 1 := by
    by_contra hc
    have := opError_of_lt_stops (P := P) (k := k) (d := 0) (i := comms + 1) (by omega)
    unfold OpenParams.opError at this
    rw [h1] at this
    simp [hf] at this
  -- domain 1 does not
  have hs1 : comms + 2 < stopsAt P k 1 := by
    by_contra hc
    have hlt : stopsAt P k 1 < (P.plan k).length := by omega
    obtain ⟨e', he⟩ := opError_at_stops hlt
    have hns := (opError_lt he).2
    have hge : comms ≤ stopsAt P k 1 := by
      by_contra h'
      exact hns (hsync _ (by omega))
    unfold OpenParams.opError at he
    have : stopsAt P k 1 = comms ∨ stopsAt P k 1 = comms + 1 ∨ stopsAt P k 1 = comms + 2 := by omega
    rcases this with h' | h' | h'
    · rw [h', h0] at he; rw [hw] at he; cases he
    · rw [h', h1] at he; simp at he
    · rw [h', h2] at he; cases he
  have := (ha (comms + 2) h2 0 (by omega) 1 (by omega)).2 hs1
  omega

/-! ### More threads than announced -/

/-- The first thread that registers is a master thread, and stays one. -/
theorem first_is_master (P : OpenParams) (s : OpenState) (h : OpenReach P s) :
    (s.waiting = 0 ∧ s.numa = ⟨[], []⟩ ∧ s.initialised = false) ∨ s.numa.masters[0]? = some true := by
  induction h with
  | init h => subst h; exact Or.inl ⟨rfl, rfl, rfl⟩
  | step _ hs ih =>
    cases hs with
    | register t ht hpc hcall hi hcpu =>
      right
      rename_i s _
      rcases ih with ⟨hw, hn, -⟩ | ih
      · simp [hw, hn, registerThread]
      · have hlen : 0 < s.numa.masters.length := by
          rcases Nat.eq_zero_or_pos s.numa.masters.length with h0 | h0
          · rw [List.length_eq_zero_iff] at h0; rw [h0] at ih; cases ih
          · exact h0
        have hm : ∀ n, (s.numa.masters ++ List.replicate n false)[0]? = some true := by
          intro n; rw [List.getElem?_append_left hlen]; exact ih
        have hset : ∀ (l : List Bool) (j : Nat), l[0]? = some true → (l.set j true)[0]? = some true := by
          intro l j hl
          rw [List.getElem?_set]
          split_ifs with h1 h2
          · rfl
          · rcases l with _ | ⟨a, l⟩
            · cases hl
            · subst h1; simp at h2
          · exact hl
        simp only [registerThread]
        split <;> (try simp only) <;> split_ifs <;> first | exact ih | exact hm _ | exact hset _ _ ih | exact hset _ _ (hm _)
    | _ => exact ih

/-- A thread that did not take part in the first call and calls `open` later is taken for the master thread of domain
0: whatever the state of the other threads, it goes on to initialise the container of that domain. -/
theorem C79_extra_thread (P : OpenParams) (s : OpenState) (h : OpenReach P s) (t : Nat) (ht : t < P.n)
    (hnew : s.reg t = none) (hpc : s.pc t = .start) (hc : s.call t < P.calls) (hi : s.initialised = true) :
    ∃ s', OpenStep P s s' ∧ s'.pc t = .ops 0 ∧ s'.domainId t = 0 ∧ ∀ u ≠ t, s'.pc u = s.pc u := by
  refine ⟨_, .again s t ht hpc hc hi, ?_, ?_, fun u hu => upd_ne _ _ hu⟩
  · have hm : s.numa.masters[0]? = some true := by
      rcases first_is_master P s h with ⟨-, -, h'⟩ | h'
      · rw [hi] at h'; cases h'
      · exact h'
    simp [OpenState.threadId, hnew, hm, afterRegistration]
  · simp [OpenState.domainId, hnew]

/-- If one thread more than announced calls `open`, two threads can initialise the container of domain 0 at the
same time, without a lock between them. -/
theorem C79_extra_thread_violated (P : OpenParams) (ht : P.total = 1) (hn : P.n = 2) (hc : 0 < P.calls)
    (hcpu : P.noCpu 0 = false) :
    ∃ s, OpenReach P s ∧ s.pc 0 = .ops 0 ∧ s.pc 1 = .ops 0 ∧ s.domainId 0 = 0 ∧ s.domainId 1 = 0 := by
  have h0 : OpenReach P OpenState.fresh := .init rfl
  have h1 := Reachable.step h0 (.register _ 0 (by omega) rfl hc rfl hcpu)
  have h2 := Reachable.step h1 (.registered _ 0 ⟨0, 0, true⟩ (by omega) (by simp [upd_apply])
    (by simp [OpenState.fresh, ht]) (by simp [OpenState.fresh, registerThread, upd_self]))
  obtain ⟨s', hs, hp1, hd1, hrest⟩ := C79_extra_thread P _ h2 1 (by omega) (by simp [OpenState.fresh, upd_apply])
    (by simp [OpenState.fresh, upd_apply]) hc (by simp [OpenState.fresh, ht])
  refine ⟨s', .step h2 hs, ?_, hp1, ?_, hd1⟩
  · rw [hrest 0 (by decide)]; simp [upd_self, afterRegistration]
  · cases hs <;> simp_all [OpenState.domainId, OpenState.fresh, upd_apply, registerThread]

/-! ### Concrete cases -/

/-- Three threads on two NUMA nodes open two levels of a FULL grid with MPI windows; the file of the second level
does not exist. -/
def threeThreads : OpenParams where
  n := 3
  total := 3
  calls := 2
  node := fun t => if t = 1 then 1 else 0
  noCpu := fun _ => false
  detect := true
  plan := fun k => initPlan .FULL_MPIWIN_NUMA (2 - k)
  fail := fun k _ i => if k = 1 ∧ i = 1 then some .NOT_OPEN else none

theorem threeThreads_agree (k : Nat) (hk : k < 2) : Agree threeThreads k := by
  apply C79_agree
  refine Or.inr (Or.inr (Or.inl ?_))
  intro d i hi
  simp only [threeThreads] at hi ⊢
  split_ifs at hi with h
  · obtain ⟨rfl, rfl⟩ := h
    exact ⟨rfl, fun _ => rfl⟩
  · cases hi

/-- The hypotheses of `C79_open_returns_partial` are met, two domains take part, and the run ends: every thread returns
SUCCESS from the first call and the error from the second. -/
example : domainCount threeThreads = 2 ∧ ∃ s, OpenReach threeThreads s ∧
    ∀ t < 3, ReturnedWith s t 0 .SUCCESS ∧ ReturnedWith s t 1 .NOT_OPEN := by
  refine ⟨by decide, ?_⟩
  obtain ⟨s, hs, hst⟩ := open_ends threeThreads (Or.inr (by decide)) _ (.init rfl)
  refine ⟨s, hs, fun t ht => ?_⟩
  have h := (C79_open_returns_partial threeThreads rfl (fun _ _ => rfl) threeThreads_agree).2 s hs hst t ht
  have h0 := h 0 (by decide)
  have h1 := h 1 (by decide)
  have e0 : outcome threeThreads 0 0 = .SUCCESS := by decide
  have e1 : outcome threeThreads 1 0 = .NOT_OPEN := by decide
  rw [e0] at h0
  rw [e1] at h1
  exact ⟨h0, h1⟩

/-- The same, but the memory of the first level cannot be allocated in domain 0. -/
example : ∀ s, OpenReach { threeThreads with fail := fun _ d i => if d = 0 ∧ i = 3 then some .MPI_ERROR else none } s →
    ∀ t, ¬ Returned s t 0 := fun s h t =>
  C79_allocation_hang _ (Or.inr (by decide)) .FULL_MPIWIN_NUMA (by decide) 0 2 rfl (by decide) .MPI_ERROR
    rfl rfl s h t

/-- Two threads call, three were announced. -/
example : ∀ s, OpenReach { threeThreads with n := 2 } s → ∀ t k, ¬ Returned s t k :=
  fun s h t k => C79_missing_thread _ (Or.inr (by decide)) (Or.inl (by decide)) s h t k

/-- Two threads call, one was announced. -/
example : ∃ s, OpenReach { threeThreads with n := 2, total := 1 } s ∧ s.pc 0 = .ops 0 ∧ s.pc 1 = .ops 0 ∧
    s.domainId 0 = 0 ∧ s.domainId 1 = 0 := C79_extra_thread_violated _ rfl rfl (by decide) rfl

end Asagi.Props
