import Verif.Proofs.OpenSyncEnd
/-
C100: opening a grid works with the thread barriers as they are implemented.
-/
namespace Asagi.Props
open Asagi.Spec

variable {P : OpenParams} {ob : Nat → Nat → Nat}

/-! ### Refinement -/

/-- **C100.** Whatever the schedule, and whichever `Sync` object each broadcast uses, the threads are at every moment
where they would be with barriers that simply count arrivals: same registrations, same completed calls, same
results. -/
theorem C100_refines (P : OpenParams) (ob : Nat → Nat → Nat) (hT : 0 < P.total) (hn : P.n ≤ P.total) (s : OSState)
    (h : OSReach P ob s) : ∃ a, OpenReach P a ∧ SameOpen P ob s a := by
  obtain ⟨a, h1, h2, -⟩ := h.ok hT hn
  exact ⟨a, h1, h2⟩

/-- **C100**: all threads that return from the same call of `open` return the same value, that of domain 0. In
particular no thread reads the result after the variable it is in has ceased to exist. -/
theorem C100_same_result (P : OpenParams) (ob : Nat → Nat → Nat) (hT : 0 < P.total) (hn : P.n ≤ P.total) (s : OSState)
    (h : OSReach P ob s) (t k : Nat) (hr : OSReturned s t k) : OSReturnedWith s t k (outcome P k 0) := by
  obtain ⟨a, h1, h2⟩ := C100_refines P ob hT hn s h
  have := C79_same_result P (.inr hn) a h1 t k (by unfold Returned; rw [h2.res]; exact hr)
  unfold ReturnedWith at this
  rw [h2.res] at this
  exact this

/-- **C100**, broadcasts among the domains: a domain that leaves a broadcast has the value of domain 0, domain 0 passed
it to the same operation of the same call, and it is still in that operation, so that its variable exists. -/
theorem C100_value (P : OpenParams) (ob : Nat → Nat → Nat) (hT : 0 < P.total) (hn : P.n ≤ P.total) (s : OSState)
    (h : OSReach P ob s) (t i : Nat) (ht : t < P.n) (hp : s.pc t = .ops i)
    (hs : (P.plan (s.call t))[i]? = some .sync) (o' : SyncState (Nat × Nat))
    (hx : (s.obj (ob (s.call t) i)).next s.domParams (s.domainId t) = some o')
    (hl : o'.rnd (s.domainId t) ≠ (s.obj (ob (s.call t) i)).rnd (s.domainId t)) :
    ∃ r < P.n, ∃ m, s.domainId r = 0 ∧ s.pc r = .ops i ∧ s.call r = s.call t ∧
      (s.obj (ob (s.call t) i)).rnd 0 = m ∧
      o'.got (s.domainId t) ((s.obj (ob (s.call t) i)).rnd (s.domainId t)) = some (some (0, m)) := by
  obtain ⟨a, hr, hsame, hI⟩ := h.ok hT hn
  rw [same_abs hsame] at hr
  have hn' : P.total = 0 ∨ P.n ≤ P.total := .inr hn
  have hi := os_late hn' hr (.inl ⟨i, hp⟩)
  have hd := os_dom hn' hr hi ht
  obtain ⟨hm, -⟩ := os_ops hn' hr hp
  have hT' : 0 < s.domParams.n := by show 0 < s.numa.domains.length; omega
  have hroot : ∀ k r, s.domParams.root k = some r → r < s.domParams.n := by
    intro k r hk; cases hk; exact hT'
  have hO := hI.objReach hi (ob (s.call t) i)
  have hgot := left_got (r := 0) hT' hroot hO hd hx hl rfl
  have hst := root_stays (r := 0) hT' hroot hO (t := s.domainId t) hd rfl
  by_cases hd0 : s.domainId t = 0
  · refine ⟨t, ht, _, hd0, hp, rfl, rfl, ?_⟩
    rw [hgot, hd0]
    rfl
  · obtain ⟨x, q, m1, m2, m3⟩ := (os_facts hn' hr).exists_master 0 (by show 0 < s.numa.domains.length; omega)
    have hxn : x < P.n := by
      obtain ⟨ar, ha⟩ := (hr.inv hn').reg
      obtain ⟨j, j1, -⟩ := (ha.reg x q).1 m1
      exact ha.lt x (List.mem_of_getElem? j1)
    have m1 : s.reg x = some q := m1
    have hxm : s.master x = true := by simp [OSState.master, m1, m2]
    have hxd : s.domainId x = 0 := by simp [OSState.domainId, m1, m3]
    have hall := left_all hT' hroot hO hd hx hl 0 hT' (fun e => hd0 e.symm)
    obtain ⟨hj, hpa⟩ := os_arrived hn' hr hI hi ht hxn hp hs hxm (by rw [hxd]; exact hall)
    rcases os_after hn' hr hI hi ht hxn hp hs hxm hj hpa with hlt | ⟨h1, h2, h3, -⟩
    · rw [hxd] at hlt; omega
    · rw [hxd] at h1
      refine ⟨x, hxn, _, hxd, h2, h3, rfl, ?_⟩
      rw [hgot, h1]
      rfl

/-! ### Return -/

/-- **C100**: if the announced number of threads call `open` and the domains agree, every run ends, and at its end all
threads have returned from all calls. -/
theorem C100_returns (P : OpenParams) (ob : Nat → Nat → Nat) (hpos : 0 < P.n) (hn : P.total = P.n)
    (hcpu : ∀ t < P.n, P.noCpu t = false) (hagree : ∀ k < P.calls, Agree P k) :
    (∃ μ : OSState → Nat, ∀ s s', OSReach P ob s → OSStep P ob s s' → μ s' < μ s) ∧
    ∀ s, OSReach P ob s → (∀ s', ¬ OSStep P ob s s') →
      ∀ t < P.n, ∀ k < P.calls, OSReturnedWith s t k (outcome P k 0) := by
  have hT : 0 < P.total := by omega
  have hn' : P.n ≤ P.total := by omega
  refine ⟨⟨osLeft P ob, fun s s' h hs => osLeft_decreases hT hn' (h.ok hT hn') hs⟩, ?_⟩
  intro s h hstuck t ht k hk
  refine C100_same_result P ob hT hn' s h t k ?_
  obtain ⟨a, hr, hsame, hI⟩ := h.ok hT hn'
  rw [same_abs hsame] at hr
  have := returned_call (.inr hn') hr (t := t) (k := k)
  refine this.2 ?_
  by_contra hc
  have hc : ¬ k < s.call t := hc
  obtain ⟨s', hs⟩ := os_progress (.inr hn') hr hI hn hcpu hagree ⟨t, ht, by omega⟩
  exact hstuck s' hs

/-- **C100**: nothing but a disagreement of the domains makes the threads wait for ever; then they do, in every
schedule. -/
theorem C100_hang (P : OpenParams) (ob : Nat → Nat → Nat) (hT : 0 < P.total) (hn : P.n ≤ P.total) (s : OSState)
    (h : OSReach P ob s) (k : Nat)
    (hk : ¬ Agree P k ∨ P.total ≠ P.n ∨ ∃ t < P.n, P.noCpu t = true) (t k' : Nat) (hkk : k ≤ k') :
    ¬ OSReturned s t k' := by
  obtain ⟨a, h1, h2⟩ := C100_refines P ob hT hn s h
  intro hr
  have hr' : Returned a t k' := by unfold Returned; rw [h2.res]; exact hr
  rcases hk with hk | hk
  · exact C79_hang P (.inr hn) a h1 k hk t k' hkk hr'
  · refine C79_missing_thread P (.inr hn) ?_ a h1 t k' hr'
    rcases hk with hk | hk
    · exact .inl hk
    · exact .inr (.inr hk)

/-- Every run ends. -/
theorem os_ends (hT : 0 < P.total) (hn : P.n ≤ P.total) (s : OSState) (h : OSReach P ob s) :
    ∃ s', OSReach P ob s' ∧ ∀ s'', ¬ OSStep P ob s' s'' := by
  by_contra hc
  push Not at hc
  have key : ∀ m s, OSReach P ob s → osLeft P ob s = m → False := by
    intro m
    induction m using Nat.strong_induction_on with
    | _ m ih =>
      intro s h e
      obtain ⟨s', hs⟩ := hc s h
      exact ih _ (e ▸ osLeft_decreases hT hn (h.ok hT hn) hs) s' (.step h hs) rfl
  exact key _ s h rfl

/-- **C100**, exactly: with the implemented barriers the calls of `open` return on all threads if and only if the
domains agree. -/
theorem C100_returns_iff (P : OpenParams) (ob : Nat → Nat → Nat) (hpos : 0 < P.n) (hn : P.total = P.n)
    (hcpu : ∀ t < P.n, P.noCpu t = false) :
    (∀ s, OSReach P ob s → (∀ s', ¬ OSStep P ob s s') → ∀ t < P.n, ∀ k < P.calls, OSReturned s t k) ↔
      ∀ k < P.calls, Agree P k := by
  have hT : 0 < P.total := by omega
  have hn' : P.n ≤ P.total := by omega
  constructor
  · intro h k hk
    by_contra hc
    obtain ⟨s, hs, hst⟩ := os_ends (ob := ob) hT hn' _ (.init rfl)
    exact C100_hang P ob hT hn' s hs k (.inl hc) 0 k (Nat.le_refl _) (h s hs hst 0 hpos k hk)
  · intro h s hs hst t ht k hk
    have := (C100_returns P ob hpos hn hcpu h).2 s hs hst t ht k hk
    rw [OSReturned, this]; rfl

/-! ### Concrete cases -/

/-- Three threads on two NUMA nodes; the constructors of the levels use m_syncDomains (object 0), the other broadcasts
of a call the communicator of its level. The run ends: every thread returns SUCCESS from the first call and the error
from the second. -/
example : ∃ s, OSReach threeThreads (fun k i => if i < 2 - k then 0 else k + 1) s ∧
    ∀ t < 3, OSReturnedWith s t 0 .SUCCESS ∧ OSReturnedWith s t 1 .NOT_OPEN := by
  obtain ⟨s, hs, hst⟩ := os_ends (P := threeThreads) (ob := fun k i => if i < 2 - k then 0 else k + 1)
    (by decide) (by decide) _ (.init rfl)
  refine ⟨s, hs, fun t ht => ?_⟩
  have h := (C100_returns threeThreads _ (by decide) rfl (fun _ _ => rfl) threeThreads_agree).2 s hs hst t ht
  have h0 := h 0 (by decide)
  have h1 := h 1 (by decide)
  have e0 : outcome threeThreads 0 0 = .SUCCESS := by decide
  have e1 : outcome threeThreads 1 0 = .NOT_OPEN := by decide
  rw [e0] at h0
  rw [e1] at h1
  exact ⟨h0, h1⟩

/-- The same if all broadcasts of all calls used one object. -/
example : ∃ s, OSReach threeThreads (fun _ _ => 0) s ∧ ∀ t < 3, OSReturnedWith s t 1 .NOT_OPEN := by
  obtain ⟨s, hs, hst⟩ := os_ends (P := threeThreads) (ob := fun _ _ => 0) (by decide) (by decide) _ (.init rfl)
  refine ⟨s, hs, fun t ht => ?_⟩
  have h := (C100_returns threeThreads _ (by decide) rfl (fun _ _ => rfl) threeThreads_agree).2 s hs hst t ht 1
    (by decide)
  have e1 : outcome threeThreads 1 0 = .NOT_OPEN := by decide
  rw [e1] at h
  exact h

/-- Two threads in different domains, one broadcast. -/
def twoDomainOpen : OpenParams where
  n := 2
  total := 2
  calls := 1
  node := fun t => t
  noCpu := fun _ => false
  detect := true
  plan := fun _ => [.sync]
  fail := fun _ _ _ => none

/-- The hypotheses of `C100_value` are met: thread 0 registers and waits, thread 1 registers as the last one, arrives at
the broadcast and waits, thread 0 arrives and wakes it, thread 1 leaves with the value of domain 0. -/
example : ∃ s o', OSReach twoDomainOpen (fun _ _ => 0) s ∧ s.pc 1 = .ops 0 ∧ s.domainId 1 = 1 ∧
    (s.obj 0).next s.domParams (s.domainId 1) = some o' ∧ o'.rnd 1 ≠ (s.obj 0).rnd 1 ∧
    o'.got 1 0 = some (some (0, 0)) := by
  have h1 : OSReach twoDomainOpen (fun _ _ => 0) _ :=
    .step (.init rfl) (.check _ 0 (by decide) rfl (by decide) rfl rfl)
  have h2 := Reachable.step h1 (.regArrive _ 0 _ (by decide) rfl rfl rfl)
  have h3 := Reachable.step h2 (.check _ 1 (by decide) rfl (by decide) rfl rfl)
  have h4 := Reachable.step h3 (.regArrive _ 1 _ (by decide) rfl rfl rfl)
  have h5 := Reachable.step h4 (.sync _ 1 0 _ (by decide) rfl rfl rfl)
  have h6 := Reachable.step h5 (.regPass _ 0 ⟨0, 0, true⟩ _ (by decide) rfl rfl rfl rfl)
  have h7 := Reachable.step h6 (.sync _ 0 0 _ (by decide) rfl rfl rfl)
  exact ⟨_, _, h7, rfl, rfl, rfl, by decide, rfl⟩

end Asagi.Props
