import Verif.Proofs.Resources
/- C78: closing a grid releases every resource that its levels acquired, exactly once. -/
namespace Asagi.Props
open Asagi

variable {h0 : Heap} {doms : Nat}

/-- All statements of `open` are executed: the level was opened successfully. -/
abbrev success (t : ContainerType) (l : Nat) : Nat × Nat := (l, (openStmts t).length)

/-- **C78.** In any heap, for every container type and number of NUMA domains: an application that opens
the finest level first and then any other levels, each once and successfully, and closes the grid, leaves
exactly the resources that were live before. Nothing is released twice, and nothing is released while
another resource uses it (both would make the result `none`). -/
theorem C78_released (hw : h0.WF) (t : ContainerType) (hd : 0 < doms) (top : Nat) (levels : List Nat)
    (hnd : (top :: levels).Nodup) (hle : ∀ l ∈ levels, l ≤ top) :
    ∃ s h, (GridRes.constructed h0 doms).openAll t ((top :: levels).map (success t)) = some s ∧
      s.close t = some h ∧ h.live = h0.live := by
  obtain ⟨s, e, i1, i2, i3, i4⟩ := openAll_top hw t hd top (openStmts t).length (levels.map (success t))
    (by simpa [Function.comp_def] using hnd) (by simpa using hle)
  have hall : ∀ l, l < s.size → OpenedTo t s l (openStmts t).length ∨ OpenedTo t s l 0 := by
    intro l hl
    rcases i4 l (by omega) with ⟨k', h1, h2⟩ | ⟨h, -⟩
    · left
      have : k' = (openStmts t).length := by
        simp only [List.mem_cons, List.mem_map, Prod.mk.injEq] at h1
        rcases h1 with h | ⟨_, -, -, h⟩
        · exact h.2
        · exact h.symm
      rw [← this]; exact h2
    · exact .inr h
  obtain ⟨h, c1, c2⟩ := close_spec hw.skip t i1 (fun l hl => (hall l hl).elim (fun h => ⟨_, h⟩) fun h => ⟨_, h⟩)
  refine ⟨s, h, e, c1, ?_⟩
  funext i
  rcases c2 i with hi | ⟨-, m, us, -, -, l, hl, hk⟩
  · exact hi
  · rcases hall l hl with h | h
    · have := (hk _ h).2; omega
    · have := (hk _ h).1; omega

/-- While the grid is open, all pointers of all levels in all domains refer to live resources of their
member; levels do not share resources; domains share exactly those of the members that domain 0 acquires. -/
theorem C78_pointers_valid (hw : h0.WF) (t : ContainerType) (hd : 0 < doms) (top k : Nat) (ops : List (Nat × Nat))
    (hnd : (top :: ops.map Prod.fst).Nodup) (hle : ∀ o ∈ ops, o.1 ≤ top) :
    ∃ s, (GridRes.constructed h0 doms).openAll t ((top, k) :: ops) = some s ∧
      (∀ d l m r, d < doms → l ≤ top → s.ptr d l m = some r →
        h0.live r = none ∧ ∃ us, s.heap.live r = some (.member m, us) ∧ ∀ u ∈ us, s.heap.live u ≠ none) ∧
      (∀ d d' l l' m m' r, d < doms → d' < doms → l ≤ top → l' ≤ top → s.ptr d l m = some r →
        s.ptr d' l' m' = some r → l = l' ∧ m = m' ∧ (d = d' ∨ m.masterOnly = true)) := by
  obtain ⟨s, e, i1, i2, i3, -⟩ := openAll_top hw t hd top k ops hnd hle
  -- the place that owns a pointer
  have hown : ∀ d l m r, d < doms → l ≤ top → s.ptr d l m = some r →
      ∃ d0, Owned s (.mem d0 l m) ∧ ptrK s (.mem d0 l m) = some r ∧ (d0 = d ∨ m.masterOnly = true) := by
    intro d l m r h1 h2 h3
    by_cases hm : m.masterOnly = true
    · refine ⟨0, ⟨by omega, by omega, .inl rfl⟩, ?_, .inr hm⟩
      simp only [ptrK]
      rw [← i1.shared d l m hm]; exact h3
    · exact ⟨d, ⟨by omega, by omega, .inr (by simpa using hm)⟩, h3, .inl rfl⟩
  refine ⟨s, e, ?_, ?_⟩
  · intro d l m r h1 h2 h3
    obtain ⟨d0, o1, o2, -⟩ := hown d l m r h1 h2 h3
    obtain ⟨a1, us, a2, a3⟩ := i1.own _ r o1 o2
    refine ⟨hw.fresh r (by simp only [Heap.skip] at a1; omega), us, a2, ?_⟩
    intro u hu
    obtain ⟨k', -, b2, b3⟩ := a3 u hu
    obtain ⟨-, us', b4, -⟩ := i1.own k' u b2 b3
    rw [b4]; simp
  · intro d d' l l' m m' r h1 h1' h2 h2' h3 h3'
    obtain ⟨d0, o1, o2, o3⟩ := hown d l m r h1 h2 h3
    obtain ⟨d0', o1', o2', o3'⟩ := hown d' l' m' r h1' h2' h3'
    have := i1.inj _ _ r o1 o1' o2 o2'
    cases this
    refine ⟨rfl, rfl, ?_⟩
    rcases o3 with rfl | h
    · rcases o3' with rfl | h'
      · exact .inl rfl
      · exact .inr h'
    · exact .inr h

/-- Opens that fail, after any statement: the grid can be closed, nothing is released twice, the resources
of the rest of the application are untouched, and everything is released but, possibly, the mutex of a
window (FULL with MPI windows), the list of the managers and the mutexes of the directory (CACHE with a
communication thread). Missing for the full property: these three, see `C78_window_leak` and
`C78_receiver_leak`. -/
theorem C78_failed_partial (hw : h0.WF) (t : ContainerType) (hd : 0 < doms) (top k : Nat) (ops : List (Nat × Nat))
    (hnd : (top :: ops.map Prod.fst).Nodup) (hle : ∀ o ∈ ops, o.1 ≤ top) :
    ∃ s h, (GridRes.constructed h0 doms).openAll t ((top, k) :: ops) = some s ∧ s.close t = some h ∧
      ∀ i, h.live i = h0.live i ∨ (h0.live i = none ∧ ∃ m us, h.live i = some (.member m, us) ∧
        ((t.kind = .full ∧ t.mpi = .window ∧ m = .winMutex) ∨
         (t.kind = .cache ∧ t.mpi = .thread ∧ (m = .managers ∨ m = .blockLocks)))) := by
  obtain ⟨s, e, i1, i2, i3, i4⟩ := openAll_top hw t hd top k ops hnd hle
  obtain ⟨h, c1, c2⟩ := close_spec hw.skip t i1 (fun l hl =>
    (i4 l (by omega)).elim (fun ⟨k, _, h⟩ => ⟨k, h⟩) fun h => ⟨0, h.1⟩)
  refine ⟨s, h, e, c1, ?_⟩
  intro i
  rcases c2 i with hi | ⟨h1, m, us, h2, h3, -⟩
  · exact .inl hi
  · refine .inr ⟨h1, m, us, h2, ?_⟩
    simpa [Member.leakable, and_assoc] using h3

/-- Without MPI communication everything is released, wherever the opens failed. -/
theorem C78_failed_released (hw : h0.WF) (t : ContainerType) (ht : t.mpi = .no) (hd : 0 < doms) (top k : Nat)
    (ops : List (Nat × Nat)) (hnd : (top :: ops.map Prod.fst).Nodup) (hle : ∀ o ∈ ops, o.1 ≤ top) :
    ∃ s h, (GridRes.constructed h0 doms).openAll t ((top, k) :: ops) = some s ∧ s.close t = some h ∧
      h.live = h0.live := by
  obtain ⟨s, h, e, c, f⟩ := C78_failed_partial hw t hd top k ops hnd hle
  refine ⟨s, h, e, c, ?_⟩
  funext i
  rcases f i with h | ⟨-, m, us, -, h | h⟩
  · exact h
  · rw [ht] at h; simp at h
  · rw [ht] at h; simp at h

/-- A grid on which no level was ever opened. -/
theorem C78_never_opened (t : ContainerType) : (GridRes.constructed h0 doms).close t = some h0 := by
  unfold GridRes.close
  apply Heap.freeAll_none
  intro x hx
  simp [containerPtrs, GridRes.constructed] at hx
  exact hx.2

/-! ### What the code does not release, or releases twice -/

/-- The empty heap. -/
def noHeap : Heap := { next := 0, live := fun _ => none }

theorem noHeap_wf : noHeap.WF := ⟨fun _ _ => rfl, fun _ _ _ h => by cases h⟩

/-- The kinds of the resources that are live. -/
def leftovers (h : Heap) : List ResKind := (List.range h.next).filterMap fun i => (h.live i).map Prod.fst

/-- Levels opened coarse to fine, so that the vector of the levels is reallocated: for every container type
the resources of the first level are released twice (the old objects are destroyed). -/
theorem C78_growth_double_free (t : ContainerType) :
    ((GridRes.constructed noHeap 1).openAll t [success t 0, success t 1]).bind (GridRes.close t) = none := by
  cases t <;> decide +kernel

/-- Opening a level again: what the first `open` acquired is lost. -/
theorem C78_reopen_leaks :
    (((GridRes.constructed noHeap 1).openAll .FULL [success .FULL 0, success .FULL 0]).bind (GridRes.close .FULL)).map
      leftovers = some [.member .data] := by decide +kernel

/-- Opening a level with communication thread again: the first receiver stays registered although its object
is destroyed. -/
theorem C78_reopen_receiver :
    ((GridRes.constructed noHeap 1).openAll .FULL_MPITHREAD [success .FULL_MPITHREAD 0, success .FULL_MPITHREAD 0]).bind
      (GridRes.close .FULL_MPITHREAD) = none := by decide +kernel

/-- `MPI_Win_create` fails (after 8 statements): the mutex of the window is not released. -/
theorem C78_window_leak :
    (((GridRes.constructed noHeap 1).openAll .FULL_MPIWIN [(0, 8)]).bind (GridRes.close .FULL_MPIWIN)).map leftovers
      = some [.member .winMutex] := by decide +kernel

/-- The first receiver cannot be registered, e.g. as the communication thread is not running (after 8
statements): the list of managers and the mutexes are not released. -/
theorem C78_receiver_leak :
    (((GridRes.constructed noHeap 1).openAll .CACHE_MPITHREAD [(0, 8)]).bind (GridRes.close .CACHE_MPITHREAD)).map
      leftovers = some [.member .managers, .member .blockLocks] := by decide +kernel

/-! ### The hypotheses are met -/

/-- A heap with resources of another grid: a window and the memory that it exposes. -/
def otherHeap : Heap :=
  { next := 2,
    live := fun i => if i = 0 then some (.member .data, []) else if i = 1 then some (.member .window, [0]) else none }

theorem otherHeap_wf : otherHeap.WF := by
  constructor
  · intro i hi
    simp only [otherHeap] at hi ⊢
    rw [if_neg (by omega), if_neg (by omega)]
  · intro i k us h u hu
    simp only [otherHeap] at h ⊢
    split at h
    · cases h; cases hu
    · split at h
      · cases h; simp at hu; omega
      · cases h

example : ∃ s h, (GridRes.constructed otherHeap 3).openAll .CACHE_MPITHREAD_NUMA
      ([2, 0].map (success .CACHE_MPITHREAD_NUMA)) = some s ∧ s.close .CACHE_MPITHREAD_NUMA = some h ∧
      h.live = otherHeap.live :=
  C78_released otherHeap_wf _ (by decide) 2 [0] (by decide) (by decide)

/-- Resources are really acquired: 3 domains, two of three levels opened. -/
example : ((GridRes.constructed noHeap 3).openAll .FULL_MPIWIN_NUMACACHE
      ([2, 0].map (success .FULL_MPIWIN_NUMACACHE))).map (fun s => (leftovers s.heap).length) = some 38 := by
  decide +kernel

end Asagi.Props
