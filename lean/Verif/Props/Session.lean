import Verif.Spec.Session
import Verif.Props.Defaults
import Verif.Props.FullConc
import Verif.Props.PassConc
import Verif.Props.SharedRetry
/-
C65: from `setParam` to the getters. Whatever the parameters, the build, the machine and the other
threads are, a getter returns the value of the nearest sample of the variable.
-/
namespace Asagi.Props
open Asagi Asagi.Spec
variable {α : Type} {S : Session α} {sel : Selection} {c : LevelCfg α} {fp : Fp} {file : VarFile α}
  {nc : List NcAxis} {val : List Nat → α} {name : List Char}

theorem readsVariable_name (h : ReadsVariable S name) : (openArgs S.params S.level).varName = name := by
  unfold ReadsVariable at h
  cases hl : lastSetting S.calls "VARIABLE".toList S.level with
  | none =>
    rw [hl] at h
    rw [← h]
    exact (C61_defaults S.calls S.level).1 hl
  | some v =>
    rw [hl] at h
    rw [← h]
    exact (C61_settings S.calls S.level).1 v hl

theorem session_open (hv : ReadsVariable S name) (hfile : file name = some (nc, val))
    (ho : S.open fp file = some (sel, c)) :
    initContainers S.build S.params S.commSize S.domains = some sel ∧
    0 < (openArgs S.params S.level).cacheSize ∧
    openLevel fp (cellCentered S.params) nc val S.basic (openArgs S.params S.level).blockSizes
      (timeDimension S.params) S.junk = some c := by
  simp only [Session.open, Option.bind_eq_bind, Option.bind_eq_some_iff] at ho
  obtain ⟨sel', h1, h2⟩ := ho
  split at h2
  · cases h2
  · rename_i hz
    simp only [Option.bind_eq_some_iff] at h2
    obtain ⟨⟨nc', val'⟩, h3, c', h4, h5⟩ := h2
    rw [readsVariable_name hv, hfile] at h3
    simp only [Option.some.injEq, Prod.mk.injEq, Option.pure_def] at h3 h5
    obtain ⟨rfl, rfl⟩ := h3
    obtain ⟨rfl, rfl⟩ := h5
    exact ⟨h1, by omega, h4⟩

theorem _root_.Asagi.Spec.Possible.env (hp : Possible S sel) : Environment S.build S.params S.commSize S.domains :=
  ⟨hp.someRank, hp.someDomain, hp.noMpi, fun h => hp.noDetection (by unfold numaDetection; rw [h]; exact decide_eq_false (fun h => h rfl)), hp.noNuma⟩

/-- **C65**, in the arithmetic of the machine (`fp`): the value at the index that the level computes
for the position, which does not depend on any parameter. -/
theorem C65_value (hp : Possible S sel) (hne : nc ≠ []) (hx : SizesExact fp (nc.map NcAxis.size))
    (hv : ReadsVariable S name) (hfile : file name = some (nc, val))
    (ho : S.open fp file = some (sel, c)) {t : Nat} {pos : List Dbl} {v : α}
    (hr : Returns S sel c t pos v) :
    ∃ idx, pos2index fp (openAxes fp false nc) pos = some idx ∧ v = val idx := by
  obtain ⟨h1, h2, h3⟩ := session_open hv hfile ho
  have hO : Opened fp (cellCentered S.params) nc val c := ⟨hne, hx, _, _, _, _, h3⟩
  obtain ⟨wf, hx', hfp, hax, hval⟩ := hO.spec
  rw [pos2index_valuePosition fp false (cellCentered S.params)]
  cases hr with
  | full mem0 m ht hl hm hg =>
    obtain ⟨r1, -⟩ := C30_full_reaches_all _ _ _ _ hp.env sel h1 (by rw [ht]; rfl)
    obtain ⟨m', e1, e2⟩ := C05_full_value hO (S.dist sel) (r1 ht).1 (r1 ht).2 mem0 hl
    rw [e1] at hm
    injection hm with hm; subst hm
    have : ∃ idx, pos2index c.fp c.axes pos = some idx := by
      simp only [fullGetAt, Option.bind_eq_bind, Option.bind_eq_some_iff] at hg
      obtain ⟨idx, hidx, -⟩ := hg
      exact ⟨idx, hidx⟩
    obtain ⟨idx, hidx⟩ := this
    rw [hfp, hax] at hidx
    rw [e2 pos idx hidx] at hg
    injection hg with hg
    exact ⟨idx, hidx, hg.symm⟩
  | fullLocal s0 idx hk hf hO' hidx hloc hg =>
    rw [hfp, hax] at hidx
    obtain ⟨l, _, hl, -⟩ := CacheList.init_inv hO'.size hO'.hand
    have := (C07_concurrent_value hO hO' (.init ⟨l, hl, rfl⟩) t pos idx hidx).1 hloc
    rw [show fullGetAt c (S.full sel).ds (s0.data ((S.full sel).dom t / (S.full sel).ds.domains))
      ((S.full sel).dom t % (S.full sel).ds.domains) pos = some v from hg] at this
    injection this with this
    exact ⟨idx, hidx, this⟩
  | fullRemote s0 st st1 st2 hk hf hO' hst hc hd hg =>
    obtain ⟨idx, hidx, -⟩ := id hc
    rw [hfp, hax] at hidx
    exact ⟨idx, hidx, (C07_concurrent_value hO hO' hst t pos idx hidx).2 st1 st2 v hc hd hg⟩
  | cache st st1 st2 hk hst hc hd hg =>
    obtain ⟨idx, hidx, -⟩ := id hc
    rw [hfp, hax] at hidx
    exact ⟨idx, hidx, C09_shared_cache_value hO (S.cache sel c) ⟨hp.someDomain, h2, hp.hand⟩ hst t pos idx hidx hc hd
      v hg⟩
  | passThrough n buf0 st hk hb hst hg => exact (C76_value hO hb hst t pos).1 v hg

/-- **C65.** A grid is configured by any sequence of `setParam` calls and opened with a file whose
variable (the last setting of VARIABLE, or `z`) has equidistant samples. Whatever a getter returns, in
any thread on any process, for whatever grid type, block sizes, cache size, communication, number of
processes and domains and after whatever history: it is the value of the sample that is nearest to the
position. -/
theorem C65_nearest_value (hp : Possible S sel) (hf : RegularFile nc) (hv : ReadsVariable S name)
    (hfile : file name = some (nc, val)) (ho : S.open .exact file = some (sel, c)) {t : Nat}
    {pos : List ℚ} (hpos : pos.length = nc.length) {v : α} (hr : Returns S sel c t (pos.map .fin) v) :
    ∃ idx, Selected nc pos idx ∧ v = val idx := by
  obtain ⟨idx, e1, e2⟩ := C65_value hp hf.1
    (sizesExact_exact (by
      intro s hs
      obtain ⟨a, ha, rfl⟩ := List.mem_map.1 hs
      exact (hf.2 a ha).2.1)) hv hfile ho hr
  obtain ⟨idx', e3, e4, -⟩ := C01_nearest_sample false nc hf pos hpos
  rw [e1] at e3
  injection e3 with e3; subst e3
  exact ⟨idx, e4, e2⟩

/-- **C65.** Two grids that read the same variable of the same file return the same value for the same
position, however different their parameters, builds, machines and histories are. -/
theorem C65_same_value {S' : Session α} {sel' : Selection} {c' : LevelCfg α} (hne : nc ≠ [])
    (hx : SizesExact fp (nc.map NcAxis.size)) (hfile : file name = some (nc, val))
    (hp : Possible S sel) (hv : ReadsVariable S name) (ho : S.open fp file = some (sel, c))
    (hp' : Possible S' sel') (hv' : ReadsVariable S' name) (ho' : S'.open fp file = some (sel', c'))
    {t t' : Nat} {pos : List Dbl} {v v' : α} (hr : Returns S sel c t pos v)
    (hr' : Returns S' sel' c' t' pos v') : v = v' := by
  obtain ⟨idx, e1, rfl⟩ := C65_value hp hne hx hv hfile ho hr
  obtain ⟨idx', e2, rfl⟩ := C65_value hp' hne hx hv' hfile ho' hr'
  rw [e1] at e2
  injection e2 with e2; subst e2
  rfl

/-! ### Each access returns a value -/

/-- A thread leaves a getter only with a value. -/
theorem step_idle {P : DistParams α} {st st' : DistState α} (hs : DistStep P st st') {t : Nat}
    (hn : st.pc (.user t) ≠ .idle) (hi : st'.pc (.user t) = .idle) : ∃ v, GetterReturns t st v := by
  have hother : st'.pc (.user t) ≠ st.pc (.user t) := fun e => hn (by rw [← e, hi])
  cases hs with
  | comm r hc => cases hc <;> exact absurd rfl hother
  | user u hu =>
    by_cases hut : u = t
    · subst hut
      cases hu with
      | unlock _ _ b off s v hp => exact ⟨v, b, off, s, hp⟩
      | _ => simp [DistState.goto, upd_self] at hi
    · exfalso
      have hne : Agent.user t ≠ Agent.user u := by intro e; injection e with e; exact hut e.symm
      apply hother
      cases hu with
      | delThread => simp only [DistState.goto, sendOp_pc]; exact upd_ne _ _ hne
      | addThread => simp only [DistState.goto, sendOp_pc]; exact upd_ne _ _ hne
      | finThread => simp only [DistState.goto, sendOp_pc]; exact upd_ne _ _ hne
      | _ => exact upd_ne _ _ hne

/-- An execution of bounded length that can be continued while the thread is busy reaches the state in
which the thread returns. -/
theorem run_until {σ : Type} (Run : Nat → σ → Prop) (Ret : σ → Prop) (N : Nat)
    (hN : ∀ n s, Run n s → n ≤ N) (hs : ∀ n s, Run n s → Ret s ∨ ∃ s', Run (n + 1) s')
    (s0 : σ) (h0 : Run 0 s0) : ∃ n s, Run n s ∧ Ret s := by
  have key : ∀ k n s, Run n s → N + 1 ≤ n + k → ∃ n s, Run n s ∧ Ret s := by
    intro k
    induction k with
    | zero => intro n s h hk; have := hN n s h; omega
    | succ k ih =>
      intro n s h hk
      rcases hs n s h with hr | ⟨s', h'⟩
      · exact ⟨n, s, h, hr⟩
      · exact ih _ _ h' (by omega)
  exact key (N + 1) 0 s0 h0 (by omega)

theorem cache_returns {P : DistParams α} (hl : Legal P) (hm : P.mode = .thread → P.noop = false)
    {l : CacheList} (hi : CacheList.init P.size P.handDiff = some l) {t b off : Nat}
    (hv : P.valid b off) :
    ∃ st2 v, During P t { DistState.start P l with
      pc := upd (DistState.start P l).pc (.user t) (.wantCm b off) } st2 ∧ GetterReturns t st2 v := by
  have hr0 : DistReach P (DistState.start P l) := .init ⟨l, hi, rfl⟩
  have hr1 : DistReach P { DistState.start P l with
      pc := upd (DistState.start P l).pc (.user t) (.wantCm b off) } :=
    .step hr0 (.user t (.call _ t b off rfl hv))
  generalize hst : ({ DistState.start P l with
      pc := upd (DistState.start P l).pc (.user t) (.wantCm b off) } : DistState α) = st at hr1
  have hpc : st.pc (.user t) = .wantCm b off := by rw [← hst]; exact upd_self _ _ _
  have hbound : ∃ N, ∀ n st', QuietRun P n st st' → n ≤ N := by
    by_cases ht : P.mode = .thread
    · obtain ⟨N, h⟩ := C49_undisturbed_partial hl ht (hm ht) hr1 hpc
        (fun u hu => by
          rw [← hst]
          exact upd_ne _ _ (by intro e; injection e with e; exact hu e))
        (fun r => by rw [← hst]; rfl)
        (fun r r' op => by rw [← hst]; exact List.not_mem_nil)
      exact ⟨N, fun n st' hq => (h n st' hq).1⟩
    · obtain ⟨N, h⟩ := C18_every_access_returns hl ht hr1
      exact ⟨N, fun n st' hq => (h n st' hq).1⟩
  obtain ⟨N, hN⟩ := hbound
  obtain ⟨n, st2, ⟨-, h2, -, -⟩, v, h3⟩ := run_until
    (fun n st' => QuietRun P n st st' ∧ During P t st st' ∧ DistReach P st' ∧ st'.pc (.user t) ≠ .idle)
    (fun st' => ∃ v, GetterReturns t st' v) N (fun n s h => hN n s h.1)
    (fun n s h => by
      obtain ⟨h1, h2, h3, h4⟩ := h
      obtain ⟨s', hq⟩ := C18_no_deadlock hl h3 t h4
      by_cases hid : s'.pc (.user t) = .idle
      · exact .inl (step_idle hq.1 h4 hid)
      · exact .inr ⟨s', .succ h1 hq, .tail h2 hq.1 hid, .step h3 hq.1, hid⟩)
    st ⟨.zero _, .refl _, hr1, by rw [hpc]; nofun⟩
  exact ⟨st2, v, h2, h3⟩

theorem full_returns {F : FullCfg α} {s0 : FullDist α} {cc : Bool} (ho : Opened fp cc nc val c)
    (h : FullOpened c F s0) {l : CacheList} (hi : CacheList.init F.cacheSize F.handDiff = some l)
    {t : Nat} {pos : List Dbl} {idx : List Nat} (hp : pos2index c.fp c.axes pos = some idx)
    (hloc : ¬ F.isLocal c t (blockByCoords c.geom idx)) :
    ∃ st st1 st2 v, FullReach c F s0.data st ∧ FullCalled c F t pos st st1 ∧
      FullDuring c F s0.data t st1 st2 ∧ GetterReturns t st2 v := by
  obtain ⟨wf, hx, -⟩ := ho.spec
  have hr0 : FullReach c F s0.data (DistState.start (c.fullShared F) l) := .init ⟨l, hi, rfl⟩
  have hc : FullCalled c F t pos (DistState.start (c.fullShared F) l) _ := ⟨idx, hp, hloc, rfl, rfl⟩
  have hr1 := Reachable.step hr0 (FullStep.call t pos hc)
  generalize hst : ({ DistState.start (c.fullShared F) l with
      pc := upd (DistState.start (c.fullShared F) l).pc (.user t) (.wantCm (blockByCoords c.geom idx)
        (calcOffsetInBlock c.geom idx)) } : DistState α) = st at hr1 hc
  have hpc : st.pc (.user t) ≠ .idle := by rw [← hst]; simp [upd_self]
  obtain ⟨N, hN⟩ := C18_full_access_returns ho h hr1
  obtain ⟨n, st2, ⟨-, h2, -, -⟩, v, h3⟩ := run_until
    (fun n st' => FullQuietRun c F s0.data n st st' ∧ FullDuring c F s0.data t st st' ∧
      FullReach c F s0.data st' ∧ st'.pc (.user t) ≠ .idle)
    (fun st' => ∃ v, GetterReturns t st' v) N (fun n s h => (hN n s h.1).1)
    (fun n s h' => by
      obtain ⟨h1, h2, h3, h4⟩ := h'
      obtain ⟨s', hq⟩ := full_progress wf hx h h3 h4
      by_cases hid : s'.pc (.user t) = .idle
      · exact .inl (step_idle (hq.1.dist wf hx h) h4 hid)
      · exact .inr ⟨s', .succ h1 hq, .tail h2 hq.1 hid, .step h3 hq.1, hid⟩)
    st ⟨.zero _, .refl _, hr1, hpc⟩
  exact ⟨_, st, st2, v, hr0, hc, h2, h3⟩

theorem session_returns (hp : Possible S sel) (hne : nc ≠ [])
    (hx : SizesExact fp (nc.map NcAxis.size)) (hv : ReadsVariable S name)
    (hfile : file name = some (nc, val)) (ho : S.open fp file = some (sel, c))
    (hnoop : sel.type.mpi = .thread → S.noop = false) (t : Nat) {pos : List Dbl} {idx : List Nat}
    (hidx : pos2index fp (openAxes fp false nc) pos = some idx) : ∃ v, Returns S sel c t pos v := by
  obtain ⟨h1, h2, h3⟩ := session_open hv hfile ho
  have hO : Opened fp (cellCentered S.params) nc val c := ⟨hne, hx, _, _, _, _, h3⟩
  obtain ⟨wf, hx', hfp, hax, hval⟩ := hO.spec
  rw [pos2index_valuePosition fp false (cellCentered S.params)] at hidx
  have hidx' : pos2index c.fp c.axes pos = some idx := by rw [hfp, hax]; exact hidx
  have hin := pos2index_inBox wf hx' hidx'
  obtain ⟨l, _, hl, -⟩ := CacheList.init_inv h2 hp.hand
  cases hk : sel.type.kind with
  | passThrough =>
    have hlt : t < t + 1 := Nat.lt_succ_self t
    have hslot : passSlot (t + 1) t = t := if_pos hlt
    obtain ⟨b, e, -, e2, -⟩ := pass_getBlock wf hx' (List.replicate (t + 1) S.zero) t (by simp) hidx'
    have h0 : PassReach c (passSlot (t + 1)) (· < t + 1) (List.replicate (t + 1) S.zero) _ := .init rfl
    have h1 := Reachable.step h0 (.call t pos hlt rfl)
    have h2 := Reachable.step h1 (.acquire t pos (upd_self _ _ _) rfl)
    have h3 := Reachable.step h2 (.load t pos idx b (upd_self _ _ _) hidx' (by rw [hslot]; exact e))
    have h4 := Reachable.step h3 (.convert t pos _ (upd_self _ _ _) (by rw [hslot]; exact e2))
    exact ⟨_, .passThrough (t + 1) _ _ hk (by simp) h4 (upd_self _ _ _)⟩
  | cache =>
    have hL : Legal (c.shared (S.cache sel c)) := ⟨hp.someDomain, h2, hp.hand⟩
    obtain ⟨st2, v, e1, e2⟩ := cache_returns (t := t) hL
      (fun hm => hnoop (by
        change sel.type.mpi.mode = .thread at hm
        cases h : sel.type.mpi <;> rw [h] at hm <;> first | rfl | cases hm)) hl (shared_inside wf (S.cache sel c) hin)
    exact ⟨v, .cache _ _ st2 hk (.init ⟨l, hl, rfl⟩) ⟨idx, hidx', rfl, rfl⟩ e1 e2⟩
  | full =>
    obtain ⟨r1, r2⟩ := C30_full_reaches_all _ _ _ _ hp.env sel h1 hk
    have hrank : 0 < sel.ranks := by
      rw [(C30_kind_and_mpi _ _ _ _ hp.env sel h1).2.1]
      split
      · omega
      · exact hp.someRank
    by_cases hf : sel.type = .FULL
    · obtain ⟨m, e1, e2⟩ := C05_full_value hO (S.dist sel) (r1 hf).1 (r1 hf).2
        (List.replicate (domainSize c (S.dist sel) * (S.dist sel).domains) S.zero) (by simp)
      exact ⟨_, .full _ m hf (by simp) e1 (e2 pos idx hidx)⟩
    · have hreach : (S.full sel).hasMpi = true ∨
          ((S.full sel).trans ≠ .no ∧ (S.full sel).ds.ranks = 1) := by
        rcases r2 hf with h | h
        · exact .inl (decide_eq_true h)
        · exact .inr h
      obtain ⟨s0, e1⟩ := (C07_fulldist_value hO (S.dist sel) hrank hp.someDomain _ _ hreach).1
        (S.full sel).cacheSize (S.full sel).handDiff S.zero
        (fun _ => List.replicate (domainSize c (S.dist sel) * (S.dist sel).domains) S.zero) h2 hp.hand
        (fun _ _ => by simp)
      have hFO : FullOpened c (S.full sel) s0 :=
        ⟨hrank, hp.someDomain, h2, hp.hand, hp.threads, hreach, _, fun _ _ => by simp [Session.full], e1⟩
      by_cases hloc : (S.full sel).isLocal c t (blockByCoords c.geom idx)
      · have := (C07_concurrent_value hO hFO (.init ⟨l, hl, rfl⟩) t pos idx hidx).1 hloc
        exact ⟨_, .fullLocal s0 idx hk hf hFO hidx' hloc this⟩
      · obtain ⟨st, st1, st2, v, a1, a2, a3, a4⟩ := full_returns hO hFO hl hidx' hloc
        exact ⟨v, .fullRemote s0 st st1 st2 hk hf hFO a1 a2 a3 a4⟩

/-- **C65.** What a getter of any thread can return for a position is exactly the value of the nearest
sample: it does return it (if nobody else uses the grid; see C18 and C49 for other threads), and nothing
else. With the communication thread the library has to be built with thread support (see C49). -/
theorem C65_getter_returns (hp : Possible S sel) (hf : RegularFile nc) (hv : ReadsVariable S name)
    (hfile : file name = some (nc, val)) (ho : S.open .exact file = some (sel, c))
    (hnoop : sel.type.mpi = .thread → S.noop = false) (t : Nat) (pos : List ℚ)
    (hpos : pos.length = nc.length) :
    ∃ idx, Selected nc pos idx ∧ ∀ v, Returns S sel c t (pos.map .fin) v ↔ v = val idx := by
  obtain ⟨idx, e1, e2, -⟩ := C01_nearest_sample false nc hf pos hpos
  have hx : SizesExact .exact (nc.map NcAxis.size) := sizesExact_exact (by
      intro s hs
      obtain ⟨a, ha, rfl⟩ := List.mem_map.1 hs
      exact (hf.2 a ha).2.1)
  obtain ⟨v, hv'⟩ := session_returns hp hf.1 hx hv hfile ho hnoop t e1
  have key : ∀ v, Returns S sel c t (pos.map .fin) v → v = val idx := by
    intro v h
    obtain ⟨idx', e3, rfl⟩ := C65_value hp hf.1 hx hv hfile ho h
    rw [e1] at e3
    injection e3 with e3; subst e3
    rfl
  refine ⟨idx, e2, fun w => ⟨key w, ?_⟩⟩
  rintro rfl
  rw [← key v hv']
  exact hv'

/-- **C65.** Opening succeeds for every variable with at most four dimensions, none of them empty, for all
parameters with a cache size that is not 0, if the build supports MPI-3. -/
theorem C65_open_succeeds (S : Session α) (hdim : nc.length ≤ 4)
    (hsize : ∀ a ∈ nc, 1 ≤ a.size) (hv : ReadsVariable S name) (hfile : file name = some (nc, val))
    (hmpi : S.build.mpi3 = true) (hcs : (openArgs S.params S.level).cacheSize ≠ 0)
    (hj1 : S.junk.blockSize.length = 4) (hj2 : S.junk.blocks.length = 4) :
    ∃ sel c, S.open fp file = some (sel, c) := by
  obtain ⟨st, hst⟩ := blockedOpen_ok (size := nc.map NcAxis.size)
    (param := (openArgs S.params S.level).blockSizes) (timeDimension S.params) (junk := S.junk)
    (by intro s hs; obtain ⟨a, ha, rfl⟩ := List.mem_map.1 hs; exact hsize a ha)
    (by simp [openArgs, maxDimensions]; omega) (by simp; omega) (by simp; omega)
  unfold Session.open
  simp only [readsVariable_name hv, hfile, openLevel, initContainers, hmpi]
  simp only [not_true, and_false, if_false, hcs, Option.bind_eq_bind, Option.bind_some, hst]
  exact ⟨_, _, rfl⟩

/-! ### Non-trivial cases -/

/-- A program on four processes with two domains each, with the given settings of the user. -/
def exSession (build : Build) (calls : List (Str × Str × Nat)) : Session (List Nat) :=
  { build, noop := false, roundRobin := true, calls, commSize := 4, domains := 2, dom := fun t => t % 8
    basic := true, level := 1, junk := ⟨[0, 0, 0, 0], [0, 0, 0, 0], 0, 0⟩, zero := [] }

/-- Nearly all parameters have their default values. -/
def exSessionA : Session (List Nat) := exSession defaultBuild [("Variable".toList, "height".toList, 1)]

/-- Nearly all parameters are changed. -/
def exSessionB : Session (List Nat) := exSession { defaultBuild with threadsafeMpi := false }
  [("VARIABLE".toList, "z".toList, 1), ("grid".toList, "cache".toList, 0),
   ("MPI-communication".toList, "thread".toList, 0), ("VARIABLE".toList, "height".toList, 1),
   ("VALUE_POSITION".toList, "vertex-centered".toList, 0), ("CACHE_SIZE".toList, "3".toList, 1),
   ("BLOCK_SIZE_0".toList, "2".toList, 1)]

/-- A file with one variable. -/
def exHeight : VarFile (List Nat) := fun v =>
  if v = "height".toList then some (exFile, fun i => i) else none

theorem exSessionA_ok : ReadsVariable exSessionA "height".toList ∧
    (∃ c, exSessionA.open .exact exHeight = some (⟨.FULL_MPIWIN_NUMA, 4⟩, c)) ∧
    Possible exSessionA ⟨.FULL_MPIWIN_NUMA, 4⟩ := by
  have hv : ReadsVariable exSessionA "height".toList := by unfold ReadsVariable; decide +kernel
  have hfile : exHeight "height".toList = some (exFile, fun i => i) := if_pos rfl
  obtain ⟨sel, c, ho⟩ := C65_open_succeeds (fp := .exact) _ (by decide)
    (fun a ha => (exFile_regular.2 a ha).1) hv hfile rfl (by decide +kernel) rfl rfl
  have e : initContainers exSessionA.build exSessionA.params exSessionA.commSize exSessionA.domains =
    some ⟨.FULL_MPIWIN_NUMA, 4⟩ := by decide +kernel
  have h1 : sel = ⟨.FULL_MPIWIN_NUMA, 4⟩ :=
    Option.some.inj ((session_open hv hfile ho).1.symm.trans e)
  subst h1
  exact ⟨hv, ⟨c, ho⟩, by decide, by decide, nofun, nofun, fun h => absurd h (by decide +kernel),
    by decide +kernel, fun t => Nat.mod_lt _ (by decide)⟩

theorem exSessionB_ok : ReadsVariable exSessionB "height".toList ∧
    (∃ c, exSessionB.open .exact exHeight = some (⟨.CACHE_MPITHREAD_NUMA, 4⟩, c)) ∧
    Possible exSessionB ⟨.CACHE_MPITHREAD_NUMA, 4⟩ := by
  have hv : ReadsVariable exSessionB "height".toList := by unfold ReadsVariable; decide +kernel
  have hfile : exHeight "height".toList = some (exFile, fun i => i) := if_pos rfl
  obtain ⟨sel, c, ho⟩ := C65_open_succeeds (fp := .exact) _ (by decide)
    (fun a ha => (exFile_regular.2 a ha).1) hv hfile rfl (by decide +kernel) rfl rfl
  have e : initContainers exSessionB.build exSessionB.params exSessionB.commSize exSessionB.domains =
    some ⟨.CACHE_MPITHREAD_NUMA, 4⟩ := by decide +kernel
  have h1 : sel = ⟨.CACHE_MPITHREAD_NUMA, 4⟩ :=
    Option.some.inj ((session_open hv hfile ho).1.symm.trans e)
  subst h1
  exact ⟨hv, ⟨c, ho⟩, by decide, by decide, nofun, nofun, fun h => absurd h (by decide +kernel),
    by decide +kernel, fun t => Nat.mod_lt _ (by decide)⟩

/-- The two sessions meet the hypotheses of all theorems: at position (3.6, 8.9) both return the value
of sample (1, 4), and nothing else. -/
example : ∃ c c', exSessionA.open .exact exHeight = some (⟨.FULL_MPIWIN_NUMA, 4⟩, c) ∧
    exSessionB.open .exact exHeight = some (⟨.CACHE_MPITHREAD_NUMA, 4⟩, c') ∧
    (∀ v, Returns exSessionA ⟨.FULL_MPIWIN_NUMA, 4⟩ c 5 [.fin 3.6, .fin 8.9] v ↔ v = [1, 4]) ∧
    (∀ v, Returns exSessionB ⟨.CACHE_MPITHREAD_NUMA, 4⟩ c' 3 [.fin 3.6, .fin 8.9] v ↔ v = [1, 4]) := by
  obtain ⟨a1, ⟨c, a2⟩, a3⟩ := exSessionA_ok
  obtain ⟨b1, ⟨c', b2⟩, b3⟩ := exSessionB_ok
  have hfile : exHeight "height".toList = some (exFile, fun i => i) := if_pos rfl
  obtain ⟨i, i1, i2, -⟩ := C01_nearest_sample false exFile exFile_regular [3.6, 8.9] rfl
  have hi : i = [1, 4] := Option.some.inj (i1.symm.trans (by decide +kernel))
  subst hi
  refine ⟨c, c', a2, b2, ?_, ?_⟩
  · obtain ⟨j, j1, j2⟩ := C65_getter_returns a3 exFile_regular a1 hfile a2 nofun 5 [3.6, 8.9] rfl
    rw [selected_unique i2 j1]; exact j2
  · obtain ⟨j, j1, j2⟩ := C65_getter_returns b3 exFile_regular b1 hfile b2 (fun _ => rfl) 3 [3.6, 8.9] rfl
    rw [selected_unique i2 j1]; exact j2

end Asagi.Props
