import Verif.Proofs.FullDistConc
import Verif.Spec.FullConc
import Verif.Props.SharedValues
import Verif.Props.SharedLive
/-
C07 for concurrent accesses: getters of distributed FULL grids return the file's values in every
interleaving.
-/
namespace Asagi.Props
open Asagi Asagi.Spec
variable {α : Type}

variable {c : LevelCfg α} {F : FullCfg α} {s0 : FullDist α} {st st' st1 st2 : DistState α}

theorem _root_.Asagi.Spec.FullOpened.legal (h : FullOpened c F s0) : Legal (c.fullShared F) :=
  ⟨h.domains, h.size, h.hand⟩

theorem _root_.Asagi.Spec.FullOpened.static (wf : c.WF) (h : FullOpened c F s0) : StaticOK c F.ds s0.data := by
  obtain ⟨junk, h1, h2⟩ := h.opened
  obtain ⟨s, e, ok, -⟩ := fullDistOpen_spec wf F.ds h.ranks h.domains F.zero junk h.size h.hand h1
  rw [e] at h2; injection h2 with h2; subst h2
  exact ⟨ok.data⟩

theorem _root_.Asagi.Spec.FullOpened.rank (h : FullOpened c F s0) (t : Nat) : F.dom t / F.ds.domains < F.ds.ranks :=
  Nat.div_lt_of_lt_mul (by rw [Nat.mul_comm]; exact h.threads t)

theorem full_inside (wf : c.WF) {idx : List Nat} (h : InBox c.file.size idx) :
    (c.fullShared F).valid (blockByCoords c.geom idx) (calcOffsetInBlock c.geom idx) :=
  shared_inside wf F.caches h

/-- Every step of a distributed FULL grid is a step of the shared caches with the blocks of the file. -/
theorem _root_.Asagi.FullStep.dist (wf : c.WF) (hx : SizesExact c.fp c.file.size) (h : FullOpened c F s0)
    (hs : FullStep c F s0.data st st') : DistStep (c.fullShared F) st st' := by
  cases hs with
  | call t pos hc =>
    obtain ⟨idx, hp, hl, hi, rfl⟩ := hc
    exact .user t (.call st t _ _ hi (full_inside wf (pos2index_inBox wf hx hp)))
  | copy t b off s k src v hp hk hsrc hv =>
    refine .user t (.loadCell st t b off s k v hp hk ?_)
    rintro ⟨idx, hl, hin, rfl, rfl⟩
    have hbox : InBox c.file.size idx := inBox_of_getElem? hl (fun {k a b} ha hb => hin k a b ha hb)
    obtain ⟨src', e1, -, e2⟩ := fullSource_spec (h.static wf) h.ranks h.domains h.reach (h.rank t)
      (block_lt wf hbox).1
    rw [hsrc] at e1; injection e1 with e1; subst e1
    have := e2 idx hbox rfl hk
    rw [hv] at this; injection this with this
    rw [this]
    exact (shared_file wf F.caches hbox).symm
  | other t _ _ hu => exact .user t hu

theorem _root_.Asagi.FullReach.dist (wf : c.WF) (hx : SizesExact c.fp c.file.size) (h : FullOpened c F s0)
    (hr : FullReach c F s0.data st) : DistReach (c.fullShared F) st := by
  induction hr with
  | init hi => obtain ⟨l, hl, rfl⟩ := hi; exact .init ⟨l, hl, rfl⟩
  | step _ hs ih => exact .step ih (hs.dist wf hx h)

theorem _root_.Asagi.Spec.FullDuring.dist (wf : c.WF) (hx : SizesExact c.fp c.file.size) (h : FullOpened c F s0) {t : Nat}
    (hr : FullReach c F s0.data st) (hd : FullDuring c F s0.data t st st') :
    FullReach c F s0.data st' ∧ During (c.fullShared F) t st st' := by
  induction hd with
  | refl => exact ⟨hr, .refl _⟩
  | tail _ hs hn ih =>
    obtain ⟨i1, i2⟩ := ih
    exact ⟨.step i1 hs, .tail i2 (hs.dist wf hx h) hn⟩

/-- **C07, concurrent.** A FULL grid distributed over any number of processes, domains and threads,
after opening and any history of concurrent accesses. A getter that finds the block in the memory of
its own domain (which no thread writes) returns the file's value; if a getter is called for another
block and returns after any interleaving with steps of all other threads, it returns the file's
value at the selected index, too. -/
theorem C07_concurrent_value {fp : Fp} {cc : Bool} {nc : List NcAxis} {val : List Nat → α}
    (ho : Opened fp cc nc val c) (h : FullOpened c F s0) (hr : FullReach c F s0.data st) (t : Nat)
    (pos : List Dbl) (idx : List Nat) (hp : pos2index fp (openAxes fp cc nc) pos = some idx) :
    (F.isLocal c t (blockByCoords c.geom idx) →
      fullGetAt c F.ds (s0.data (F.dom t / F.ds.domains)) (F.dom t % F.ds.domains) pos =
        some (val idx)) ∧
    ∀ st1 st2 v, FullCalled c F t pos st st1 → FullDuring c F s0.data t st1 st2 →
      GetterReturns t st2 v → v = val idx := by
  obtain ⟨wf, hx, hfp, hax, hval⟩ := ho.spec
  rw [← hax, ← hfp] at hp
  have hin := pos2index_inBox wf hx hp
  constructor
  · intro hl
    have hd := ((h.static wf).data _ (block_lt wf hin).1).1
    rw [hl.1, hl.2] at hd
    rw [fullGetAt_spec wf hx F.ds _ _ hp hd, hval]
  · intro st1 st2 v hc hd hv
    have hr1 : FullReach c F s0.data st1 := .step hr (.call t pos hc)
    obtain ⟨idx', hp', -, hidle, rfl⟩ := hc
    rw [hp'] at hp; injection hp with hp; subst hp
    obtain ⟨hr2, hd'⟩ := hd.dist wf hx h hr1
    obtain ⟨b, off, s, hv⟩ := hv
    have hI := h.legal.inv (hr2.dist wf hx h)
    have hph : v = (c.fullShared F).file b off := hI.phase t b off s _ hv
    have hcall := during_call hd' (upd_self _ _ _)
    rw [hv] at hcall
    simp at hcall
    obtain ⟨rfl, rfl⟩ := hcall
    rw [hph, ← hval]
    exact shared_file wf F.caches hin

/-- Combined with C01: the value of the nearest sample. -/
theorem C07_concurrent_nearest {cc : Bool} {nc : List NcAxis} {val : List Nat → α}
    (ho : Opened .exact cc nc val c) (hf : RegularFile nc) (h : FullOpened c F s0)
    (hr : FullReach c F s0.data st) (t : Nat) (pos : List ℚ) (hpos : pos.length = nc.length)
    (hc : FullCalled c F t (pos.map .fin) st st1) (hd : FullDuring c F s0.data t st1 st2) (v : α)
    (hv : GetterReturns t st2 v) : ∃ idx, Selected nc pos idx ∧ v = val idx := by
  obtain ⟨idx, h1, h2, -⟩ := C01_nearest_sample cc nc hf pos hpos
  exact ⟨idx, h2, (C07_concurrent_value ho h hr t _ idx h1).2 st1 st2 v hc hd hv⟩

theorem full_progress (wf : c.WF) (hx : SizesExact c.fp c.file.size) (h : FullOpened c F s0)
    (hr : FullReach c F s0.data st) {t : Nat} (hn : st.pc (.user t) ≠ .idle) :
    ∃ st', FullQuiet c F s0.data st st' := by
  have hI := h.legal.inv (hr.dist wf hx h)
  obtain ⟨st', hq⟩ := hI.progress hn
  rcases quiet_cases hq with ⟨u, hu, hne⟩ | ⟨r, hc⟩
  · by_cases hl : ∃ b off s k, st.pc (.user u) = .own b off s (.load k) ∧ k < c.totalBlockSize
    · obtain ⟨b, off, s, k, hp, hk⟩ := hl
      obtain ⟨⟨-, idx, hl, hin, rfl, rfl⟩, -⟩ := hI.own u b off s _ hp
      have hbox : InBox c.file.size idx := inBox_of_getElem? hl (fun {k a b} ha hb => hin k a b ha hb)
      obtain ⟨src, e1, e2, -⟩ := fullSource_spec (h.static wf) h.ranks h.domains h.reach (h.rank u)
        (block_lt wf hbox).1
      have hget : src[k]? = some src[k] := List.getElem?_eq_getElem (by omega)
      refine ⟨_, .copy st u _ _ s k src _ hp hk e1 hget, fun t' hi => ?_⟩
      have : Agent.user t' ≠ .user u := by intro e; rw [e] at hi; exact hne hi
      exact (upd_ne _ _ this).trans hi
    · refine ⟨st', .other u hne (fun b off s k hp => ?_) hu, hq.2⟩
      by_contra hk
      exact hl ⟨b, off, s, k, hp, by omega⟩
  · exact absurd hc (no_comm_idle hI nofun (comm_idle h.legal nofun (hr.dist wf hx h) r))

/-- **C07/C18, concurrent.** Getters of distributed FULL grids return: from every reachable state,
every execution without new calls has at most `N` steps, and when it cannot be continued, all calls
have returned. -/
theorem C18_full_access_returns {fp : Fp} {cc : Bool} {nc : List NcAxis} {val : List Nat → α}
    (ho : Opened fp cc nc val c) (h : FullOpened c F s0) (hr : FullReach c F s0.data st) :
    ∃ N, ∀ n st', FullQuietRun c F s0.data n st st' → n ≤ N ∧
      ((∀ st'', ¬ FullQuiet c F s0.data st' st'') → ∀ t, st'.pc (.user t) = .idle) := by
  obtain ⟨wf, hx, -⟩ := ho.spec
  obtain ⟨N, hN⟩ := C18_every_access_returns h.legal nofun (hr.dist wf hx h)
  have key : ∀ {n st'}, FullQuietRun c F s0.data n st st' →
      FullReach c F s0.data st' ∧ QuietRun (c.fullShared F) n st st' := by
    intro n st' hq
    induction hq with
    | zero => exact ⟨hr, .zero _⟩
    | succ _ hq ih =>
      obtain ⟨i1, i2⟩ := ih hr hN
      exact ⟨.step i1 hq.1, .succ i2 ⟨hq.1.dist wf hx h, hq.2⟩⟩
  refine ⟨N, fun n st' hq => ?_⟩
  obtain ⟨k1, k2⟩ := key hq
  refine ⟨(hN n st' k2).1, fun hend t => ?_⟩
  by_contra hn
  obtain ⟨st'', hq'⟩ := full_progress wf hx h k1 hn
  exact hend st'' hq'

/-! A concrete case: the example file (3 x 5 samples in blocks of 3 x 2), two processes with two
domains each, MPI windows and NUMA cache lookup. -/

def exFullCfg : FullCfg (List Nat) :=
  { ds := ⟨2, 2, true⟩, trans := .fullCache, hasMpi := true, cacheSize := 2, handDiff := 1,
    zero := [], dom := fun t => t % 4, noop := false }

theorem fullExec1_sound {data : Nat → Mem α} {t : Nat} (h : fullExec1 c F data st t = some st') :
    FullStep c F data st st' := by
  unfold fullExec1 at h
  split at h
  · next b off s k hp =>
    split at h
    · next hk =>
      simp only [Option.bind_eq_some_iff] at h
      obtain ⟨src, h1, v, h2, h3⟩ := h
      injection h3 with h3; subst h3
      exact .copy st t b off s k src v hp hk h1 h2
    · next hk =>
      refine .other t (by rw [hp]; nofun) (fun b' off' s' k' hp' => ?_) (execUser_sound h)
      rw [hp] at hp'
      injection hp' with _ _ _ e
      injection e with e
      omega
  · cases h
  · next hne hni =>
    exact .other t hni (fun b' off' s' k' hp' => absurd hp' (hne b' off' s' k')) (execUser_sound h)

theorem fullExec_sound {data : Nat → Mem α} {t n : Nat} (hr : FullReach c F data st)
    (h : fullExec c F data t n st = some st') : FullReach c F data st' := by
  induction n generalizing st with
  | zero => simp only [fullExec] at h; injection h with h; subst h; exact hr
  | succ n ih =>
    simp only [fullExec, Option.bind_eq_some_iff] at h
    obtain ⟨s1, h1, h2⟩ := h
    exact ih (.step hr (fullExec1_sound h1)) h2

theorem fullCall_sound {t : Nat} {pos : List Dbl} (h : fullCall c F st t pos = some st') :
    FullCalled c F t pos st st' := by
  unfold fullCall at h
  split at h
  · next idx hp hi =>
    split at h
    · cases h
    · next hl => injection h with h; exact ⟨idx, hp, hl, hi, h.symm⟩
  · cases h

theorem fullExec1_idle {data : Nat → Mem α} {t : Nat} (h : fullExec1 c F data st t = some st') :
    st.pc (.user t) ≠ .idle := by
  intro e
  simp only [fullExec1, e] at h
  cases h

theorem fullExec_during {data : Nat → Mem α} {t n : Nat} {st0 : DistState α}
    (hd : FullDuring c F data t st0 st) (h : fullExec c F data t n st = some st')
    (hn : st'.pc (.user t) ≠ .idle) : FullDuring c F data t st0 st' := by
  induction n generalizing st with
  | zero => simp only [fullExec] at h; injection h with h; subst h; exact hd
  | succ n ih =>
    simp only [fullExec, Option.bind_eq_some_iff] at h
    obtain ⟨s1, h1, h2⟩ := h
    refine ih (.tail hd (fullExec1_sound h1) ?_) h2
    cases n with
    | zero => simp only [fullExec] at h2; injection h2 with h2; subst h2; exact hn
    | succ n =>
      simp only [fullExec, Option.bind_eq_some_iff] at h2
      obtain ⟨s2, h3, -⟩ := h2
      exact fullExec1_idle h3

/-- Thread 2 (first domain of process 1) has got a value of block 2, which is stored by the second
domain of process 0. Thread 3 (second domain of process 1) calls a getter for another value of this
block, copies the block from the cache of the first domain and returns the value at index [1, 4];
thread 0 (first domain of process 0) copies the block from the memory of the second domain in
between. -/
example : ∃ s0, FullOpened exLevel exFullCfg s0 ∧ ∃ st st1 st2,
    FullReach exLevel exFullCfg s0.data st ∧ st.data 2 0 2 = [1, 4] ∧
    FullCalled exLevel exFullCfg 3 [.fin 4, .fin 7.5] st st1 ∧
    pos2index .exact (openAxes .exact false exFile) [.fin 4, .fin 7.5] = some [1, 4] ∧
    FullDuring exLevel exFullCfg s0.data 3 st1 st2 ∧ GetterReturns 3 st2 [1, 4] := by
  have hsome : ((fullDistOpen exLevel exFullCfg.ds 2 1 [] (fun _ => List.replicate 12 [])).bind fun s0 =>
      (CacheList.init 2 1).bind fun l =>
      (fullCall exLevel exFullCfg (DistState.start (exLevel.fullShared exFullCfg) l) 2
        [.fin 4, .fin 7.5]).bind fun sa =>
      (fullExec exLevel exFullCfg s0.data 2 19 sa).bind fun sb =>
      (fullCall exLevel exFullCfg sb 0 [.fin 4, .fin 7.5]).bind fun sc =>
      (fullExec exLevel exFullCfg s0.data 0 9 sc).bind fun st =>
      (fullCall exLevel exFullCfg st 3 [.fin 4, .fin 7.5]).bind fun st1 =>
      (fullExec exLevel exFullCfg s0.data 3 14 st1).bind fun st2 => some (s0, l, sa, sb, sc, st, st1, st2)).any
      (fun x => match x.2.2.2.2.2.2.2.pc (.user 3), x.2.2.2.2.2.1.pc (.user 0) with
        | .own _ _ _ (.out v), .own _ _ _ (.load 3) =>
          decide (v = [1, 4] ∧ x.2.2.2.2.2.1.data 2 0 2 = [1, 4])
        | _, _ => false) = true := by decide +kernel
  revert hsome
  generalize hx : Option.bind _ _ = x
  cases x with
  | none => intro h; cases h
  | some x =>
    intro hv
    simp only [Option.bind_eq_some_iff] at hx
    obtain ⟨s0, h0, l, hl, sa, ha, sb, hb, sc, hc, st, hst, st1, h1, st2, h2, hx⟩ := hx
    injection hx with hx; subst hx
    have hr0 : FullReach exLevel exFullCfg s0.data (DistState.start (exLevel.fullShared exFullCfg) l) :=
      .init ⟨l, hl, rfl⟩
    have hr : FullReach exLevel exFullCfg s0.data st :=
      fullExec_sound (.step (fullExec_sound (.step hr0 (.call _ _ (fullCall_sound ha))) hb)
        (.call _ _ (fullCall_sound hc))) hst
    simp only [Option.any_some] at hv
    refine ⟨s0, ⟨by decide, by decide, by decide, by decide, fun t => ?_, .inl rfl,
      ⟨fun _ => List.replicate 12 [], fun r _ => ?_, h0⟩⟩, st, st1, st2, hr, ?_⟩
    · show t % 4 < 2 * 2
      omega
    · rw [List.length_replicate]; decide
    revert hv
    split
    · next h3 h4 =>
      intro hv
      obtain ⟨rfl, h5⟩ := of_decide_eq_true hv
      exact ⟨h5, fullCall_sound h1, by decide +kernel,
        fullExec_during (.refl _) h2 (by rw [h3]; nofun), ⟨_, _, _, h3⟩⟩
    · intro hv; cases hv

end Asagi.Props
