import Verif.Model.CacheDistLevel
import Verif.Props.SharedCache
import Verif.Props.Values
/-
C09: getters of shared CACHE grids return the file's values.
-/
namespace Asagi.Props
open Asagi Asagi.Spec
variable {α : Type}

theorem shared_inside {c : LevelCfg α} (wf : c.WF) (S : SharedCfg α) {idx : List Nat}
    (h : InBox c.file.size idx) :
    (c.shared S).valid (blockByCoords c.geom idx) (calcOffsetInBlock c.geom idx) :=
  ⟨(block_lt wf h).2, idx, h.length_eq, fun _ _ _ h1 h2 => h.getElem? h1 h2, rfl, rfl⟩

theorem shared_file {c : LevelCfg α} (wf : c.WF) (S : SharedCfg α) {idx : List Nat}
    (h : InBox c.file.size idx) :
    (c.shared S).file (blockByCoords c.geom idx) (calcOffsetInBlock c.geom idx) = c.file.val idx := by
  obtain ⟨m', e1, e2, e3, -⟩ := loadBlock_spec wf (block_lt wf h).1
    (List.replicate c.totalBlockSize S.zero) 0 (by simp)
  have := e3 idx h rfl
  rw [Nat.zero_add] at this
  show (match getBlock c.file c.basic (blockOrigin c.geom (blockByCoords c.geom idx))
    (c.geom.map Dim.bs) (List.replicate c.totalBlockSize S.zero) 0 with
      | some m => m.getD (calcOffsetInBlock c.geom idx) S.zero
      | none => S.zero) = _
  rw [e1]
  simp only [List.getD_eq_getElem?_getD, this, Option.getD_some]

/-- The values that the shared caches call "the file's values of block `b`" are those that
`loadBlock` stores in any slot of any memory: justifies the step `loadCell` of the model. -/
theorem shared_load {c : LevelCfg α} (wf : c.WF) (S : SharedCfg α) {b : Nat} (hb : b < c.totalBlocks)
    (m : Mem α) (base : Nat) (hm : base + c.totalBlockSize ≤ m.length) :
    ∃ m', getBlock c.file c.basic (blockOrigin c.geom b) (c.geom.map Dim.bs) m base = some m' ∧
      ∀ k, (c.shared S).valid b k → m'[base + k]? = some ((c.shared S).file b k) := by
  obtain ⟨m', e1, e2, e3, -⟩ := loadBlock_spec wf hb m base hm
  refine ⟨m', e1, ?_⟩
  rintro k ⟨hk, idx, hl, hi, rfl, rfl⟩
  have hin : InBox c.file.size idx := inBox_of_getElem? hl (fun {k a b} ha hb => hi k a b ha hb)
  rw [e3 idx hin rfl, shared_file wf S hin]

/-- A thread stays with the value it needs during a call. -/
theorem during_call {P : DistParams α} {t b off : Nat} {st st' : DistState α}
    (h : During P t st st')
    (h0 : st.pc (.user t) = .wantCm b off) :
    st'.pc (.user t) = .wantCm b off ∨ (∃ s old, st'.pc (.user t) = .wantSlot b off s old) ∨
      ∃ s ph, st'.pc (.user t) = .own b off s ph := by
  induction h with
  | refl => exact .inl h0
  | @tail st1 st2 _ hs hn ih =>
    have hother : st2.pc (.user t) = st1.pc (.user t) →
        st2.pc (.user t) = .wantCm b off ∨ (∃ s old, st2.pc (.user t) = .wantSlot b off s old) ∨
          ∃ s ph, st2.pc (.user t) = .own b off s ph := fun e => by rw [e]; exact ih
    cases hs with
    | comm r hc =>
      refine hother ?_
      cases hc <;> rfl
    | user u hu =>
      by_cases hut : u = t
      · subst hut
        cases hu with
        | call _ _ b1 off1 hp => rw [hp] at ih; simp at ih
        | lookup _ _ b1 off1 s c' old hp =>
          rw [hp] at ih; simp at ih
          obtain ⟨rfl, rfl⟩ := ih
          exact .inr (.inl ⟨s, old, upd_self _ _ _⟩)
        | lockSlot _ _ b1 off1 s old hp =>
          rw [hp] at ih; simp at ih
          obtain ⟨rfl, rfl⟩ := ih
          exact .inr (.inr ⟨s, _, upd_self _ _ _⟩)
        | unlock _ _ b1 off1 s v hp => exact absurd (upd_self _ _ _) hn
        | delThread _ _ b1 off1 s o hp | addThread _ _ b1 off1 s hp | finThread _ _ b1 off1 s hp
        | delSkip _ _ b1 off1 s o hp | delWin _ _ b1 off1 s o hp | delWinEnd _ _ b1 off1 s o hp
        | numaEnd _ _ b1 off1 s o hp | numaOwn _ _ b1 off1 s o hp | numaBusy _ _ b1 off1 s o hp
        | numaTry _ _ b1 off1 s o hp | numaMiss _ _ b1 off1 s o hp | numaHit _ _ b1 off1 s o o2 hp
        | numaCell _ _ b1 off1 s o o2 o3 hp | numaDone _ _ b1 off1 s o o2 o3 hp
        | addNone _ _ b1 off1 s hp | addWin _ _ b1 off1 s hp | addWinEnd _ _ b1 off1 s hp
        | startNone _ _ b1 off1 s hp | startWin _ _ b1 off1 s rnd hp | startThread _ _ b1 off1 s rnd hp
        | xferNone _ _ b1 off1 s e hp | xferWin _ _ b1 off1 s e hp | copyCell _ _ b1 off1 s e k hp
        | copyDone _ _ b1 off1 s e k hp | xferThread _ _ b1 off1 s e hp | askFail _ _ b1 off1 s r hp
        | askDone _ _ b1 off1 s r buf hp | recvCell _ _ b1 off1 s k buf hp
        | recvDone _ _ b1 off1 s k buf hp | loadCell _ _ b1 off1 s k v hp | loadDone _ _ b1 off1 s k hp
        | finNone _ _ b1 off1 s hp | finWin _ _ b1 off1 s hp | convert _ _ b1 off1 s hp =>
          rw [hp] at ih; simp at ih
          obtain ⟨rfl, rfl⟩ := ih
          exact .inr (.inr ⟨s, _, upd_self _ _ _⟩)
      · refine hother ?_
        have hne : Agent.user t ≠ Agent.user u := by intro e; injection e with e; exact hut e.symm
        cases hu with
        | delThread => simp only [DistState.goto, sendOp_pc]; exact upd_ne _ _ hne
        | addThread => simp only [DistState.goto, sendOp_pc]; exact upd_ne _ _ hne
        | finThread => simp only [DistState.goto, sendOp_pc]; exact upd_ne _ _ hne
        | _ => exact upd_ne _ _ hne

/-- **C09.** A CACHE grid that is shared between any number of threads, NUMA domains and processes
(with and without NUMA transfers, with MPI windows, with the communication thread, or without
communication), after any history: if a getter is called for a position and returns after any
interleaving with steps of all other threads, it returns the file's value at the selected index. -/
theorem C09_shared_cache_value {fp : Fp} {cc : Bool} {nc : List NcAxis} {val : List Nat → α}
    {c : LevelCfg α} (h : Opened fp cc nc val c) (S : SharedCfg α) (hl : Legal (c.shared S))
    {st st1 st2 : DistState α} (hr : DistReach (c.shared S) st) (t : Nat) (pos : List Dbl)
    (idx : List Nat) (hp : pos2index fp (openAxes fp cc nc) pos = some idx)
    (hc : GetterCalled c t pos st st1) (hd : During (c.shared S) t st1 st2) (v : α)
    (hv : GetterReturns t st2 v) : v = val idx := by
  obtain ⟨wf, hx, hfp, hax, hval⟩ := h.spec
  obtain ⟨idx', hp', hidle, rfl⟩ := hc
  rw [← hax, ← hfp, hp'] at hp
  injection hp with hp; subst hp
  have hin := pos2index_inBox wf hx hp'
  have hr1 : DistReach (c.shared S) _ := .step hr (.user t (.call st t _ _ hidle (shared_inside wf S hin)))
  have hr2 : DistReach (c.shared S) st2 := by
    clear hv
    induction hd with
    | refl => exact hr1
    | tail _ hs _ ih => exact .step ih hs
  obtain ⟨b, off, s, hv⟩ := hv
  have hI := hl.inv hr2
  have hph : v = (c.shared S).file b off := hI.phase t b off s _ hv
  have hcall := during_call hd (upd_self _ _ _)
  rw [hv] at hcall
  simp at hcall
  obtain ⟨rfl, rfl⟩ := hcall
  rw [hph, shared_file wf S hin, hval]

/-- **C09** combined with C01: the value of the nearest sample. -/
theorem C09_shared_cache_nearest {cc : Bool} {nc : List NcAxis} {val : List Nat → α}
    {c : LevelCfg α} (h : Opened .exact cc nc val c) (hf : RegularFile nc) (S : SharedCfg α)
    (hl : Legal (c.shared S)) {st st1 st2 : DistState α} (hr : DistReach (c.shared S) st) (t : Nat)
    (pos : List ℚ) (hpos : pos.length = nc.length) (hc : GetterCalled c t (pos.map .fin) st st1)
    (hd : During (c.shared S) t st1 st2) (v : α) (hv : GetterReturns t st2 v) :
    ∃ idx, Selected nc pos idx ∧ v = val idx := by
  obtain ⟨idx, h1, h2, -⟩ := C01_nearest_sample cc nc hf pos hpos
  exact ⟨idx, h2, C09_shared_cache_value h S hl hr t _ idx h1 hc hd v hv⟩

/-- A getter can always be called, for each position with an index, by a thread that is not in a
getter; the call is a step of the shared caches. -/
theorem C09_call_possible {fp : Fp} {cc : Bool} {nc : List NcAxis} {val : List Nat → α}
    {c : LevelCfg α} (h : Opened fp cc nc val c) (S : SharedCfg α) (st : DistState α) (t : Nat)
    (pos : List Dbl) (idx : List Nat) (hp : pos2index fp (openAxes fp cc nc) pos = some idx)
    (hi : st.pc (.user t) = .idle) :
    ∃ st1, GetterCalled c t pos st st1 ∧ DistStep (c.shared S) st st1 := by
  obtain ⟨wf, hx, hfp, hax, hval⟩ := h.spec
  rw [← hax, ← hfp] at hp
  exact ⟨_, ⟨idx, hp, hi, rfl⟩, .user t (.call st t _ _ hi (shared_inside wf S (pos2index_inBox wf hx hp)))⟩

/-! A concrete case: the example file (3 x 5 samples in blocks of 3 x 2), two processes with one
domain each, MPI windows. -/

def exLevel : LevelCfg (List Nat) :=
  { fp := .exact, axes := openAxes .exact false exFile, file := ⟨[3, 5], fun i => i⟩,
    geom := [⟨3, 3⟩, ⟨5, 2⟩], basic := false, totalBlockSize := 6, totalBlocks := 3 }

theorem exLevel_opened : Opened .exact false exFile (fun i => i) exLevel := by
  refine ⟨by simp [exFile], ?_, false, [2, 0, 0, 0], -1, ⟨[0,0,0,0], [0,0,0,0], 0, 0⟩, rfl⟩
  apply sizesExact_exact
  simp [exFile]

def exSharedCfg : SharedCfg (List Nat) :=
  { domains := 1, cacheSize := 2, handDiff := 1, zero := [], dom := fun t => t, home := fun b => b % 2,
    mode := .window, numa := false, noop := false }

/-- Thread 0 of process 0 has got a value of the last block (which is cut by the border of the
grid); thread 1 of process 1 calls a getter for another value of this block, copies the block from
process 0 and returns the value at index [1, 4]. -/
example : Legal (exLevel.shared exSharedCfg) ∧
    ∃ st st1 st2, DistReach (exLevel.shared exSharedCfg) st ∧
      GetterCalled exLevel 1 [.fin 4, .fin 7.5] st st1 ∧
      pos2index .exact (openAxes .exact false exFile) [.fin 4, .fin 7.5] = some [1, 4] ∧
      During (exLevel.shared exSharedCfg) 1 st1 st2 ∧ GetterReturns 1 st2 [1, 4] ∧
      st2.dir 2 = [2, 0, -1, -1] := by
  have hl : Legal (exLevel.shared exSharedCfg) :=
    ⟨by show 0 < 1; decide, by show 0 < 2; decide, by show (1 : Int) < (2 : Nat); decide⟩
  refine ⟨hl, ?_⟩
  have hsome : ((CacheList.init 2 1).bind fun c =>
      (distExec (exLevel.shared exSharedCfg) (DistState.start (exLevel.shared exSharedCfg) c)
        ([.call 0 2 0] ++ steps 0 16)).bind fun st =>
      (DistCmd.exec (exLevel.shared exSharedCfg) st (.call 1 2 2)).bind fun st1 =>
      distExec (exLevel.shared exSharedCfg) st1 (steps 1 15)).any (fun st => 
        match st.pc (.user 1) with
        | .own _ _ _ (.out v) => decide (v = [1, 4] ∧ st.dir 2 = [2, 0, -1, -1])
        | _ => false) = true := by decide +kernel
  revert hsome
  generalize hx : Option.bind _ _ = x
  cases x with
  | none => intro h; cases h
  | some st2 =>
    intro hv
    simp only [Option.bind_eq_some_iff] at hx
    obtain ⟨c, hc, st, hst, st1, hst1, hst2⟩ := hx
    have hr : DistReach (exLevel.shared exSharedCfg) st := by
      have hin : ∀ k, k < 1 → (exLevel.shared exSharedCfg).inside 2 k := by
        intro k hk
        obtain rfl : k = 0 := by omega
        exact ⟨[0, 4], rfl, by
          intro n i x h1 h2
          match n with
          | 0 => cases h1; cases h2; decide
          | 1 => cases h1; cases h2; decide
          | n + 2 => simp [exLevel] at h1, by decide, by decide⟩
      simp only [List.cons_append, List.nil_append, distExec, Option.bind_eq_some_iff] at hst
      obtain ⟨s3, h3, h4⟩ := hst
      have r3 : DistReach (exLevel.shared exSharedCfg) s3 :=
        .step (.init ⟨c, hc, rfl⟩) (DistCmd.exec_sound (fun t b off e => by cases e; exact hin 0 (by decide)) h3)
      exact distExec_quiet h4 (by decide) r3
    have hidle : st.pc (.user 1) = .idle ∧
        st1 = { st with pc := upd st.pc (.user 1) (.wantCm 2 2) } := by
      simp only [DistCmd.exec] at hst1
      split at hst1
      · next h1 =>
        exact ⟨h1, by rw [if_pos (by decide)] at hst1; injection hst1 with e; exact e.symm⟩
      · cases hst1
    have hp : pos2index .exact (openAxes .exact false exFile) [.fin 4, .fin 7.5] = some [1, 4] := by
      decide +kernel
    refine ⟨st, st1, st2, hr, ⟨[1, 4], hp, hidle.1, hidle.2⟩, hp, ?_⟩
    revert hv
    simp only [Option.any_some]
    split
    · next b off s v h1 =>
      intro hv
      obtain ⟨rfl, h5⟩ := of_decide_eq_true hv
      exact ⟨distExec_during hst2 (by decide) (by rw [h1]; nofun), ⟨b, off, s, h1⟩, h5⟩
    · intro hv; cases hv

end Asagi.Props
