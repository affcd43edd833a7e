import Verif.Proofs.CacheLibStarve
import Verif.Props.SharedLib
import Verif.Props.FullConc
/-
C102: no thread starves in the caches.
-/
namespace Asagi.Props
open Asagi Asagi.Spec
variable {β : Type} {P : DistParams β} {st : DistState β}

/-- **C102.** Without the communication thread (one process, NUMA, MPI windows): in every infinite
execution with any number of calls of any threads, in which locks are granted fairly, every thread is
outside of the getters again and again. So every access returns, although other threads make new
calls all the time. -/
theorem C102_cache (hl : Legal P) (hm : P.mode ≠ .thread) {σ : Nat → DistState β}
    (h : DistReach P (σ 0)) (hc : Course P σ) (hf : FairLocks P σ) (t n : Nat) :
    ∃ m, n ≤ m ∧ (σ m).pc (.user t) = .idle :=
  (distLocks hl hm h hc hf).returns (.user t) n

/-- An execution of this kind: it starts with thread 2 that copies block 5 from process 0 with the
lock of the directory entry, thread 0 that waits for this lock with its slot locked, thread 4 that
waits for the slot with the mutex of the cache, and thread 8 that waits for the mutex; thread 0 calls
getters infinitely often. -/
example : ∃ σ : Nat → DistState Nat, DistReach (exShared .window false false) (σ 0) ∧
    Course (exShared .window false false) σ ∧ FairLocks (exShared .window false false) σ ∧
    (σ 0).pc (.user 8) = .wantCm 7 0 ∧ (σ 0).cm 0 = some (.user 4) ∧
    (σ 0).lk (0, 0) = some (.user 0) ∧ (σ 0).dl 5 = some (.user 2) ∧
    (∀ n, ∃ m, n ≤ m ∧ (σ m).pc (.user 0) = .idle ∧ (σ (m + 1)).pc (.user 0) = .wantCm 5 1) ∧
    ∃ m, (σ m).pc (.user 8) = .idle := by
  obtain ⟨st, hr, hc⟩ := ex_state (mode := .window) (numa := false) (noop := false)
    ([.call 0 5 0] ++ steps 0 12 ++ [.call 0 6 0] ++ steps 0 12 ++ [.call 2 5 1] ++ steps 2 7 ++
      [.call 0 7 0] ++ steps 0 2 ++ [.call 4 7 0] ++ steps 4 1 ++ [.call 8 7 0])
    (fun st => match st.pc (.user 8) with
      | .wantCm 7 0 =>
        decide (st.dl 5 = some (.user 2) ∧ st.lk (0, 0) = some (.user 0) ∧ st.cm 0 = some (.user 4))
      | _ => false) (by decide +kernel)
  obtain ⟨σ, h0, h1, h2, h3⟩ := fairLocks_exists (exShared_legal .window false false)
    (by show DistMode.window ≠ .thread; nofun) hr (t := 0) (b := 5) (off := 1)
    ⟨by show 1 < 2; decide, trivial⟩
  obtain ⟨m, -, hm⟩ := C102_cache (exShared_legal .window false false)
    (by show DistMode.window ≠ .thread; nofun) (h0 ▸ hr) h1 h2 8 0
  refine ⟨σ, h0 ▸ hr, h1, h2, ?_⟩
  rw [h0]
  revert hc
  split
  · next hp =>
    intro hc
    have := of_decide_eq_true hc
    exact ⟨hp, this.2.2, this.2.1, this.1, h3, m, hm⟩
  · intro hc; cases hc

/-- **C102** with THREADSAFE_MPI (the default) and MPI windows, where a thread keeps the lock of the
MPI library of its process while it waits for the lock of a directory entry and while it copies or
loads a block: if locks are granted fairly, every access returns, although other threads make new
calls all the time. -/
theorem C102_cache_mpilock (hl : Legal P) (hm : P.mode = .window) {σ : Nat → LibState β}
    (h : LibReach P (σ 0)) (hc : CourseOf (LibStep P) σ)
    (hf : FairLocksOf (LibMoves P) (fun t ls => ls.st.pc (.user t) = .idle) σ) (t n : Nat) :
    ∃ m, n ≤ m ∧ (σ m).st.pc (.user t) = .idle :=
  (libLocks hl hm h hc hf).returns (.user t) n

/-- It starts with thread 2 (process 1) that copies block 5, thread 0 (process 0) that waits for the
lock of the entry of block 5 with the lock of the library of process 0, and thread 1 that has to wait
for the lock of the library; thread 2 calls getters infinitely often. -/
example : ∃ σ : Nat → LibState Nat, LibReach (exShared .window false false) (σ 0) ∧
    CourseOf (LibStep (exShared .window false false)) σ ∧
    FairLocksOf (LibMoves (exShared .window false false)) (fun t ls => ls.st.pc (.user t) = .idle) σ ∧
    (σ 0).st.dl 5 = some (.user 2) ∧ (σ 0).mp 0 = some 0 ∧ (σ 0).mp 1 = some 2 ∧
    (σ 0).st.pc (.user 1) = .own 6 0 0 .start ∧
    (∀ n, ∃ m, n ≤ m ∧ (σ m).st.pc (.user 2) = .idle ∧ (σ (m + 1)).st.pc (.user 2) = .wantCm 5 1) ∧
    ∃ m, (σ m).st.pc (.user 1) = .idle := by
  have hx : (libRun (exShared .window false false)
      ([.step (.call 0 5 0)] ++ libSteps 0 4 ++ [.take 0] ++ libSteps 0 8 ++ [.step (.call 0 6 0)] ++
        libSteps 0 4 ++ [.take 0] ++ libSteps 0 8 ++ [.step (.call 2 5 1)] ++
        libSteps 2 4 ++ [.take 2] ++ libSteps 2 3 ++ [.step (.call 1 6 0)] ++ libSteps 1 4 ++
        [.step (.call 0 7 0)] ++ libSteps 0 2 ++ [.take 0])).any
      (fun ls => match ls.st.pc (.user 1) with
        | .own 6 0 0 .start =>
          decide (ls.st.dl 5 = some (.user 2) ∧ ls.mp 0 = some 0 ∧ ls.mp 1 = some 2)
        | _ => false) = true := by decide +kernel
  revert hx
  generalize hr : libRun _ _ = x
  cases x with
  | none => intro h; cases h
  | some ls =>
    intro hx
    have hr := libRun_reach (P := exShared .window false false) (fun _ _ => trivial) hr
    obtain ⟨σ, h0, h1, h2, h3⟩ := libFair_exists (exShared_legal .window false false)
      (by show DistMode.window ≠ .thread; nofun) hr (t := 2) (b := 5) (off := 1)
      ⟨by show 1 < 2; decide, trivial⟩
    obtain ⟨m, -, hm⟩ := C102_cache_mpilock (exShared_legal .window false false) rfl
      (h0 ▸ hr) h1 h2 1 0
    refine ⟨σ, h0 ▸ hr, h1, h2, ?_⟩
    rw [h0]
    revert hx
    simp only [Option.any_some]
    split
    · next hp =>
      intro hx
      obtain ⟨h4, h5, h6⟩ := of_decide_eq_true hx
      exact ⟨h4, h5, h6, hp, h3, m, hm⟩
    · intro hx; cases hx

/-! ### Distributed FULL grids -/

section
variable {α : Type} {c : LevelCfg α} {F : FullCfg α} {s0 : FullDist α} {st st' : DistState α}

/-- A thread of a FULL grid can continue if it can continue in the shared caches. -/
theorem full_can (wf : c.WF) (h : FullOpened c F s0) (hI : DistInv (c.fullShared F) st) {u : Nat}
    (hne : st.pc (.user u) ≠ .idle) (hu : UserStep (c.fullShared F) u st st') :
    ∃ st'', FullMoves c F s0.data u st st'' := by
  by_cases hl : ∃ b off s k, st.pc (.user u) = .own b off s (.load k) ∧ k < c.totalBlockSize
  · obtain ⟨b, off, s, k, hp, hk⟩ := hl
    obtain ⟨⟨-, idx, hl, hin, rfl, rfl⟩, -⟩ := hI.own u b off s _ hp
    have hbox : InBox c.file.size idx := inBox_of_getElem? hl (fun {k a b} ha hb => hin k a b ha hb)
    obtain ⟨src, e1, e2, -⟩ := fullSource_spec (h.static wf) h.ranks h.domains h.reach (h.rank u)
      (block_lt wf hbox).1
    have hget : src[k]? = some src[k] := List.getElem?_eq_getElem (by omega)
    refine ⟨_, .copy st u _ _ s k src _ hp hk e1 hget, ?_⟩
    simp only [DistState.goto, upd_self, hp]
    intro e
    injection e with _ _ _ e
    injection e with e
    omega
  · refine ⟨st', .other u hne (fun b off s k hp => ?_) hu, user_moves hI nofun hu⟩
    by_contra hk
    exact hl ⟨b, off, s, k, hp, by omega⟩

/-- **C102** for distributed FULL grids: if locks are granted fairly, every access returns, although
other threads make new calls all the time. -/
theorem C102_full {fp : Fp} {cc : Bool} {nc : List NcAxis} {val : List Nat → α}
    (ho : Opened fp cc nc val c) (h : FullOpened c F s0) {σ : Nat → DistState α}
    (hr : FullReach c F s0.data (σ 0)) (hc : CourseOf (FullStep c F s0.data) σ)
    (hf : FairLocksOf (FullMoves c F s0.data) (fun t st => st.pc (.user t) = .idle) σ) (t n : Nat) :
    ∃ m, n ≤ m ∧ (σ m).pc (.user t) = .idle := by
  obtain ⟨wf, hx, -⟩ := ho.spec
  have hcd : Course (c.fullShared F) σ := fun n => (hc n).imp_left (·.dist wf hx h)
  have h0 := hr.dist wf hx h
  have hI := fun n => h.legal.inv (course_reach h0 hcd n)
  refine C102_cache h.legal nofun h0 hcd (fun t n => ?_) t n
  obtain ⟨m, hm, hf⟩ := hf t n
  rcases hf with hf | ⟨hs, hne⟩ | hf
  · exact ⟨m, hm, .inl hf⟩
  · refine ⟨m, hm, .inr (.inl ?_)⟩
    cases hs.dist wf hx h with
    | user u hu =>
      by_cases e : t = u
      · subst e; exact hu
      · exact absurd (user_other hu (by intro e1; injection e1 with e1; exact e e1)) hne
    | comm r hcm => exact absurd (comm_other hcm (a := .user t) nofun) hne
  · by_cases hi : ∃ k, m ≤ k ∧ (σ k).pc (.user t) = .idle
    · obtain ⟨k, hk, hi⟩ := hi
      exact ⟨k, by omega, .inl hi⟩
    · push Not at hi
      refine ⟨m, hm, .inr (.inr fun k hk st' hu => ?_)⟩
      obtain ⟨st'', hs⟩ := full_can wf h (hI k) (hi k hk) hu
      exact hf k hk st'' hs

/-- An execution of this kind (see the example in `Verif.Props.FullConc`): thread 0 is copying block 2,
and thread 3 calls a getter for a value of this block again and again. -/
example : ∃ (s0 : FullDist (List Nat)) (σ : Nat → DistState (List Nat)), FullOpened exLevel exFullCfg s0 ∧
    FullReach exLevel exFullCfg s0.data (σ 0) ∧ CourseOf (FullStep exLevel exFullCfg s0.data) σ ∧
    FairLocksOf (FullMoves exLevel exFullCfg s0.data) (fun t st => st.pc (.user t) = .idle) σ ∧
    (∃ b off s, (σ 0).pc (.user 0) = .own b off s (.load 3)) ∧
    (∀ n, ∃ m, n ≤ m ∧ FullCalled exLevel exFullCfg 3 [.fin 4, .fin 7.5] (σ m) (σ (m + 1))) ∧
    ∃ m, (σ m).pc (.user 0) = .idle := by
  have hsome : ((fullDistOpen exLevel exFullCfg.ds 2 1 [] (fun _ => List.replicate 12 [])).bind fun s0 =>
      (CacheList.init 2 1).bind fun l =>
      (fullCall exLevel exFullCfg (DistState.start (exLevel.fullShared exFullCfg) l) 0
        [.fin 4, .fin 7.5]).bind fun sc =>
      (fullExec exLevel exFullCfg s0.data 0 9 sc).bind fun st => some (s0, l, sc, st)).any
      (fun x => match x.2.2.2.pc (.user 0) with
        | .own _ _ _ (.load 3) => true
        | _ => false) = true := by decide +kernel
  revert hsome
  generalize hx : Option.bind _ _ = x
  cases x with
  | none => intro h; cases h
  | some x =>
    intro hv
    simp only [Option.bind_eq_some_iff] at hx
    obtain ⟨s0, h0, l, hl, sc, hc, st, hst, hx⟩ := hx
    injection hx with hx; subst hx
    have hr0 : FullReach exLevel exFullCfg s0.data (DistState.start (exLevel.fullShared exFullCfg) l) :=
      .init ⟨l, hl, rfl⟩
    have hr : FullReach exLevel exFullCfg s0.data st :=
      fullExec_sound (.step hr0 (.call _ _ (fullCall_sound hc))) hst
    have hop : FullOpened exLevel exFullCfg s0 := ⟨by decide, by decide, by decide, by decide, fun t => by
      show t % 4 < 2 * 2
      omega, .inl rfl, ⟨fun _ => List.replicate 12 [], fun r _ => by
        rw [List.length_replicate]; decide, h0⟩⟩
    obtain ⟨wf, hex, -⟩ := exLevel_opened.spec
    have hidle : ∀ {s}, FullReach exLevel exFullCfg s0.data s →
        (∀ s', ¬ FullQuiet exLevel exFullCfg s0.data s s') → ∀ u, s.pc (.user u) = .idle := by
      intro s hr hq u
      by_contra hn
      obtain ⟨s', h'⟩ := full_progress wf hex hop hr hn
      exact hq s' h'
    obtain ⟨σ, e0, h1, h2, h3⟩ := fairCourse_exists (reach := FullReach exLevel exFullCfg s0.data)
      (quiet := FullQuiet exLevel exFullCfg s0.data)
      (Q := fun s s' => FullCalled exLevel exFullCfg 3 [.fin 4, .fin 7.5] s s')
      (FullMoves exLevel exFullCfg s0.data) (fun t st => st.pc (.user t) = .idle)
      (fun h hs => .step h hs) (fun h => h.1) (fun τ hτ hq => by
        obtain ⟨N, hN⟩ := C18_full_access_returns exLevel_opened hop hτ
        have hrun : ∀ j, FullQuietRun exLevel exFullCfg s0.data j (τ 0) (τ j) := by
          intro j
          induction j with
          | zero => exact .zero _
          | succ j ih => exact .succ ih (hq j)
        have := (hN _ _ (hrun (N + 1))).1
        omega) hidle (fun {s} hr hq => by
        have hcall : ∃ s', FullCalled exLevel exFullCfg 3 [.fin 4, .fin 7.5] s s' :=
          ⟨_, [1, 4], by decide +kernel, by unfold FullCfg.isLocal; decide +kernel, hidle hr hq 3, rfl⟩
        obtain ⟨s', hs'⟩ := hcall
        exact ⟨s', .call 3 _ hs', hs'⟩) hr
    obtain ⟨m, -, hm⟩ := C102_full exLevel_opened hop (σ := σ) (e0 ▸ hr) h1 h2 0 0
    refine ⟨s0, σ, hop, e0 ▸ hr, h1, h2, ?_, h3, m, hm⟩
    rw [e0]
    simp only [Option.any_some] at hv
    revert hv
    split
    · next hp => exact fun _ => ⟨_, _, _, hp⟩
    · intro hv; cases hv

end
end Asagi.Props
