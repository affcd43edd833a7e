import Verif.Proofs.CloseFull
import Verif.Spec.CloseFull
import Verif.Props.FullMsg
import Verif.Proofs.FullMsgRun
/-
C92: closing a distributed FULL grid.
-/
namespace Asagi.Props
open Asagi Asagi.Spec
variable {α : Type} {c : LevelCfg α} {X : XferCfg α} {data : Nat → Mem α} {procs : Nat}
  {s : CloseFullSt α}

/-- **C92** for FULL grids: as long as one process has not called `close`, the grid works as before
(all theorems of C83 apply to this state). -/
theorem C92_full_in_use (hp : ∀ t, X.rankT t < procs) (h : CloseFullReach c X data procs s)
    (q : Nat) (hq : q < procs) (h0 : s.stage q = 0) : XferReach c X data s.x :=
  (h.inv hp).used ⟨q, hq, h0⟩

/-- **C92** for FULL grids: as long as one process has not called `close`, whatever the getters of the
other processes and the communication threads can do in an open grid (C83), they can still do; in
particular the processes that are in `close` answer requests. -/
theorem C92_full_served (hp : ∀ t, X.rankT t < procs) (h : CloseFullReach c X data procs s)
    (q : Nat) (hq : q < procs) (h0 : s.stage q = 0) {early : Bool} (x' : XferSt α)
    (hs : XferStep c X data early s.x x')
    (hpc : ∀ t, s.stage (X.rankT t) ≠ 0 → x'.st.pc (.user t) = s.x.st.pc (.user t)) :
    CloseFullStep c X data procs early s { s with x := x' } := by
  have hi := h.inv hp
  refine .use s x' hs hpc fun src r m rest e _ => ⟨wire_tag (hi.used ⟨q, hq, h0⟩) (q := src) (r := r)
    (by rw [e]; exact List.mem_cons_self), ?_⟩
  have : s.stage r < 2 := Nat.lt_of_not_le fun h2 => hi.bar r h2 q hq h0
  omega

/-- **C92** for FULL grids: when the barrier is passed anywhere, all processes have called `close`, no
getter and no transfer is active and there are no messages: nothing reads the memory of any process,
by the communication thread or through a window. -/
theorem C92_full_after_barrier (hp : ∀ t, X.rankT t < procs) (h : CloseFullReach c X data procs s)
    (r : Nat) (hr : 2 ≤ s.stage r) :
    (∀ q, q < procs → 1 ≤ s.stage q) ∧ (∀ t, s.x.st.pc (.user t) = .idle ∧ s.x.call t = .out) ∧
    (∀ src q, s.x.wire src q = []) ∧ (∀ q src, s.x.mail q src = []) := by
  have hi := h.inv hp
  have hb := hi.bar r hr
  have hQ := hi.all hb
  exact ⟨fun q hq => Nat.pos_of_ne_zero (hb q hq), fun t => ⟨hQ.users t, hQ.call t⟩, hQ.wire, hQ.mail⟩

/-- **C92** for FULL grids: when the receiver is removed (or the window freed), the communication
thread of the process is outside of all functions of the grid, and it stays outside while the memory
of the blocks is freed and afterwards. -/
theorem C92_full_outside (hp : ∀ t, X.rankT t < procs) (h : CloseFullReach c X data procs s)
    (r : Nat) (hr : 4 ≤ s.stage r) : s.x.comm r = none := (h.inv hp).done r hr

/-- **C92** for FULL grids: every message reaches a receiver that is still registered. -/
theorem C92_full_message (hp : ∀ t, X.rankT t < procs) (h : CloseFullReach c X data procs s)
    (src r : Nat) (m : Msg) (hm : m ∈ s.x.wire src r) : m.tag = X.tag ∧ s.stage r < 2 := by
  have hi := h.inv hp
  by_cases he : ∃ q, q < procs ∧ s.stage q = 0
  · refine ⟨wire_tag (hi.used he) hm, Nat.lt_of_not_le fun h2 => ?_⟩
    obtain ⟨q, e1, e2⟩ := he
    exact hi.bar r h2 q e1 e2
  · rw [(hi.all fun q hq h0 => he ⟨q, hq, h0⟩).wire] at hm
    cases hm

/-- **C92** for FULL grids: when all processes have called `close`, it returns in all of them. -/
theorem C92_full_returns (hp : ∀ t, X.rankT t < procs) (h : CloseFullReach c X data procs s)
    (ha : ∀ q, q < procs → 1 ≤ s.stage q) :
    ∃ N, ∀ early n s', CloseFullRun c X data procs early n s s' → n ≤ N ∧
      ((∀ s'', ¬ CloseFullStep c X data procs early s' s'') → ∀ r, r < procs → s'.stage r = 5) := by
  obtain ⟨m, hm⟩ := h.rest
  refine ⟨m + s.remain procs, fun early n s' hr => ?_⟩
  have key : CloseFullInv c X data procs s' ∧ (∀ q, q < procs → s'.stage q ≠ 0) ∧
      ∃ m', s'.x.Rest m' ∧ n + m' + s'.remain procs ≤ m + s.remain procs := by
    induction hr with
    | zero => exact ⟨h.inv hp, fun q hq => Nat.ne_of_gt (ha q hq), m, hm, by omega⟩
    | more hr hs ih =>
      obtain ⟨h1, h2, m1, h3, h4⟩ := ih h ha hm
      obtain ⟨h5, m2, h6, h7⟩ := h1.less hp h2 hs h3
      exact ⟨h1.step hp hs, h5, m2, h6, by omega⟩
  obtain ⟨h1, h2, m', -, h4⟩ := key
  refine ⟨by omega, fun hend r hr' => ?_⟩
  apply Classical.byContradiction
  intro h8
  obtain ⟨s'', hs⟩ := h1.go (early := early) h2 hr' h8
  exact hend s'' hs

/-! ### Examples: two processes, see `exXfer` -/

theorem exXfer_ranks (win : Bool) (t : Nat) : (exXfer win).rankT t < 2 := by
  show t % 4 / 2 < 2
  omega

/-- Thread 2 (process 1) has got block 2 from process 0 and has returned; the communication thread of
process 0 is still in `MPI_Send` of the reply. -/
def exCloseFullRun : List XferCmd := [.call 2 [.fin 4, .fin 7.5]] ++ xsteps 2 9 ++ [.take 0 1] ++ xsteps 2 12

theorem goto_other {st : DistState α} {t n b off k : Nat} {ph : Phase α} (h : n ≠ t) :
    (st.goto t b off k ph).pc (.user n) = st.pc (.user n) := upd_ne st.pc _ (user_ne' h)

/-- A schedule does not move threads that it does not name. -/
theorem exec_other {x x' : XferSt α} {a : XferCmd} {n : Nat} (h : a.exec c X data x = some x')
    (hn : (∀ pos, a ≠ .call n pos) ∧ a ≠ .user n) : x'.st.pc (.user n) = x.st.pc (.user n) := by
  cases a with
  | call t pos =>
    have ht : n ≠ t := fun e => hn.1 pos (by rw [e])
    simp only [XferCmd.exec, Option.map_eq_some_iff] at h
    obtain ⟨st', h1, rfl⟩ := h
    obtain ⟨idx, -, -, -, rfl⟩ := fullCall_sound h1
    exact upd_ne x.st.pc _ (user_ne' ht)
  | user t =>
    have ht : n ≠ t := fun e => hn.2 (by rw [e])
    simp only [XferCmd.exec] at h
    unfold xferUser xferOut at h
    repeat' split at h
    all_goals
      first
      | cases h
      | (simp only [Option.bind_eq_some_iff] at h
         obtain ⟨v, -, h⟩ := h
         first
         | (cases h; exact goto_other ht)
         | (obtain ⟨w, -, h⟩ := h; cases h; exact goto_other ht))
      | (rw [Option.map_eq_some_iff] at h
         obtain ⟨st', h1, rfl⟩ := h
         exact user_other (execUser_sound h1) (user_ne' ht))
    all_goals rfl
  | take r src =>
    simp only [XferCmd.exec] at h
    repeat' split at h
    all_goals
      first
      | cases h
      | (rw [Option.bind_eq_some_iff] at h; obtain ⟨buf, -, h⟩ := h; cases h; rfl)
  | answered r =>
    simp only [XferCmd.exec] at h
    split at h <;> cases h
    rfl

theorem xferExec_other {l : List XferCmd} {x x' : XferSt α} {n : Nat}
    (h : xferExec c X data l x = some x') (hn : ∀ a ∈ l, (∀ pos, a ≠ .call n pos) ∧ a ≠ .user n) :
    x'.st.pc (.user n) = x.st.pc (.user n) := by
  induction l generalizing x with
  | nil => cases h; rfl
  | cons a l ih =>
    unfold xferExec at h
    rw [Option.bind_eq_some_iff] at h
    obtain ⟨x1, h1, h2⟩ := h
    rw [ih h2 fun b hb => hn b (List.mem_cons_of_mem _ hb), exec_other h1 (hn a List.mem_cons_self)]

theorem exCloseFull_other {a : XferCmd} (ha : a ∈ exCloseFullRun) {n : Nat} (hn : n ≠ 2) :
    (∀ pos, a ≠ .call n pos) ∧ a ≠ .user n := by
  simp only [exCloseFullRun, xsteps, List.mem_append, List.mem_singleton, List.mem_replicate] at ha
  rcases ha with ((rfl | ⟨-, rfl⟩) | rfl) | ⟨-, rfl⟩
  · exact ⟨fun pos e => by injection e with e; exact hn e.symm, nofun⟩
  · exact ⟨nofun, fun e => by injection e with e; exact hn e.symm⟩
  · exact ⟨nofun, nofun⟩
  · exact ⟨nofun, fun e => by injection e with e; exact hn e.symm⟩

theorem exCloseFull_state : ∃ s0, FullOpened exLevel (exXfer false).F s0 ∧
    ∃ x, XferReach exLevel (exXfer false) s0.data x ∧ (∀ t, x.st.pc (.user t) = .idle) ∧
      x.comm 0 = some (1, 1) := by
  have h : ((fullDistOpen exLevel (exXfer false).F.ds 2 1 [] (fun _ => List.replicate 12 [])).bind fun s0 =>
      (CacheList.init 2 1).bind fun cl =>
      xferExec exLevel (exXfer false) s0.data exCloseFullRun
        (XferSt.start exLevel (exXfer false) cl)).any
      (fun x => (match x.st.pc (.user 2) with | .idle => true | _ => false) &&
        decide (x.comm 0 = some (1, 1))) = true := by decide +kernel
  revert h
  generalize hx : Option.bind _ _ = y
  cases y with
  | none => intro h; cases h
  | some y =>
    intro hf
    simp only [Option.bind_eq_some_iff] at hx
    obtain ⟨s0, h0, cl, h1, h2⟩ := hx
    simp only [Option.any_some, Bool.and_eq_true, decide_eq_true_eq] at hf
    refine ⟨s0, ⟨Nat.zero_lt_succ 1, Nat.zero_lt_succ 1, Nat.zero_lt_succ 1, Int.lt_add_one_of_le (Int.le_refl 1),
      fun t => ?_, .inl rfl, ⟨fun _ => List.replicate 12 [], fun r _ => ?_, h0⟩⟩, y,
      xferExec_reach (.init ⟨cl, h1, rfl⟩) h2, fun t => ?_, hf.2⟩
    · show t % 4 < 2 * 2
      omega
    · rw [List.length_replicate]
      show 12 = domainSize exLevel exFullCfg.ds * exFullCfg.ds.domains
      decide
    · by_cases ht : t = 2
      · subst ht
        have e := hf.1
        split at e
        · next e1 => exact e1
        · cases e
      · exact xferExec_other h2 fun a ha => exCloseFull_other ha ht

/-- Process 0 is in `close`, process 1 uses the grid. -/
example : ∃ s0, FullOpened exLevel (exXfer false).F s0 ∧
    ∃ s, CloseFullReach exLevel (exXfer false) s0.data 2 s ∧ s.stage 0 = 1 ∧ s.stage 1 = 0 := by
  obtain ⟨s0, ho, x, h, h1, -⟩ := exCloseFull_state
  exact ⟨s0, ho, _, .step h.open_ (.call _ 0 (by decide) rfl fun t _ => h1 t), rfl, rfl⟩

theorem exCloseFull_asked : ∃ s0, FullOpened exLevel (exXfer false).F s0 ∧
    ∃ x, XferReach exLevel (exXfer false) s0.data x ∧
      (∀ t, (exXfer false).rankT t = 0 → x.st.pc (.user t) = .idle) ∧ x.wire 1 0 = [⟨7, 1, 0⟩] ∧
      x.comm 0 = none ∧
      ∃ buf, (s0.data 0).slice (1 * exLevel.totalBlockSize) exLevel.totalBlockSize = some buf := by
  have h : ((fullDistOpen exLevel (exXfer false).F.ds 2 1 [] (fun _ => List.replicate 12 [])).bind fun s0 =>
      (CacheList.init 2 1).bind fun cl =>
      (xferExec exLevel (exXfer false) s0.data exXferAsk
        (XferSt.start exLevel (exXfer false) cl)).map fun x => (s0, x)).any
      (fun sx => decide (sx.2.wire 1 0 = [⟨7, 1, 0⟩]) && decide (sx.2.comm 0 = none) &&
        ((sx.1.data 0).slice (1 * exLevel.totalBlockSize) exLevel.totalBlockSize).isSome) = true := by
    decide +kernel
  revert h
  generalize hx : Option.bind _ _ = y
  cases y with
  | none => intro h; cases h
  | some y =>
    intro hf
    simp only [Option.bind_eq_some_iff, Option.map_eq_some_iff] at hx
    obtain ⟨s0, h0, cl, h1, x, h2, rfl⟩ := hx
    simp only [Option.any_some, Bool.and_eq_true, decide_eq_true_eq] at hf
    refine ⟨s0, ⟨Nat.zero_lt_succ 1, Nat.zero_lt_succ 1, Nat.zero_lt_succ 1, Int.lt_add_one_of_le (Int.le_refl 1),
      fun t => ?_, .inl rfl, ⟨fun _ => List.replicate 12 [], fun r _ => ?_, h0⟩⟩, x,
      xferExec_reach (.init ⟨cl, h1, rfl⟩) h2, fun t ht => ?_, hf.1.1, hf.1.2,
      Option.isSome_iff_exists.1 hf.2⟩
    · show t % 4 < 2 * 2
      omega
    · rw [List.length_replicate]
      show 12 = domainSize exLevel exFullCfg.ds * exFullCfg.ds.domains
      decide
    · have ht' : t % 4 / 2 = 0 := ht
      have e2 : t ≠ 2 := fun e => by subst e; cases ht'
      have e3 : t ≠ 3 := fun e => by subst e; cases ht'
      refine xferExec_other h2 fun a ha => ?_
      simp only [exXferAsk, xsteps, List.mem_append, List.mem_cons, List.not_mem_nil, or_false,
        List.mem_replicate] at ha
      rcases ha with ((rfl | rfl) | ⟨-, rfl⟩) | ⟨-, rfl⟩
      · exact ⟨fun pos e => by injection e with e; exact e2 e.symm, nofun⟩
      · exact ⟨fun pos e => by injection e with e; exact e3 e.symm, nofun⟩
      · exact ⟨nofun, fun e => by injection e with e; exact e2 e.symm⟩
      · exact ⟨nofun, fun e => by injection e with e; exact e3 e.symm⟩

/-- The hypotheses of `C92_full_served` are met: process 0 is in `close`, the request of thread 2 of
process 1 is on its way, and the communication thread of process 0 answers it. -/
example : ∃ s0, FullOpened exLevel (exXfer false).F s0 ∧
    ∃ s, CloseFullReach exLevel (exXfer false) s0.data 2 s ∧ s.stage 0 = 1 ∧ s.stage 1 = 0 ∧
      s.x.mail 0 1 = [] ∧ ∃ s' m, CloseFullStep exLevel (exXfer false) s0.data 2 false s s' ∧
        s'.x.mail 0 1 = [m] := by
  obtain ⟨s0, ho, x, h, h1, h2, h3, buf, h4⟩ := exCloseFull_asked
  have c1 := Reachable.step (h.open_ (procs := 2)) (.call _ 0 (by decide) rfl fun t ht => h1 t ht)
  have hm : x.mail 0 1 = [] := by
    cases h.inv.1.chan 1 with
    | none e1 e2 e3 => rw [e2] at h2; cases h2
    | asked t b off s k e1 e2 e3 e4 e5 => exact e5 0
    | told t b off s k buf e1 e2 e3 e4 => rw [e4] at h2; cases h2
  refine ⟨s0, ho, _, c1, rfl, rfl, hm, _, ⟨x.next, buf⟩, C92_full_served (exXfer_ranks false) c1 1 (by decide) rfl _
    (.take x 1 0 ⟨7, 1, 0⟩ [] buf h3 h2 rfl h4) (fun _ _ => rfl), ?_⟩
  show upd x.mail 0 (upd (x.mail 0) 1 (x.mail 0 1 ++ [⟨x.next, buf⟩])) 0 1 = _
  rw [upd_self, upd_self, hm]
  rfl

/-- Both processes have passed the barrier and freed their caches, while the communication thread of
process 0 is still inside the grid. -/
theorem exCloseFull_wait : ∃ s0, FullOpened exLevel (exXfer false).F s0 ∧
    ∃ s, CloseFullReach exLevel (exXfer false) s0.data 2 s ∧ s.stage 0 = 3 ∧ s.stage 1 = 3 ∧
      s.x.comm 0 = some (1, 1) := by
  obtain ⟨s0, ho, x, h, h1, h2⟩ := exCloseFull_state
  have hb : ∀ {f : Nat → Nat}, 1 ≤ f 0 → 1 ≤ f 1 → ∀ q, q < 2 → 1 ≤ f q := by
    intro f h0 h1 q hq
    have : q = 0 ∨ q = 1 := by omega
    rcases this with rfl | rfl <;> assumption
  have c1 := Reachable.step (h.open_ (procs := 2)) (.call _ 0 (by decide) rfl fun t _ => h1 t)
  have c2 := Reachable.step c1 (.call _ 1 (by decide) rfl fun t _ => h1 t)
  have c3 := Reachable.step c2 (.pass _ 0 rfl (hb (Nat.le_refl 1) (Nat.le_refl 1)))
  have c4 := Reachable.step c3 (.pass _ 1 rfl (hb (Nat.le_succ 1) (Nat.le_refl 1)))
  have c5 := Reachable.step c4 (.freeCache _ 0 rfl)
  have c6 := Reachable.step c5 (.freeCache _ 1 rfl)
  exact ⟨s0, ho, _, c6, rfl, rfl, h2⟩

/-- There process 0 has to wait before it removes its receiver. -/
example : ∃ s0, FullOpened exLevel (exXfer false).F s0 ∧
    ∃ s, CloseFullReach exLevel (exXfer false) s0.data 2 s ∧ s.stage 0 = 3 ∧
      ∀ early s', CloseFullStep exLevel (exXfer false) s0.data 2 early s s' → s'.stage 0 = 3 := by
  obtain ⟨s0, ho, s, h, h0, h1, h2⟩ := exCloseFull_wait
  have hne : ∀ {r v : Nat}, s.stage r ≠ 3 → upd s.stage r v 0 = 3 := by
    intro r v hr
    have : (0 : Nat) ≠ r := fun e => hr (by rw [← e]; exact h0)
    rw [upd_ne s.stage v this]
    exact h0
  refine ⟨s0, ho, s, h, h0, fun early s' hs => ?_⟩
  cases hs with
  | use => exact h0
  | drop => exact h0
  | call r _ e => exact hne (by omega)
  | pass r e => exact hne (by omega)
  | freeCache r e => exact hne (by omega)
  | unregister r _ e e' =>
    have : (0 : Nat) ≠ r := fun e0 => by subst e0; rw [h2] at e'; cases e'
    show upd s.stage r 4 0 = 3
    rw [upd_ne s.stage 4 this]
    exact h0
  | winFree r e => cases e
  | free r e => exact hne (by omega)

/-- The hypotheses of `C92_full_after_barrier`, `C92_full_outside` and `C92_full_returns` are met: the
send of the reply ends, and process 0 removes its receiver. -/
example : ∃ s0, FullOpened exLevel (exXfer false).F s0 ∧
    ∃ s, CloseFullReach exLevel (exXfer false) s0.data 2 s ∧ 4 ≤ s.stage 0 ∧
      ∀ q, q < 2 → 1 ≤ s.stage q := by
  obtain ⟨s0, ho, s, h, h0, h1, h2⟩ := exCloseFull_wait
  have c1 := Reachable.step h (.use s _ (.answered s.x 0 1 1 h2 (.inl rfl)) (fun _ _ => rfl)
    fun src r m rest e e' => absurd (congrArg List.length (e.symm.trans e')) (by
      rw [List.length_cons]; exact Nat.succ_ne_self _))
  have c2 := Reachable.step c1 (.unregister _ 0 rfl h0 (upd_self s.x.comm 0 none))
  refine ⟨s0, ho, _, c2, Nat.le_of_eq (upd_self s.stage 0 4).symm, fun q hq => ?_⟩
  show 1 ≤ upd s.stage 0 4 q
  rw [upd_apply]
  split
  · decide
  · have : q = 1 := by omega
    subst this
    omega

/-- The hypotheses of `C92_full_message` are met: the request of thread 2 is on the way. -/
example : ∃ s0, FullOpened exLevel (exXfer false).F s0 ∧
    ∃ s, CloseFullReach exLevel (exXfer false) s0.data 2 s ∧ ⟨7, 1, 0⟩ ∈ s.x.wire 1 0 := by
  obtain ⟨s0, ho, x, hr, hc⟩ := exXfer_state (win := false) exXferAsk
    (fun x => decide (x.wire 1 0 = [⟨7, 1, 0⟩])) (by decide +kernel)
  refine ⟨s0, ho, _, hr.open_, ?_⟩
  show _ ∈ x.wire 1 0
  rw [of_decide_eq_true hc]
  exact List.mem_cons_self

end Asagi.Props
