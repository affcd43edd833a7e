import Verif.Proofs.CloseMsg
import Verif.Props.MsgCache
/-
C92: closing a cached grid with the communication thread.
-/
namespace Asagi.Props
open Asagi Asagi.Spec
variable {β : Type} {C : MsgParams β} {procs : Nat} {s : CloseSt β}

/-- **C92**: as long as one process has not called `close`, the grid works as before (all theorems of
C82 apply to this state), although the others may be in `close` already. -/
theorem C92_in_use (hC : LegalMsg C) (hp : ∀ t, C.P.rankT t < procs) (h : CloseReach C procs s)
    (q : Nat) (hq : q < procs) (h0 : s.stage q = 0) : MsgReach C s.ms :=
  (h.inv hC hp).used ⟨q, hq, h0⟩

/-- **C92**: as long as one process has not called `close`, whatever the getters of the other processes
and the communication threads can do in an open grid (C82), they can still do; in particular the
processes that are in `close` answer requests. -/
theorem C92_served (hC : LegalMsg C) (hp : ∀ t, C.P.rankT t < procs) (h : CloseReach C procs s)
    (q : Nat) (hq : q < procs) (h0 : s.stage q = 0) {early : Bool} (ms' : MsgSt β)
    (hs : MsgCacheStep C early s.ms ms')
    (hpc : ∀ t, s.stage (C.rankT t) ≠ 0 → ms'.st.pc (.user t) = s.ms.st.pc (.user t)) :
    CloseMsgStep C procs early s { s with ms := ms' } := by
  have hi := h.inv hC hp
  refine .use s ms' hs hpc fun src r m rest e _ => ?_
  obtain ⟨a, is, xs, -, g⟩ := MsgReach.sim hC (hi.used ⟨q, hq, h0⟩)
  apply Classical.byContradiction
  intro h3
  have := registered_stage (g.tags src r m (by rw [e]; exact List.mem_cons_self)).1 h3
  exact hi.bar r (by omega) q hq h0

/-- **C92**: when the barrier is passed anywhere, all processes have called `close`, no getter is
active, no communication thread serves a request, no request is on its way, and no reply; so nothing
uses the type of the values (freed next), the list of the caches (freed before the receivers are
removed) or waits for an answer. Only updates of the directory may still be on their way. -/
theorem C92_after_barrier (hC : LegalMsg C) (hp : ∀ t, C.P.rankT t < procs)
    (h : CloseReach C procs s) (r : Nat) (hr : 2 ≤ s.stage r) :
    (∀ q, q < procs → 1 ≤ s.stage q) ∧ (∀ t, s.ms.st.pc (.user t) = .idle) ∧
    (∀ q, ¬ Serving s.ms q) ∧
    (∀ src q, ∀ m ∈ s.ms.wire src q, m.tag = C.addTag ∨ m.tag = C.delTag) ∧
    (∀ q src, s.ms.mail q src = []) := by
  have hi := h.inv hC hp
  have hb := hi.bar r hr
  have hQ := hi.all hb
  refine ⟨fun q hq => Nat.pos_of_ne_zero (hb q hq), hQ.users, fun q hs => ?_, hQ.wire, hQ.mail⟩
  obtain ⟨src, b, i, hs⟩ := hs
  rcases hQ.comm q with e | ⟨i', s', e⟩ <;> rw [e] at hs <;>
    rcases hs with hs | hs | ⟨_, _, _, hs⟩ <;> cases hs

/-- **C92**: when the receivers are removed, the communication thread of the process is outside of all
functions of the grid, and it stays outside: nothing uses the mutexes, the directory and the caches
while they are freed and afterwards. -/
theorem C92_outside (hC : LegalMsg C) (hp : ∀ t, C.P.rankT t < procs) (h : CloseReach C procs s)
    (r : Nat) (hr : 7 ≤ s.stage r) : ¬ CommInside s.ms r := by
  have := (h.inv hC hp).done r hr
  rintro (e | e)
  · exact e this.1
  · exact e this.2

/-- **C92**: a message that arrives while the grid is closed either reaches a receiver that is still
registered, and then the directory, the mutexes and the caches are not freed yet; or it has no receiver,
then it is an update of the directory, and it is ignored without any effect. So no request is lost. -/
theorem C92_message (hC : LegalMsg C) (hp : ∀ t, C.P.rankT t < procs) (h : CloseReach C procs s)
    {early : Bool} {s' : CloseSt β} (hs : CloseMsgStep C procs early s s') (src r : Nat) (m : Msg)
    (ht : Takes s s' src r m) :
    (C.registered (s.stage r) m.tag ∧ s.stage r < 7) ∨
    ((m.tag = C.addTag ∨ m.tag = C.delTag) ∧ s'.ms.st = s.ms.st ∧ s'.ms.mail = s.ms.mail ∧
      s'.ms.wait = s.ms.wait ∧ s'.stage = s.stage) := by
  obtain ⟨rest, e1, e2⟩ := ht
  have same : ∀ {l : List Msg}, l = m :: rest → l = rest → False := fun a b => by
    rw [a] at b; exact absurd (congrArg List.length b) (by simp)
  cases hs with
  | use ms' h1 h2 h3 => have := h3 src r m rest e1 e2; exact .inl ⟨this, registered_lt this⟩
  | drop src' r' m' rest' h1 h2 h3 =>
    refine .inr ⟨?_, rfl, rfl, rfl, rfl⟩
    by_cases hsame : src = src' ∧ r = r'
    · obtain ⟨rfl, rfl⟩ := hsame
      rw [e1] at h2
      obtain ⟨rfl, rfl⟩ := List.cons.inj h2
      have hi := h.inv hC hp
      have hm : m ∈ s.ms.wire src r := by rw [e1]; exact List.mem_cons_self
      by_cases hu : ∃ q, q < procs ∧ s.stage q = 0
      · obtain ⟨a, is, xs, -, g⟩ := MsgReach.sim hC (hi.used hu)
        have := registered_stage (g.tags src r m hm).1 h3
        obtain ⟨q, a1, a2⟩ := hu
        exact absurd a2 (hi.bar r (by omega) q a1)
      · exact (hi.all fun q hq h0 => hu ⟨q, hq, h0⟩).wire src r m hm
    · have : (s.ms.take src' r' rest').wire src r = s.ms.wire src r := take_other s.ms rest' hsame
      exact (same e1 (this.symm.trans e2)).elim
  | call => exact (same e1 e2).elim
  | pass => exact (same e1 e2).elim
  | freeList => exact (same e1 e2).elim
  | unregister => exact (same e1 e2).elim
  | free => exact (same e1 e2).elim

/-- **C92**: when all processes have called `close`, it returns in all of them: the number of the
remaining steps is bounded, whatever the schedule and whether or not MPI buffers messages, and as long
as it has not returned everywhere, something can happen. -/
theorem C92_returns (hC : LegalMsg C) (hp : ∀ t, C.P.rankT t < procs) (h : CloseReach C procs s)
    (ha : ∀ q, q < procs → 1 ≤ s.stage q) :
    ∃ N, ∀ early n s', CloseRun C procs early n s s' → n ≤ N ∧
      ((∀ s'', ¬ CloseMsgStep C procs early s' s'') → ∀ r, r < procs → s'.stage r = 8) := by
  obtain ⟨m, hm⟩ := h.rest
  refine ⟨m + s.remain procs, fun early n s' hr => ?_⟩
  have key : CloseInv C procs s' ∧ (∀ q, q < procs → s'.stage q ≠ 0) ∧
      ∃ m', s'.ms.Rest m' ∧ n + m' + s'.remain procs ≤ m + s.remain procs := by
    induction hr with
    | zero => exact ⟨h.inv hC hp, fun q hq => Nat.ne_of_gt (ha q hq), m, hm, by omega⟩
    | more hr hs ih =>
      obtain ⟨h1, h2, m1, h3, h4⟩ := ih h ha hm
      obtain ⟨h5, m2, h6, h7⟩ := h1.less hC hp h2 hs h3
      exact ⟨h1.step hC hp hs, h5, m2, h6, by omega⟩
  obtain ⟨h1, h2, m', -, h4⟩ := key
  refine ⟨by omega, fun hend r hr' => ?_⟩
  apply Classical.byContradiction
  intro h8
  obtain ⟨s'', hs⟩ := h1.go (early := early) h2 hr' h8
  exact hend s'' hs

/-! ### Examples: two processes, see `exMsg` -/

theorem exMsg_ranks (t : Nat) : (exMsg 0).P.rankT t < 2 := by
  show t % 4 / 2 < 2
  omega

/-- Thread 2 (process 1) has loaded block 6; its getter has returned (MPI has buffered the message
that announces the block to process 0). -/
def exCloseRun : List MsgCmd :=
  [.call 2 6 0] ++ msgSteps 2 7 ++ [.take 0 1 0, .comm 0] ++ msgSteps 2 9

/-- Thread `n` and the communication thread of process `n` are idle. -/
def exCloseIdle (n : Nat) (ms : MsgSt Nat) : Bool :=
  (match ms.st.pc (.user n), ms.st.pc (.comm n) with
    | .idle, .idle => true
    | _, _ => false) && (ms.wait n).isNone

theorem exCloseIdle_all (n : Nat) : (msgRun (exMsg 0) exCloseRun).all (exCloseIdle n) = true :=
  match n with
  | 0 => by decide +kernel
  | 1 => by decide +kernel
  | 2 => by decide +kernel
  | n + 3 => by rfl

theorem exClose_state : ∃ ms, MsgReach (exMsg 0) ms ∧ (∀ t, ms.st.pc (.user t) = .idle) ∧
    (∀ r, ms.listens r) ∧ ms.wire 1 0 = [⟨3, 12, 2⟩] := by
  obtain ⟨ms, hr, hc⟩ : ∃ ms, msgRun (exMsg 0) exCloseRun = some ms ∧ ms.wire 1 0 = [⟨3, 12, 2⟩] := by
    have h : (msgRun (exMsg 0) exCloseRun).any (fun ms => decide (ms.wire 1 0 = [⟨3, 12, 2⟩])) = true := by
      decide +kernel
    cases hr : msgRun (exMsg 0) exCloseRun with
    | none => rw [hr] at h; cases h
    | some ms => rw [hr] at h; exact ⟨ms, rfl, of_decide_eq_true h⟩
  have key : ∀ n, ms.st.pc (.user n) = .idle ∧ ms.listens n := fun n => by
    have h := exCloseIdle_all n
    rw [hr] at h
    simp only [Option.all_some, exCloseIdle, Bool.and_eq_true, Option.isNone_iff_eq_none] at h
    obtain ⟨h1, h2⟩ := h
    split at h1
    · next e1 e2 => exact ⟨e1, e2, h2⟩
    · cases h1
  exact ⟨ms, msgRun_reach (fun _ _ => trivial) hr, fun t => (key t).1, fun r => (key r).2, hc⟩

/-- Process 0 is in `close`, process 1 uses the grid. -/
example : ∃ s, CloseReach (exMsg 0) 2 s ∧ s.stage 0 = 1 ∧ s.stage 1 = 0 := by
  obtain ⟨ms, h, h1, -⟩ := exClose_state
  exact ⟨_, .step (h.open_ exMsg_legal) (.call _ 0 (by decide) rfl fun t _ => h1 t), rfl, rfl⟩

/-- Thread 2 (process 1) has asked process 0 for the entry of block 6. -/
def exCloseAsk : List MsgCmd := [.call 2 6 0] ++ msgSteps 2 7

theorem exCloseAsk_idle (n : Nat) (hn : n ≠ 2) :
    (msgRun (exMsg 0) exCloseAsk).all (exCloseIdle n) = true :=
  match n with
  | 0 => by decide +kernel
  | 1 => by decide +kernel
  | 2 => absurd rfl hn
  | n + 3 => by rfl

/-- The hypotheses of `C92_served` are met: process 0 is in `close`, the request of thread 2 of process 1
is on its way, and the communication thread of process 0 answers it. -/
example : ∃ s, CloseReach (exMsg 0) 2 s ∧ s.stage 0 = 1 ∧ s.stage 1 = 0 ∧ s.ms.mail 0 1 = [] ∧
    ∃ s' m, CloseMsgStep (exMsg 0) 2 false s s' ∧ s'.ms.mail 0 1 = [m] := by
  obtain ⟨ms, hr, hc, hd⟩ : ∃ ms, msgRun (exMsg 0) exCloseAsk = some ms ∧
      ms.wire 1 0 = [⟨1, 3, 0⟩] ∧ (ms.mail 0 1).isEmpty = true := by
    have h : (msgRun (exMsg 0) exCloseAsk).any
        (fun ms => decide (ms.wire 1 0 = [⟨1, 3, 0⟩]) && (ms.mail 0 1).isEmpty) = true := by
      decide +kernel
    cases hr : msgRun (exMsg 0) exCloseAsk with
    | none => rw [hr] at h; cases h
    | some ms =>
      rw [hr] at h
      simp only [Option.any_some, Bool.and_eq_true, decide_eq_true_eq] at h
      exact ⟨ms, rfl, h⟩
  have key : ∀ n, n ≠ 2 → ms.st.pc (.user n) = .idle ∧ ms.listens n := fun n hn => by
    have h := exCloseAsk_idle n hn
    rw [hr] at h
    simp only [Option.all_some, exCloseIdle, Bool.and_eq_true, Option.isNone_iff_eq_none] at h
    obtain ⟨h1, h2⟩ := h
    split at h1
    · next e1 e2 => exact ⟨e1, e2, h2⟩
    · cases h1
  have h : MsgReach (exMsg 0) ms := msgRun_reach (fun _ _ => trivial) hr
  have c1 := Reachable.step (h.open_ (procs := 2) exMsg_legal) (.call _ 0 (by decide) rfl fun t ht =>
    (key t fun e => by subst e; cases ht).1)
  have hd' : ms.mail 0 1 = [] := List.isEmpty_iff.1 hd
  refine ⟨_, c1, rfl, rfl, hd', _, ?_, C92_served exMsg_legal exMsg_ranks c1 1 (by decide) rfl _
    (.takeInfo ms 1 0 0 _ [] (key 0 (by decide)).2.1 (key 0 (by decide)).2.2 hc rfl) (fun _ _ => rfl), ?_⟩
  show upd ms.mail 0 (upd (ms.mail 0) 1 (ms.mail 0 1 ++ _)) 0 1 = _
  rw [upd_self, upd_self, hd']
  rfl

/-- Both processes have called `close`; process 0 has removed its receivers before the message of
process 1 arrived. -/
theorem exClose_late : ∃ s, CloseReach (exMsg 0) 2 s ∧ s.stage 0 = 7 ∧ s.stage 1 = 1 ∧
    (∀ r, s.ms.listens r) ∧ s.ms.wire 1 0 = [⟨3, 12, 2⟩] := by
  obtain ⟨ms, h, h1, h2, h3⟩ := exClose_state
  have c1 := Reachable.step (h.open_ (procs := 2) exMsg_legal)
    (.call _ 0 (by decide) rfl fun t _ => h1 t)
  have c2 := Reachable.step c1 (.call _ 1 (by decide) rfl fun t _ => h1 t)
  have c3 := Reachable.step c2 (.pass _ 0 rfl fun q hq => by
    have : q = 0 ∨ q = 1 := by omega
    rcases this with rfl | rfl <;> exact Nat.le_refl 1)
  have c4 := Reachable.step c3 (.freeList _ 0 rfl)
  have c5 := Reachable.step c4 (.unregister _ 0 0 (by decide) rfl (h2 0))
  have c6 := Reachable.step c5 (.unregister _ 0 1 (by decide) rfl (h2 0))
  have c7 := Reachable.step c6 (.unregister _ 0 2 (by decide) rfl (h2 0))
  have c8 := Reachable.step c7 (.unregister _ 0 3 (by decide) rfl (h2 0))
  exact ⟨_, c8, rfl, rfl, h2, h3⟩

/-- The hypotheses of `C92_after_barrier`, `C92_outside` and `C92_returns` are met. -/
example : ∃ s, CloseReach (exMsg 0) 2 s ∧ 7 ≤ s.stage 0 ∧ ∀ q, q < 2 → 1 ≤ s.stage q := by
  obtain ⟨s, h, h0, h1, -⟩ := exClose_late
  refine ⟨s, h, by omega, fun q hq => ?_⟩
  have : q = 0 ∨ q = 1 := by omega
  rcases this with rfl | rfl <;> omega

/-- The second case of `C92_message`: the late message is ignored. -/
example : ∃ s s' m, CloseReach (exMsg 0) 2 s ∧ CloseMsgStep (exMsg 0) 2 false s s' ∧ Takes s s' 1 0 m ∧
    ¬ (exMsg 0).registered (s.stage 0) m.tag := by
  obtain ⟨s, h, h0, h1, h2, h3⟩ := exClose_late
  have hn : ¬ (exMsg 0).registered (s.stage 0) 3 := fun hr => absurd (registered_lt hr) (by omega)
  exact ⟨s, _, _, h, .drop s 1 0 _ [] (h2 0) h3 hn, ⟨[], h3, upd_self (s.ms.wire 1) 0 []⟩, hn⟩

end Asagi.Props
