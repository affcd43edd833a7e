import Verif.Proofs.OpenSyncEnd
import Verif.Props.OpenSync
import Verif.Spec.RegTables
/-
C101: the tables threads register in are complete before they are read without a lock.
-/
namespace Asagi.Props
open Asagi.Spec

variable {P : OpenParams} {ob : Nat → Nat → Nat}

/-- The tables do not change after the flag is set. -/
theorem tables_frozen (hT : 0 < P.total) (hn : P.n ≤ P.total) {s s' : OSState} (h : OSReach P ob s)
    (hs : OSStep P ob s s') (hi : s.initialised = true) :
    s'.numa = s.numa ∧ s'.initialised = true ∧ s'.reg = s.reg := by
  obtain ⟨a, hr, hsame, hI⟩ := h.ok hT hn
  rw [same_abs hsame] at hr
  cases hs <;> try exact ⟨rfl, hi, rfl⟩
  case regArrive t th' ht hp ha hx =>
    obtain ⟨r, r1, -⟩ := os_ready (.inr hn) hr hi ht
    have h1 := (hI.regPc t hp).2.1.1 (by rw [r1]; rfl)
    exfalso
    revert ha h1
    unfold SyncState.arrives SyncPc.inside
    cases s.th.pc t <;> simp

/-- **C101**: a step that changes the tables or the flag is a step of a thread that registers, no thread has left the
registration yet, and a step that sets the flag is made when all other threads are in the barrier. So no thread reads
the tables, and no other thread reads the flag, at the time it is written: earlier reads come before the reader has
locked the mutex of the barrier, later reads after it has locked it again. -/
theorem C101_writes (P : OpenParams) (ob : Nat → Nat → Nat) (hT : 0 < P.total) (hn : P.n ≤ P.total) (s s' : OSState)
    (h : OSReach P ob s) (hs : OSStep P ob s s') :
    (s'.numa ≠ s.numa ∨ s'.initialised ≠ s.initialised →
      s.initialised = false ∧ ∀ x < P.n, ¬ UsesTables s x) ∧
    (s'.initialised ≠ s.initialised → ∃ t < P.n, s.pc t = .reg ∧ ¬ InRegBarrier s t ∧
      ∀ x < P.n, x ≠ t → InRegBarrier s x ∧ ¬ MayReadFlag P s x) := by
  obtain ⟨a, hr, hsame, hI⟩ := h.ok hT hn
  rw [same_abs hsame] at hr
  have key : s'.numa ≠ s.numa ∨ s'.initialised ≠ s.initialised → s.initialised = false := by
    intro hc
    by_contra hi
    have hi : s.initialised = true := by simpa using hi
    obtain ⟨h1, h2, -⟩ := tables_frozen hT hn h hs hi
    rcases hc with hc | hc
    · exact hc h1
    · exact hc (by rw [h2, hi])
  refine ⟨fun hc => ⟨key hc, fun x hx hu => ?_⟩, fun hc => ?_⟩
  · have hi := key hc
    have hcall : s.call x = 0 := ((hr.inv (.inr hn)).early x hi).1
    have hl := fun hh => os_late (.inr hn) hr (t := x) hh
    rw [hi] at hl
    rcases hu with hu | hu | hu
    · exact absurd (hl (.inl hu)) (by simp)
    · exact absurd (hl (.inr hu)) (by simp)
    · omega
  · have hi := key (.inr hc)
    have h' : OSReach P ob s' := .step h hs
    obtain ⟨a', hr', hsame', -⟩ := h'.ok hT hn
    rw [same_abs hsame'] at hr'
    have hi' : s'.initialised = true := by
      cases h0 : s'.initialised with
      | true => rfl
      | false => exact absurd (h0.trans hi.symm) hc
    have hreg := fun x hx => os_ready (t := x) (.inr hn) hr' hi' hx
    cases hs <;> try exact absurd rfl hc
    case regArrive t th' ht hp ha hx =>
      refine ⟨t, ht, hp, ?_, ?_⟩
      · rintro ⟨-, h2⟩
        revert ha h2
        unfold SyncState.arrives SyncPc.inside
        cases s.th.pc t <;> simp
      · intro x hxn hne
        obtain ⟨r, r1, -⟩ := hreg x hxn
        simp only [upd_ne _ _ hne] at r1
        have hearly := (hr.inv (.inr hn)).early x hi
        have hpx : (s.abs P ob a.waiting a.cnt a.fin a.data).pc x = .waitReg := by
          rcases hearly.2 with ⟨-, h2⟩ | ⟨-, h2⟩ | h2
          · exact absurd (h2.symm.trans r1) (by simp)
          · exact absurd (h2.symm.trans r1) (by simp)
          · exact h2
        have hpx : arrivedPc P ob s x = .waitReg := hpx
        unfold arrivedPc at hpx
        rcases hq : s.pc x with _ | _ | i | e | _ <;> rw [hq] at hpx <;> simp only at hpx <;>
          try (split at hpx <;> cases hpx; done)
        · cases hpx
        · split at hpx
          · rename_i hin
            exact ⟨⟨hq, hin⟩, fun hm => by rw [hm.1] at hq; cases hq⟩
          · cases hpx
        · cases hpx

/-- **C101**: once a thread uses the tables, or finds the flag set, all threads have registered, there are as many
domains as the threads run on, and no later step of any thread changes anything. -/
theorem C101_complete (P : OpenParams) (ob : Nat → Nat → Nat) (hT : 0 < P.total) (hn : P.n ≤ P.total) (s : OSState)
    (h : OSReach P ob s) (hu : s.initialised = true ∨ ∃ x < P.n, UsesTables s x) :
    (∀ x < P.n, (s.reg x).isSome) ∧ s.numa.domains.length = domainCount P ∧
    ∀ s', OSStep P ob s s' → s'.numa = s.numa ∧ s'.initialised = s.initialised ∧ s'.reg = s.reg := by
  obtain ⟨a, hr, hsame, hI⟩ := h.ok hT hn
  rw [same_abs hsame] at hr
  have hi : s.initialised = true := by
    rcases hu with hu | ⟨x, -, hu | hu | hu⟩
    · exact hu
    · exact os_late (.inr hn) hr (.inl hu)
    · exact os_late (.inr hn) hr (.inr hu)
    · by_contra hc
      have hc : s.initialised = false := by simpa using hc
      have : s.call x = 0 := ((hr.inv (.inr hn)).early x hc).1
      omega
  obtain ⟨h1, -, h3⟩ := (hr.inv (.inr hn)).ready (.inr hn) hi
  refine ⟨fun x hx => ?_, h3, fun s' hs => ?_⟩
  · obtain ⟨r, r1, -⟩ := h1 x hx
    have r1 : s.reg x = some r := r1
    rw [r1]; rfl
  · obtain ⟨e1, e2, e3⟩ := tables_frozen hT hn h hs hi
    exact ⟨e1, by rw [e2, hi], e3⟩

/-- If one thread more than announced calls `open`, the flag is written while that thread may read it, without any
order between the two. -/
theorem C101_extra_thread_violated (P : OpenParams) (ob : Nat → Nat → Nat) (ht : P.total = 1) (hn : P.n = 2)
    (hc : 0 < P.calls) (hcpu : P.noCpu 0 = false) :
    ∃ s s', OSReach P ob s ∧ OSStep P ob s s' ∧ s'.initialised ≠ s.initialised ∧ s.pc 0 = .reg ∧
      s'.pc 1 = s.pc 1 ∧ MayReadFlag P s 1 := by
  have h0 : OSReach P ob OSState.fresh := .init rfl
  have h1 := Reachable.step h0 (.check _ 0 (by omega) rfl hc rfl hcpu)
  refine ⟨_, _, h1, .regArrive _ 0 _ (by omega) rfl rfl rfl, ?_, rfl, ?_, ?_, hc⟩
  · simp [OSState.fresh, ht, SyncState.start]
  · rfl
  · rfl

/-- With spurious wake-ups (C23) a thread can leave the registration and use the tables before the others have
registered, so that they are changed while it uses them; and two threads get the number 0. -/
theorem C101_spurious_violated (P : OpenParams) (ob : Nat → Nat → Nat) (ht : P.total = 2) (hn : P.n = 2)
    (hc : 0 < P.calls) (h0 : P.noCpu 0 = false) (h1 : P.noCpu 1 = false) (hd : P.detect = true)
    (hne : P.node 1 ≠ P.node 0) :
    ∃ s s', OSReachSpurious P ob s ∧ OSStep P ob s s' ∧ UsesTables s 0 ∧ s'.numa ≠ s.numa ∧ s'.pc 0 = s.pc 0 ∧
      (s'.reg 0).map (·.thread) = some 0 ∧ (s'.reg 1).map (·.thread) = some 0 := by
  have r0 : OSReachSpurious P ob OSState.fresh := .init rfl
  have r1 := Reachable.step r0 (.step _ _ (.check _ 0 (by omega) rfl hc rfl h0))
  have hx : SyncState.start.next (OSState.fresh.thParams P) 0 = some
      { SyncState.start (α := Nat × Nat) with synced := 1, pc := upd (fun _ => .idle) 0 .waitCond } := by
    simp [SyncState.next, SyncState.start, SyncState.arrive, SyncParams.isRoot, OSState.thParams, ht]
  have r2 := Reachable.step r1 (.step _ _ (.regArrive _ 0 _ (by omega) rfl rfl hx))
  have r3 := Reachable.step r2 (.wakeCond _ 0 (by omega) rfl)
  have r4 := Reachable.step r3 (.step _ _ (.regPass _ 0 _ _ (by omega) rfl rfl rfl rfl))
  have r5 := Reachable.step r4 (.step _ _ (.check _ 1 (by omega) rfl hc (by simp [OSState.fresh, SyncState.start, ht]) h1))
  refine ⟨_, _, r5, .regArrive _ 1 _ (by omega) rfl rfl rfl, ?_, ?_, ?_, ?_, ?_⟩
  · exact .inl ⟨0, by simp [upd_apply, SyncState.leave, SyncState.afterCond, SyncState.start, OSState.fresh,
      SyncParams.isRoot, OSState.thParams, registerThread, OSPc.afterReg]⟩
  · simp [registerThread, OSState.fresh, SyncState.start, hd, Ne.symm hne]
  · rfl
  · rfl
  · have e : ∀ st w n d, (registerThread st w n d).2.thread = w := by
      intro st w n d
      unfold registerThread
      dsimp only
      split <;> rfl
    show some (registerThread _ _ _ _).2.thread = some 0
    rw [e]
    rfl

/-! ### Concrete cases -/

/-- Two threads: thread 0 is in the barrier when thread 1, the last one, sets the flag; both change the tables. -/
example : ∃ s s', OSReach twoDomainOpen (fun _ _ => 0) s ∧ OSStep twoDomainOpen (fun _ _ => 0) s s' ∧
    s'.initialised ≠ s.initialised ∧ s'.numa ≠ s.numa ∧ s.numa ≠ OSState.fresh.numa ∧ InRegBarrier s 0 ∧
    UsesTables s' 1 ∧ s'.numa.domains.length = 2 := by
  have h1 : OSReach twoDomainOpen (fun _ _ => 0) _ :=
    .step (.init rfl) (.check _ 0 (by decide) rfl (by decide) rfl rfl)
  have h2 := Reachable.step h1 (.regArrive _ 0 _ (by decide) rfl rfl rfl)
  have h3 := Reachable.step h2 (.check _ 1 (by decide) rfl (by decide) rfl rfl)
  exact ⟨_, _, h3, .regArrive _ 1 _ (by decide) rfl rfl rfl, by decide, by decide, by decide, ⟨rfl, rfl⟩,
    .inl ⟨0, rfl⟩, rfl⟩

/-- A spurious wake-up: the hypotheses of `C101_spurious_violated` are met. -/
example : ∃ s s', OSReachSpurious twoDomainOpen (fun _ _ => 0) s ∧ OSStep twoDomainOpen (fun _ _ => 0) s s' ∧
    UsesTables s 0 ∧ s'.numa ≠ s.numa ∧ s'.pc 0 = s.pc 0 ∧ (s'.reg 0).map (·.thread) = some 0 ∧
    (s'.reg 1).map (·.thread) = some 0 :=
  C101_spurious_violated _ _ rfl rfl (by decide) rfl rfl rfl (by decide)

/-- The race of `C101_extra_thread_violated` occurs. -/
example : ∃ s s', OSReach { twoDomainOpen with total := 1 } (fun _ _ => 0) s ∧
    OSStep { twoDomainOpen with total := 1 } (fun _ _ => 0) s s' ∧ s'.initialised ≠ s.initialised ∧
    s.pc 0 = .reg ∧ s'.pc 1 = s.pc 1 ∧ MayReadFlag { twoDomainOpen with total := 1 } s 1 :=
  C101_extra_thread_violated _ _ rfl rfl (by decide) rfl

end Asagi.Props
