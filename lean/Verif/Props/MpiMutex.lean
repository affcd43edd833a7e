import Verif.Proofs.MpiMutex
import Verif.Spec.FifoLock
/-
Properties of the distributed lock: C36 and C58.
-/
namespace Asagi.Props
open Asagi

/-- The thread owns lock `l`: from the moment it got the lock until it has passed it on. -/
def HoldsLock (s : MtxState) (t : Thr) (l : Nat) : Prop :=
  s.pc t = .reProc l ∨ s.pc t = .reWin l ∨ s.pc t = .update l ∨ s.pc t = .held l ∨
  s.pc t = .relProc l ∨ s.pc t = .relWin l ∨ s.pc t = .cas l ∨ s.pc t = .recv l

/-- The thread has asked for lock `l` when it was taken and waits. -/
def WaitsLock (s : MtxState) (t : Thr) (l : Nat) : Prop :=
  (∃ old, s.pc t = .swapped l old) ∨ (∃ dest tag, s.pc t = .sending l dest tag)

theorem holds_iff (s : MtxState) (t : Thr) (l : Nat) : HoldsLock s t l ↔ (s.pc t).owns = some l := by
  unfold HoldsLock
  cases h : s.pc t <;> simp [MtxPc.owns]

theorem waits_iff (s : MtxState) (t : Thr) (l : Nat) : WaitsLock s t l ↔ (s.pc t).waits = some l := by
  unfold WaitsLock
  cases h : s.pc t <;> simp [MtxPc.waits]

/-- **C36**, exclusion: at most one thread of all processes owns a lock. -/
theorem C36_exclusive (P : MtxParams) (s : MtxState) (h : MtxReach P false s) (l : Nat) (t u : Thr)
    (ht : HoldsLock s t l) (hu : HoldsLock s u l) : t = u := by
  obtain ⟨Q, hI⟩ := MtxInv.reachable h
  have h1 := (hI.head l t).2 ((holds_iff s t l).1 ht)
  have h2 := (hI.head l u).2 ((holds_iff s u l).1 hu)
  rw [h1] at h2; exact Option.some.inj h2

/-- **C36**, no waiter is lost: the lock behaves like the fair lock of `Spec.FifoStep`. There is a
queue for each lock such that in every execution the owner is the first of the queue, exactly the
waiting threads are behind it, and every step leaves the queues unchanged or is a step of the fair
lock (so a waiting thread only moves forward). -/
theorem C36_fifo (P : MtxParams) :
    ∃ R : MtxState → (Nat → List Thr) → Prop,
      R .start (fun _ => []) ∧
      (∀ s s' Q, R s Q → MtxStep P false s s' → ∃ Q', R s' Q' ∧ (Q' = Q ∨ Spec.FifoStep Q Q')) ∧
      (∀ s Q, R s Q → ∀ l, (Q l).Nodup ∧
        (∀ t, HoldsLock s t l ↔ (Q l).head? = some t) ∧
        (∀ t, WaitsLock s t l ↔ t ∈ (Q l).tail)) := by
  refine ⟨fun s Q => MtxInv P Q s, .start P, ?_, ?_⟩
  · intro s s' Q hI hs
    obtain ⟨Q', hq, hI'⟩ := hI.step hs
    refine ⟨Q', hI', ?_⟩
    rcases hq with hq | ⟨l, t, h1, h2⟩ | ⟨l, t, r, h1, h2⟩
    · exact .inl hq
    · right
      have := Spec.FifoStep.join Q l t h1
      rw [h2]; exact this
    · right
      have := Spec.FifoStep.leave Q l t r h1
      rw [h2]; exact this
  · intro s Q hI l
    refine ⟨hI.nodup l, fun t => (holds_iff s t l).trans (hI.head l t).symm, fun t => ?_⟩
    rw [waits_iff]
    have hmem := hI.mem_iff l t
    have hhead := hI.head l t
    have hnd := hI.nodup l
    cases hq : Q l with
    | nil =>
      rw [hq] at hmem hhead
      constructor
      · intro hw; exact absurd (hmem.2 (.inr hw)) (by simp)
      · intro hw; cases hw
    | cons a r =>
      rw [hq] at hmem hhead hnd
      simp only [List.head?_cons, Option.some.injEq] at hhead
      simp only [List.tail_cons]
      constructor
      · intro hw
        have hin := hmem.2 (.inr hw)
        rcases List.mem_cons.1 hin with e | e
        · exact (MtxPc.owns_waits (hhead.1 e.symm) hw).elim
        · exact e
      · intro hin
        rcases hmem.1 (List.mem_cons_of_mem _ hin) with e | e
        · have := hhead.2 e
          subst this
          exact absurd hin (List.nodup_cons.1 hnd).1
        · exact e

/-- **C36**, a release does not block: a thread that waits in the release for its successor always
has a successor that is ready to take over at once, and only this thread can take over. -/
theorem C36_release (P : MtxParams) (s : MtxState) (h : MtxReach P false s) (t : Thr) (l : Nat)
    (ht : s.pc t = .recv l) :
    ∃ u, WaitsLock s u l ∧
      (∃ s', MtxStep P false s s' ∧ s'.pc t = .released l ∧ HoldsLock s' u l) ∧
      ∀ s' v, MtxStep P false s s' → HoldsLock s' v l → v ≠ t → v = u := by
  obtain ⟨Q, hI⟩ := MtxInv.reachable h
  obtain ⟨rest, hq⟩ := hI.cons_of_owns (t := t) (l := l) (by rw [ht]; rfl)
  have hlen := hI.recv l t ht
  cases rest with
  | nil => rw [hq] at hlen; simp at hlen
  | cons u r =>
    have huq : u ∈ Q l := by rw [hq]; simp
    have hnd := hI.nodup l
    rw [hq] at hnd
    have htu : t ≠ u := fun e => (List.nodup_cons.1 hnd).1 (by rw [e]; simp)
    have hw : (s.pc u).waits = some l := by
      rcases (hI.mem_iff l u).1 huq with e | e
      · have := (hI.head l u).2 e
        rw [hq] at this; exact absurd (Option.some.inj this) htu
      · exact e
    have hb := hI.chain l 0 t u (by rw [hq]; rfl) (by rw [hq]; rfl)
    have hwt := hI.wf t (by rw [ht]; simp)
    -- the successor has unlocked the window, because `t` has it
    have hwin := (hI.win (P.home l) t).2 ⟨l, by rw [ht]; rfl, rfl⟩
    cases hpu : s.pc u with
    | swapped l' old =>
      rw [hpu] at hw
      have : l' = l := Option.some.inj hw
      subst this
      have := (hI.win (P.home l') u).2 ⟨l', by rw [hpu]; rfl, rfl⟩
      rw [hwin] at this; exact absurd (Option.some.inj this) htu
    | sending l' dest tag =>
      rw [hpu] at hw hb
      have : l' = l := Option.some.inj hw
      subst this
      obtain ⟨hb1, hb2⟩ := hb
      rw [lockId_div hwt] at hb1
      rw [lockId_mod hwt] at hb2
      have hstep := MtxStep.handOver (P := P) (lateInit := false) s t u l' l' dest tag ht hpu hb1 hb2
      refine ⟨u, .inr ⟨dest, tag, hpu⟩, ⟨_, hstep, ?_, ?_⟩, ?_⟩
      · exact (upd_ne _ _ htu).trans (upd_self _ _ _)
      · rw [holds_iff]
        show MtxPc.owns (upd _ u (if P.lib then .reWin l' else .reProc l') u) = _
        rw [upd_self]; split <;> rfl
      · intro s' v hs hv hvt
        obtain ⟨Q', hQ', hI'⟩ := hI.step hs
        have hv := (hI'.head l' v).2 ((holds_iff s' v l').1 hv)
        rcases hQ' with e | ⟨k, x, _, e⟩ | ⟨k, x, rr, e1, e⟩
        · rw [e, hq] at hv; exact absurd (Option.some.inj hv).symm hvt
        · rw [e] at hv
          by_cases hk : l' = k
          · subst hk; rw [upd_self, hq] at hv; exact absurd (Option.some.inj hv).symm hvt
          · rw [upd_ne _ _ hk, hq] at hv; exact absurd (Option.some.inj hv).symm hvt
        · rw [e] at hv
          by_cases hk : l' = k
          · subst hk
            rw [upd_self] at hv
            rw [hq] at e1
            injection e1 with _ e2
            rw [← e2] at hv; exact (Option.some.inj hv).symm
          · rw [upd_ne _ _ hk, hq] at hv; exact absurd (Option.some.inj hv).symm hvt
    | idle | wantProc | wantWin | swap | reProc | reWin | update | held | relProc | relWin | cas | recv
    | released => rw [hpu] at hw; cases hw

/-- Some thread that is not outside the functions can make a step. -/
def SomeStep (P : MtxParams) (s : MtxState) : Prop :=
  ∃ t s', s.pc t ≠ .idle ∧ MtxStep P false s s' ∧ s'.pc t ≠ s.pc t

/-- **C36**, no deadlock: whenever a thread is inside the functions or holds a lock, some such thread
can continue. -/
theorem C36_progress (P : MtxParams) (s : MtxState) (h : MtxReach P false s) (t : Thr)
    (ht : s.pc t ≠ .idle) : SomeStep P s := by
  obtain ⟨Q, hI⟩ := MtxInv.reachable h
  have mk : ∀ (t : Thr) (s' : MtxState) (p : MtxPc), MtxStep P false s s' → s'.pc = upd s.pc t p →
      s.pc t ≠ .idle → p ≠ s.pc t → SomeStep P s := by
    intro t s' p hs e hne hp
    exact ⟨t, s', hne, hs, by rw [e, upd_self]; exact hp⟩
  -- a thread with the window can continue
  have hasWin : ∀ v l, (s.pc v).hasWin = some l → SomeStep P s := by
    intro v l hv
    cases hp : s.pc v with
    | swap l =>
      by_cases hm : s.mem l < 0
      · exact mk v _ _ (.acquire s v l hp hm) rfl (by rw [hp]; simp) (by rw [hp]; simp)
      · exact mk v _ _ (.enqueue s v l hp (by omega)) rfl (by rw [hp]; simp) (by rw [hp]; simp)
    | swapped l old => exact mk v _ _ (.wait s v l old hp) rfl (by rw [hp]; simp) (by rw [hp]; simp)
    | update l => exact mk v _ _ (.hold s v l hp) rfl (by rw [hp]; simp) (by rw [hp]; simp)
    | cas l =>
      by_cases hm : s.mem l = P.lockId v
      · exact mk v _ _ (.free s v l hp hm) rfl (by rw [hp]; simp) (by rw [hp]; simp)
      · exact mk v _ _ (.contended s v l hp hm) rfl (by rw [hp]; simp) (by rw [hp]; simp)
    | recv l =>
      obtain ⟨_, _, ⟨s', hs, hr, _⟩, _⟩ := C36_release P s h v l hp
      exact ⟨v, s', by rw [hp]; simp, hs, by rw [hr, hp]; simp⟩
    | released l => exact mk v _ _ (.leave s v l hp) rfl (by rw [hp]; simp) (by rw [hp]; simp)
    | idle | wantProc | wantWin | sending | reProc | reWin | held | relProc | relWin =>
      rw [hp] at hv; cases hv
  -- a thread that waits for the window
  have window : ∀ v l, s.pc v = .wantWin l ∨ s.pc v = .reWin l ∨ s.pc v = .relWin l → SomeStep P s := by
    intro v l hv
    cases hw : s.win (P.home l) with
    | some x => obtain ⟨l', h1, _⟩ := (hI.win _ x).1 hw; exact hasWin x l' h1
    | none =>
      rcases hv with hp | hp | hp
      · exact mk v _ _ (.win s v l hp hw) rfl (by rw [hp]; simp) (by rw [hp]; simp)
      · exact mk v _ _ (.reWin s v l hp hw) rfl (by rw [hp]; simp) (by rw [hp]; simp)
      · exact mk v _ _ (.relWin s v l hp hw) rfl (by rw [hp]; simp) (by rw [hp]; simp)
  -- an owner, given that a thread with the process mutex leads to a step
  have owner' : ∀ v l, (s.pc v).owns = some l → (s.pc v).nonLib = false → SomeStep P s := by
    intro v l hv hn
    cases hp : s.pc v with
    | reWin l => exact window v l (.inr (.inl hp))
    | relWin l => exact window v l (.inr (.inr hp))
    | update l => exact hasWin v l (by rw [hp]; rfl)
    | cas l => exact hasWin v l (by rw [hp]; rfl)
    | recv l => exact hasWin v l (by rw [hp]; rfl)
    | held l =>
      refine mk v _ _ (.endCall s v l hp) rfl (by rw [hp]; simp) ?_
      rw [hp]; split <;> simp
    | reProc l | relProc l => rw [hp] at hn; cases hn
    | idle | wantProc | wantWin | swap | swapped | sending | released => rw [hp] at hv; cases hv
  -- a thread with the mutex of the process, other than a waiting one
  have hasProc : ∀ v, (s.pc v).hasProc P.lib = true → (∀ l d g, s.pc v ≠ .sending l d g) →
      SomeStep P s := by
    intro v hv hns
    cases hp : s.pc v with
    | wantWin l => exact window v l (.inl hp)
    | reWin l => exact window v l (.inr (.inl hp))
    | relWin l => exact window v l (.inr (.inr hp))
    | swap l => exact hasWin v l (by rw [hp]; rfl)
    | swapped l old => exact hasWin v l (by rw [hp]; rfl)
    | update l => exact hasWin v l (by rw [hp]; rfl)
    | cas l => exact hasWin v l (by rw [hp]; rfl)
    | recv l => exact hasWin v l (by rw [hp]; rfl)
    | released l => exact hasWin v l (by rw [hp]; rfl)
    | held l => exact owner' v l (by rw [hp]; rfl) (by rw [hp]; rfl)
    | sending l d g => exact absurd hp (hns l d g)
    | idle | wantProc | reProc | relProc => rw [hp] at hv; cases hv
  have owner : ∀ v l, (s.pc v).owns = some l → SomeStep P s := by
    intro v l hv
    cases hn : (s.pc v).nonLib with
    | false => exact owner' v l hv hn
    | true =>
      have hl : P.lib = false := by
        cases hl : P.lib with
        | false => rfl
        | true => have := hI.lib v hl; rw [hn] at this; cases this
      cases hw : s.proc v.rank with
      | some x =>
        have hx := ((hI.proc _ x).1 hw).1
        refine hasProc x hx ?_
        intro l d g e; rw [e, hl] at hx; cases hx
      | none =>
        cases hp : s.pc v with
        | reProc l => exact mk v _ _ (.reProc s v l hp hw) rfl (by rw [hp]; simp) (by rw [hp]; simp)
        | relProc l => exact mk v _ _ (.relProc s v l hp hw) rfl (by rw [hp]; simp) (by rw [hp]; simp)
        | idle | wantProc | wantWin | swap | swapped | sending | reWin | update | held | relWin | cas | recv
        | released => rw [hp] at hn; cases hn
  have waiter : ∀ v l, (s.pc v).waits = some l → SomeStep P s := by
    intro v l hv
    have hin := (hI.mem_iff l v).2 (.inr hv)
    cases hq : Q l with
    | nil => rw [hq] at hin; cases hin
    | cons a r => exact owner a l ((hI.head l a).1 (by rw [hq]; rfl))
  cases hp : s.pc t with
  | idle => exact absurd hp ht
  | wantProc l =>
    cases hw : s.proc t.rank with
    | none => exact mk t _ _ (.proc s t l hp hw) rfl (by rw [hp]; simp) (by rw [hp]; simp)
    | some x =>
      have hx := ((hI.proc _ x).1 hw).1
      cases hpx : s.pc x with
      | sending l d g => exact waiter x l (by rw [hpx]; rfl)
      | _ => exact hasProc x hx (by intro l d g; rw [hpx]; simp)
  | wantWin l => exact window t l (.inl hp)
  | swap l => exact hasWin t l (by rw [hp]; rfl)
  | swapped l old => exact hasWin t l (by rw [hp]; rfl)
  | sending l d g => exact waiter t l (by rw [hp]; rfl)
  | released l => exact hasWin t l (by rw [hp]; rfl)
  | reProc l | reWin l | update l | held l | relProc l | relWin l | cas l | recv l =>
    exact owner t l (by rw [hp]; rfl)

/-- Place of a thread in the functions. -/
def mtxPlace : MtxPc → Nat
  | .wantProc _ => 0 | .wantWin _ => 1 | .swap _ => 2 | .swapped _ _ => 3 | .sending _ _ _ => 4
  | .reProc _ => 5 | .reWin _ => 6 | .update _ => 7 | .held _ => 8 | .relProc _ => 9 | .relWin _ => 10
  | .cas _ => 11 | .recv _ => 12 | .released _ => 13 | .idle => 14

/-- **C36**, termination: every step (except the beginning of a new call, and the initialisation)
moves a thread forward and none back, and there are only 15 places. Together with `C36_progress`:
if every owner finally releases its locks and no new calls begin, all calls end. -/
theorem C36_advance (P : MtxParams) (s s' : MtxState) (h : MtxStep P false s s') :
    s'.pc = s.pc ∨ (∃ t l, s.pc t = .idle ∧ s'.pc = upd s.pc t (.wantProc l)) ∨
    ((∀ t, mtxPlace (s.pc t) ≤ mtxPlace (s'.pc t)) ∧ ∃ t, mtxPlace (s.pc t) < mtxPlace (s'.pc t)) := by
  have one : ∀ (t : Thr) (p : MtxPc), mtxPlace (s.pc t) < mtxPlace p →
      (∀ u, mtxPlace (s.pc u) ≤ mtxPlace (upd s.pc t p u)) ∧
        ∃ u, mtxPlace (s.pc u) < mtxPlace (upd s.pc t p u) := by
    intro t p hlt
    refine ⟨fun u => ?_, t, by rw [upd_self]; exact hlt⟩
    by_cases hu : u = t
    · subst hu; rw [upd_self]; omega
    · rw [upd_ne _ _ hu]; exact Nat.le_refl _
  cases h with
  | call t l _ hpc => exact .inr (.inl ⟨t, l, hpc, rfl⟩)
  | init l hm => exact .inl rfl
  | handOver t u l l' dest tag ht hu =>
    right; right
    have htu : t ≠ u := by intro e; subst e; rw [ht] at hu; cases hu
    refine ⟨fun v => ?_, t, ?_⟩
    · show _ ≤ mtxPlace (upd (upd s.pc t _) u _ v)
      by_cases hvu : v = u
      · subst hvu; rw [upd_self, hu]; split <;> simp [mtxPlace]
      · rw [upd_ne _ _ hvu]
        by_cases hvt : v = t
        · subst hvt; rw [upd_self, ht]; simp [mtxPlace]
        · rw [upd_ne _ _ hvt]; exact Nat.le_refl _
    · show _ < mtxPlace (upd (upd s.pc t _) u _ t)
      rw [upd_ne _ _ htu, upd_self, ht]; simp [mtxPlace]
  | proc t l hpc => exact .inr (.inr (one t _ (by rw [hpc]; simp [mtxPlace])))
  | win t l hpc => exact .inr (.inr (one t _ (by rw [hpc]; simp [mtxPlace])))
  | acquire t l hpc => exact .inr (.inr (one t _ (by rw [hpc]; simp [mtxPlace])))
  | enqueue t l hpc => exact .inr (.inr (one t _ (by rw [hpc]; simp [mtxPlace])))
  | wait t l old hpc => exact .inr (.inr (one t _ (by rw [hpc]; simp [mtxPlace])))
  | reProc t l hpc => exact .inr (.inr (one t _ (by rw [hpc]; simp [mtxPlace])))
  | reWin t l hpc => exact .inr (.inr (one t _ (by rw [hpc]; simp [mtxPlace])))
  | hold t l hpc => exact .inr (.inr (one t _ (by rw [hpc]; simp [mtxPlace])))
  | delete t l hpc => exact .inr (.inr (one t _ (by rw [hpc]; simp [mtxPlace])))
  | endCall t l hpc => exact .inr (.inr (one t _ (by rw [hpc]; split <;> simp [mtxPlace])))
  | relProc t l hpc => exact .inr (.inr (one t _ (by rw [hpc]; simp [mtxPlace])))
  | relWin t l hpc => exact .inr (.inr (one t _ (by rw [hpc]; simp [mtxPlace])))
  | free t l hpc => exact .inr (.inr (one t _ (by rw [hpc]; simp [mtxPlace])))
  | contended t l hpc => exact .inr (.inr (one t _ (by rw [hpc]; simp [mtxPlace])))
  | leave t l hpc => exact .inr (.inr (one t _ (by rw [hpc]; simp [mtxPlace])))

/-! ### An execution: two processes use one lock -/

/-- Two threads per process; lock 0 is stored by process 1; THREADSAFE_MPI. -/
def twoProcesses : MtxParams := { total := 2, tagOffset := 7, home := fun _ => 1, lib := true }

/-- Thread 1 of process 0. -/
def thrA : Thr := ⟨0, 1⟩
/-- Thread 0 of process 1. -/
def thrB : Thr := ⟨1, 0⟩

theorem reach_tail {P : MtxParams} {b : Bool} {s s' : MtxState} (h : MtxReach P b s)
    (hs : MtxStep P b s s') : MtxReach P b s' := Reachable.step h hs

theorem mtx_acquire {P : MtxParams} {b : Bool} {s : MtxState} (h : MtxReach P b s) (t : Thr) (l : Nat)
    (ht : t.tid < P.total) (hidle : s.pc t = .idle) (hproc : s.proc t.rank = none)
    (hwin : s.win (P.home l) = none) (hl : P.lib = true) :
    ∃ s', MtxReach P b s' ∧ s'.mem = upd s.mem l (P.lockId t) ∧ s'.proc = upd s.proc t.rank (some t) ∧
      s'.win = s.win ∧ s'.pc = upd s.pc t (if s.mem l < 0 then .held l else
        .sending l (s.mem l / P.total) (P.tagOffset + s.mem l % P.total)) := by
  have uu : ∀ {β : Type} (f : Thr → β) (x y : β), upd (upd f t x) t y = upd f t y := by
    intro β f x y; funext k; simp only [upd]; split <;> rfl
  have uw : upd (upd s.win (P.home l) (some t)) (P.home l) none = s.win := by
    funext k; simp only [upd]; split
    · next e => rw [e, hwin]
    · rfl
  have h1 := reach_tail h (.call s t l ht hidle)
  have h2 := reach_tail h1 (.proc _ t l (upd_self _ _ _) hproc)
  have h3 := reach_tail h2 (.win _ t l (upd_self _ _ _) hwin)
  by_cases hm : s.mem l < 0
  · have h4 := reach_tail h3 (.acquire _ t l (upd_self _ _ _) hm)
    have h5 := reach_tail h4 (.hold _ t l (upd_self _ _ _))
    refine ⟨_, h5, rfl, ?_, ?_, ?_⟩
    · simp [hl]
    · exact uw
    · simp [uu, hm]
  · have h4 := reach_tail h3 (.enqueue _ t l (upd_self _ _ _) (by simpa using hm))
    have h5 := reach_tail h4 (.wait _ t l _ (upd_self _ _ _))
    refine ⟨_, h5, rfl, ?_, ?_, ?_⟩
    · simp [hl]
    · exact uw
    · simp [uu, hm]

/-- The hypotheses are met by a contended execution: process 0 owns the lock stored on process 1,
and a thread of process 1 waits for it. -/
theorem C36_contended : ∃ s, MtxReach twoProcesses false s ∧ HoldsLock s thrA 0 ∧ WaitsLock s thrB 0 := by
  obtain ⟨s1, r1, m1, p1, w1, c1⟩ := mtx_acquire (P := twoProcesses) (b := false) (.init rfl) thrA 0
    (by decide) rfl rfl rfl rfl
  obtain ⟨s2, r2, m2, p2, w2, c2⟩ := mtx_acquire r1 thrB 0 (by decide) (by rw [c1]; rfl)
    (by rw [p1]; rfl) (by rw [w1]; rfl) rfl
  refine ⟨s2, r2, ?_, ?_⟩
  · rw [holds_iff, c2, c1]; rfl
  · rw [waits_iff, c2, m1]; rfl

/-- **C58** is violated: if process 1 executes its initialisation of the lock after process 0 has
taken it, two threads own the lock at the same time. -/
theorem C58_late_init_violated :
    ∃ s, MtxReach twoProcesses true s ∧ HoldsLock s thrA 0 ∧ HoldsLock s thrB 0 ∧ thrA ≠ thrB := by
  obtain ⟨s1, r1, m1, p1, w1, c1⟩ := mtx_acquire (P := twoProcesses) (b := true) (.init rfl) thrA 0
    (by decide) rfl rfl rfl rfl
  have r1' := reach_tail r1 (.init s1 0 (.inl rfl))
  obtain ⟨s2, r2, m2, p2, w2, c2⟩ := mtx_acquire r1' thrB 0 (by decide) (by show s1.pc _ = _; rw [c1]; rfl)
    (by show s1.proc _ = _; rw [p1]; rfl) (by show s1.win _ = _; rw [w1]; rfl) rfl
  refine ⟨s2, r2, ?_, ?_, by decide⟩
  · rw [holds_iff, c2]; show (upd s1.pc _ _ _).owns = _; rw [c1]; rfl
  · rw [holds_iff, c2]; rfl

/-- **C58**, what holds: if every initialisation of a lock happens while the lock is not in use, no two
threads own it. -/
theorem C58_early_init_partial (P : MtxParams) (s : MtxState) (h : MtxReach P false s) (l : Nat)
    (t u : Thr) (ht : HoldsLock s t l) (hu : HoldsLock s u l) : t = u :=
  C36_exclusive P s h l t u ht hu

end Asagi.Props
