import Verif.Proofs.FullMsgLive
import Verif.Model.CloseFull
/-
Invariant of closing a distributed FULL grid.
-/
namespace Asagi
open Spec Props
variable {α : Type} {c : LevelCfg α} {X : XferCfg α} {data : Nat → Mem α} {procs : Nat}

/-- No getter is active: no message is on its way. -/
structure StillFull (X : XferCfg α) (x : XferSt α) : Prop where
  users : ∀ t, x.st.pc (.user t) = .idle
  call : ∀ t, x.call t = .out
  wire : ∀ q r, x.wire q r = []
  mail : ∀ r q, x.mail r q = []
  busy : ∀ r, x.comm r ≠ none → X.win = false

theorem XferReach.still {x : XferSt α} (h : XferReach c X data x)
    (hi : ∀ t, x.st.pc (.user t) = .idle) : StillFull X x := by
  have hX := h.inv.1
  have hout : ∀ t, x.call t = .out := fun t => by
    cases e : x.call t with
    | out => rfl
    | _ =>
      obtain ⟨-, -, b, off, s, k, hp, -⟩ := hX.hold t (by rw [e]; nofun)
      rw [hi t] at hp; cases hp
  refine ⟨hi, hout, fun q r => ?_, fun r q => ?_, hX.busy⟩
  · cases hX.chan q with
    | none e1 e2 e3 => exact e2 r
    | asked t b off s k e1 e2 => rw [hout t] at e2; cases e2
    | told t b off s k buf e1 e2 => rw [hout t] at e2; cases e2
  · cases hX.chan q with
    | none e1 e2 e3 => exact e3 r
    | asked t b off s k e1 e2 => rw [hout t] at e2; cases e2
    | told t b off s k buf e1 e2 => rw [hout t] at e2; cases e2

/-- While no getter is active, only `MPI_Send` of a reply can return. -/
theorem StillFull.calm {early : Bool} {x x' : XferSt α} (h : StillFull X x)
    (hs : XferStep c X data early x x') (hp : ∀ t, x'.st.pc (.user t) = .idle) :
    ∃ r, x.comm r ≠ none ∧ x' = { x with comm := upd x.comm r none } := by
  have hu := h.users
  have hc := h.call
  cases hs with
  | call t pos st' hf =>
    obtain ⟨b, off, hf⟩ := hf
    have := hp t
    simp_all
  | other t st' _ hn => exact absurd (hu t) hn
  | answered r dst ticket e => exact ⟨r, by rw [e]; nofun, rfl⟩
  | take src r m rest buf _ e => rw [h.wire] at e; cases e
  | near t b off s k src v _ e => rw [hu t] at e; cases e
  | lock t b off s _ e => rw [hu t] at e; cases e
  | send t b off s _ _ e => rw [hu t] at e; cases e
  | sent t b off s ticket e => rw [hc t] at e; cases e
  | recv t b off s m rest e => rw [hc t] at e; cases e
  | store t b off s k buf v e => rw [hc t] at e; cases e
  | done t b off s k buf e => rw [hc t] at e; cases e
  | winLock t _ e => rw [hc t] at e; cases e
  | get t b off s k src v e => rw [hc t] at e; cases e
  | winUnlock t b off s k e => rw [hc t] at e; cases e
  | leave t e => rw [hc t] at e; cases e

theorem StillFull.answered {x : XferSt α} (h : StillFull X x) (r : Nat) :
    StillFull X { x with comm := upd x.comm r none } :=
  ⟨h.users, h.call, h.wire, h.mail, fun q hq => by
    dsimp only at hq
    rw [upd_apply] at hq
    split at hq
    · exact absurd rfl hq
    · exact h.busy q hq⟩

/-! ### The invariant -/

structure CloseFullInv (c : LevelCfg α) (X : XferCfg α) (data : Nat → Mem α) (procs : Nat)
    (s : CloseFullSt α) : Prop where
  idle : ∀ t, s.stage (X.rankT t) ≠ 0 → s.x.st.pc (.user t) = .idle
  out : ∀ r, procs ≤ r → s.stage r = 0
  used : (∃ q, q < procs ∧ s.stage q = 0) → XferReach c X data s.x
  all : (∀ q, q < procs → s.stage q ≠ 0) → StillFull X s.x
  bar : ∀ r, 2 ≤ s.stage r → ∀ q, q < procs → s.stage q ≠ 0
  done : ∀ r, 4 ≤ s.stage r → s.x.comm r = none
  win : X.win = true → ∀ r, 4 ≤ s.stage r → ∀ q, q < procs → 3 ≤ s.stage q
  le : ∀ r, s.stage r ≤ 5

theorem CloseFullInv.start (hp : ∀ t, X.rankT t < procs) {l : CacheList}
    (hl : CacheList.init X.F.cacheSize X.F.handDiff = some l) :
    CloseFullInv c X data procs (CloseFullSt.start c X l) where
  idle := fun _ h => absurd rfl h
  out := fun _ _ => rfl
  used := fun _ => .init ⟨l, hl, rfl⟩
  all := fun h => absurd rfl (h _ (hp 0))
  bar := fun _ h => absurd h (Nat.not_le_of_lt (Nat.succ_pos _))
  done := fun _ h => absurd h (Nat.not_le_of_lt (Nat.succ_pos _))
  win := fun _ _ h => absurd h (Nat.not_le_of_lt (Nat.succ_pos _))
  le := fun _ => Nat.zero_le _

/-- The stage of one process grows. -/
theorem CloseFullInv.grow {s : CloseFullSt α} (h : CloseFullInv c X data procs s) {r k : Nat}
    (h0 : s.stage r ≠ 0) (hk : s.stage r < k) (h8 : k ≤ 5)
    (hb : 2 ≤ k → ∀ q, q < procs → s.stage q ≠ 0) (hd : 4 ≤ k → s.x.comm r = none)
    (hw : 4 ≤ k → X.win = true → ∀ q, q < procs → 3 ≤ s.stage q) :
    CloseFullInv c X data procs { s with stage := upd s.stage r k } := by
  have hz : ∀ q, upd s.stage r k q ≠ 0 ↔ s.stage q ≠ 0 := fun q => by
    rw [upd_apply]; split
    · next e => subst e; exact ⟨fun _ => h0, fun _ => by omega⟩
    · exact Iff.rfl
  have hz' : ∀ q, upd s.stage r k q = 0 ↔ s.stage q = 0 := fun q => by have := hz q; omega
  have hge : ∀ q, s.stage q ≤ upd s.stage r k q := fun q => by
    rw [upd_apply]; split
    · next e => subst e; omega
    · exact Nat.le_refl _
  refine ⟨fun t ht => h.idle t ((hz _).1 ht), fun q hq => (hz' q).2 (h.out q hq),
    fun ⟨q, h1, h2⟩ => h.used ⟨q, h1, (hz' q).1 h2⟩, fun ha => h.all fun q hq => (hz q).1 (ha q hq),
    fun q hq p hp => (hz p).2 ?_, fun q hq => ?_, fun hx q hq p hp => Nat.le_trans ?_ (hge p), fun q => ?_⟩
  all_goals simp only [upd_apply] at *
  · split at hq
    · exact hb hq p hp
    · exact h.bar q hq p hp
  · split at hq
    · next e => subst e; exact hd hq
    · exact h.done q hq
  · split at hq
    · exact hw hq hx p hp
    · exact h.win hx q hq p hp
  · split
    · exact h8
    · exact h.le q

theorem wire_tag {x : XferSt α} (h : XferReach c X data x) {q r : Nat} {m : Msg}
    (hm : m ∈ x.wire q r) : m.tag = X.tag := by
  cases h.inv.1.chan q with
  | none e1 e2 e3 => rw [e2] at hm; cases hm
  | asked t b off s k e1 e2 e3 e4 e5 =>
    rw [e4] at hm
    split at hm
    · rw [List.mem_singleton] at hm; rw [hm]
    · cases hm
  | told t b off s k buf e1 e2 e3 e4 => rw [e4] at hm; cases hm

theorem CloseFullInv.step (hp : ∀ t, X.rankT t < procs) {early : Bool} {s s' : CloseFullSt α}
    (h : CloseFullInv c X data procs s) (hs : CloseFullStep c X data procs early s s') :
    CloseFullInv c X data procs s' := by
  cases hs with
  | use x' hm hu ht =>
    have hcalm : (∀ q, q < procs → s.stage q ≠ 0) →
        ∃ r, s.x.comm r ≠ none ∧ x' = { s.x with comm := upd s.x.comm r none } := fun ha =>
      (h.all ha).calm hm fun t => (hu t (ha _ (hp t))).trans (h.idle t (ha _ (hp t)))
    refine ⟨fun t h0 => (hu t h0).trans (h.idle t h0), h.out,
      fun he => .step (h.used he) hm.buffered, fun ha => ?_, h.bar, fun r hr => ?_, h.win, h.le⟩
    · obtain ⟨r, -, rfl⟩ := hcalm ha
      exact (h.all ha).answered r
    · have hr' : 4 ≤ s.stage r := hr
      have hl := h.done r hr
      obtain ⟨r', -, rfl⟩ := hcalm (h.bar r (by omega))
      show upd _ _ _ _ = _
      rw [upd_apply]; split
      · rfl
      · exact hl
  | drop src r m rest h1 h2 h3 =>
    exfalso
    by_cases he : ∃ q, q < procs ∧ s.stage q = 0
    · have := wire_tag (h.used he) (q := src) (r := r) (m := m) (by rw [h2]; exact List.mem_cons_self)
      have h4 : ¬ s.stage r < 4 := fun h4 => h3 ⟨this, h4⟩
      obtain ⟨q, e1, e2⟩ := he
      exact absurd e2 (h.bar r (by omega) q e1)
    · have := (h.all fun q hq h0 => he ⟨q, hq, h0⟩).wire src r
      rw [h2] at this; cases this
  | call r h1 h2 h3 =>
    have hidle : ∀ t, upd s.stage r 1 (X.rankT t) ≠ 0 → s.x.st.pc (.user t) = .idle := fun t ht => by
      rw [upd_apply] at ht
      split at ht
      · next e => exact h3 t e
      · exact h.idle t ht
    have hreach : XferReach c X data s.x := h.used ⟨r, h1, h2⟩
    refine ⟨hidle, fun q hq => ?_, fun _ => hreach,
      fun ha => hreach.still fun t => hidle t (ha _ (hp t)), fun q hq p hp' => ?_, fun q hq => ?_,
      fun hx q hq p hp' => ?_, fun q => ?_⟩
    all_goals simp only [upd_apply] at *
    · split
      · omega
      · exact h.out q hq
    · split at hq
      · omega
      · exact absurd h2 (h.bar q hq r h1)
    · split at hq
      · omega
      · exact h.done q hq
    · split at hq
      · omega
      · exact absurd h2 (h.bar q (by omega) r h1)
    · split
      · omega
      · exact h.le q
  | pass r h1 h2 =>
    exact h.grow (by omega) (by omega) (by omega) (fun _ q hq => by have := h2 q hq; omega)
      (fun e => by omega) (fun e => by omega)
  | freeCache r h1 =>
    exact h.grow (by omega) (by omega) (by omega) (fun _ => h.bar r (by omega)) (fun e => by omega)
      (fun e => by omega)
  | unregister r h1 h2 h3 =>
    exact h.grow (by omega) (by omega) (by omega) (fun _ => h.bar r (by omega)) (fun _ => h3)
      (fun _ hw => by rw [h1] at hw; cases hw)
  | winFree r h1 h2 h3 =>
    refine h.grow (by omega) (by omega) (by omega) (fun _ => h.bar r (by omega)) (fun _ => ?_)
      (fun _ _ => h3)
    cases e : s.x.comm r with
    | none => rfl
    | some y =>
      have := (h.all (h.bar r (by omega))).busy r (by rw [e]; nofun)
      rw [h1] at this; cases this
  | free r h1 =>
    exact h.grow (by omega) (by omega) (by omega) (fun _ => h.bar r (by omega))
      (fun _ => h.done r (by omega)) (fun _ hx => h.win hx r (by omega))

theorem CloseFullReach.inv (hp : ∀ t, X.rankT t < procs) {s : CloseFullSt α}
    (h : CloseFullReach c X data procs s) : CloseFullInv c X data procs s := by
  induction h with
  | init h => obtain ⟨l, hl, rfl⟩ := h; exact .start hp hl
  | step _ hs ih => exact ih.step hp hs

/-- Before `close` is called anywhere, everything is as in `Verif.Model.FullMsg`. -/
theorem XferReach.open_ {x : XferSt α} (h : XferReach c X data x) :
    CloseFullReach c X data procs { x, stage := fun _ => 0 } := by
  induction h with
  | init h => obtain ⟨l, hl, rfl⟩ := h; exact .init ⟨l, hl, rfl⟩
  | @step x x' hr hs ih =>
    refine .step ih (.use { x, stage := fun _ => 0 } x' hs (fun t h0 => absurd rfl h0)
      fun src r m rest e _ => ⟨wire_tag hr (by dsimp only at e; rw [e]; exact List.mem_cons_self), ?_⟩)
    exact Nat.zero_lt_succ 3

/-! ### The length of executions -/

/-- Communication threads inside of `MPI_Send`. -/
def XferSt.Rest (x : XferSt α) (m : Nat) : Prop :=
  ∃ R : Finset Nat, Supp R x.rPot ∧ ∑ r ∈ R, x.rPot r = m

theorem XferSt.Rest.change {x x' : XferSt α} {m : Nat} (hm : x.Rest m) (r : Nat)
    (hc : ∀ q, q ≠ r → x'.comm q = x.comm q) : ∃ m', x'.Rest m' ∧ m' + x.rPot r = m + x'.rPot r := by
  obtain ⟨R, h2, h3⟩ := hm
  obtain ⟨b1, b2⟩ := sum_change (f' := x'.rPot) (u := r) h2 fun q hq => by
    unfold XferSt.rPot; rw [hc q hq]
  exact ⟨_, ⟨_, b1, rfl⟩, by omega⟩

theorem XferStep.comm_change {early : Bool} {x x' : XferSt α} (h : XferStep c X data early x x') :
    ∃ r, ∀ q, q ≠ r → x'.comm q = x.comm q := by
  cases h with
  | take src r m rest buf => exact ⟨r, fun q hq => upd_ne _ _ hq⟩
  | answered r dst ticket => exact ⟨r, fun q hq => upd_ne _ _ hq⟩
  | _ => exact ⟨0, fun _ _ => rfl⟩

theorem CloseFullReach.rest {s : CloseFullSt α} (h : CloseFullReach c X data procs s) :
    ∃ m, s.x.Rest m := by
  induction h with
  | init h => obtain ⟨l, -, rfl⟩ := h; exact ⟨0, ∅, fun _ _ => rfl, rfl⟩
  | step _ hs ih =>
    obtain ⟨m, hm⟩ := ih
    cases hs with
    | use x' h1 =>
      obtain ⟨r, h2⟩ := h1.comm_change
      obtain ⟨m', h4, -⟩ := hm.change r h2
      exact ⟨m', h4⟩
    | drop src r m rest => exact ⟨_, hm⟩
    | _ => exact ⟨m, hm⟩

/-- Steps of `close` that remain. -/
def CloseFullSt.remain (procs : Nat) (s : CloseFullSt α) : Nat :=
  ∑ r ∈ Finset.range procs, (5 - s.stage r)

theorem full_remain_grow {s : CloseFullSt α} {r k : Nat} (hr : r < procs) (hk : s.stage r < k)
    (h8 : k ≤ 5) :
    CloseFullSt.remain procs { s with stage := upd s.stage r k } + 1 ≤ s.remain procs := by
  unfold CloseFullSt.remain
  rw [← Finset.add_sum_erase _ _ (Finset.mem_range.2 hr),
    ← Finset.add_sum_erase (Finset.range procs) (fun q => 5 - s.stage q) (Finset.mem_range.2 hr)]
  have : ∑ x ∈ (Finset.range procs).erase r, (5 - upd s.stage r k x) =
      ∑ x ∈ (Finset.range procs).erase r, (5 - s.stage x) :=
    Finset.sum_congr rfl fun x hx => by rw [upd_ne _ _ (Finset.ne_of_mem_erase hx)]
  simp only [this, upd_self]
  omega

/-- Every step brings the end of `close` nearer, once all processes have called it. -/
theorem CloseFullInv.less (hp : ∀ t, X.rankT t < procs) {early : Bool} {s s' : CloseFullSt α}
    (h : CloseFullInv c X data procs s) (ha : ∀ q, q < procs → s.stage q ≠ 0)
    (hs : CloseFullStep c X data procs early s s') {m : Nat} (hm : s.x.Rest m) :
    (∀ q, q < procs → s'.stage q ≠ 0) ∧
      ∃ m', s'.x.Rest m' ∧ m' + s'.remain procs + 1 ≤ m + s.remain procs := by
  have grow : ∀ {r k : Nat}, s.stage r ≠ 0 → s.stage r < k → k ≤ 5 →
      (∀ q, q < procs → upd s.stage r k q ≠ 0) ∧
      ∃ m', s.x.Rest m' ∧
        m' + CloseFullSt.remain procs { s with stage := upd s.stage r k } + 1 ≤ m + s.remain procs := by
    intro r k h0 hk h8
    have hr : r < procs := by
      by_cases e : r < procs
      · exact e
      · exact absurd (h.out r (by omega)) h0
    refine ⟨fun q hq => ?_, m, hm, ?_⟩
    · rw [upd_apply]; split
      · omega
      · exact ha q hq
    · have := full_remain_grow (s := s) hr hk h8
      omega
  cases hs with
  | use x' h1 hu ht =>
    refine ⟨ha, ?_⟩
    obtain ⟨r, hr, rfl⟩ := (h.all ha).calm h1 fun t =>
      (hu t (ha _ (hp t))).trans (h.idle t (ha _ (hp t)))
    obtain ⟨m', h2, h3⟩ := hm.change (x' := { s.x with comm := upd s.x.comm r none }) r
      fun q hq => upd_ne _ _ hq
    refine ⟨m', h2, ?_⟩
    have e1 : s.x.rPot r = 1 := if_neg hr
    have e2 : XferSt.rPot { s.x with comm := upd s.x.comm r none } r = 0 :=
      if_pos (upd_self s.x.comm r none)
    show m' + s.remain procs + 1 ≤ m + s.remain procs
    omega
  | drop src r y rest h1 h2 h3 => rw [(h.all ha).wire] at h2; cases h2
  | call r h1 h2 h3 => exact absurd h2 (ha r h1)
  | pass r h1 h2 => exact grow (by omega) (by omega) (by omega)
  | freeCache r h1 => exact grow (by omega) (by omega) (by omega)
  | unregister r h1 h2 h3 => exact grow (by omega) (by omega) (by omega)
  | winFree r h1 h2 h3 => exact grow (by omega) (by omega) (by omega)
  | free r h1 => exact grow (by omega) (by omega) (by omega)

/-- Something can happen until all processes have closed the grid. -/
theorem CloseFullInv.go {early : Bool} {s : CloseFullSt α} (h : CloseFullInv c X data procs s)
    (ha : ∀ q, q < procs → s.stage q ≠ 0) {r : Nat} (hr : r < procs) (h8 : s.stage r ≠ 5) :
    ∃ s', CloseFullStep c X data procs early s s' := by
  have hq := h.all ha
  have early2 : ∀ q, q < procs → s.stage q < 3 → ∃ s', CloseFullStep c X data procs early s s' := by
    intro q hq h3
    have := ha q hq
    have : s.stage q = 1 ∨ s.stage q = 2 := by omega
    rcases this with e | e
    · exact ⟨_, .pass s q e fun p hp => by have := ha p hp; omega⟩
    · exact ⟨_, .freeCache s q e⟩
  have h2 := h.le r
  have h1 := ha r hr
  by_cases h3 : s.stage r < 3
  · exact early2 r hr h3
  have : s.stage r = 3 ∨ s.stage r = 4 := by omega
  rcases this with e | e
  · cases hw : X.win with
    | false =>
      cases hc : s.x.comm r with
      | none => exact ⟨_, .unregister s r hw e hc⟩
      | some y =>
        obtain ⟨dst, k⟩ := y
        exact ⟨_, .use s _ (.answered s.x r dst k hc (.inr (by rw [hq.mail]; nofun)))
          (fun _ _ => rfl) (fun src r' m rest e1 e2 => by rw [hq.wire] at e1; cases e1)⟩
    | true =>
      by_cases hall : ∀ q, q < procs → 3 ≤ s.stage q
      · exact ⟨_, .winFree s r hw e hall⟩
      · have : ∃ q, q < procs ∧ s.stage q < 3 := by
          apply Classical.byContradiction
          intro hn
          exact hall fun q hq => Nat.le_of_not_lt fun h3 => hn ⟨q, hq, h3⟩
        obtain ⟨q, hq, h3⟩ := this
        exact early2 q hq h3
  · exact ⟨_, .free s r e⟩

end Asagi
