import Verif.Spec.CloseWin
import Verif.Proofs.WinCache
import Mathlib.Algebra.BigOperators.Group.Finset.Basic
import Mathlib.Algebra.BigOperators.Intervals
/-
Invariant of closing a cached grid with MPI windows.
-/
namespace Asagi
open Spec
variable {β : Type} {C : WinParams β} {procs : Nat}

theorem WinLink.unused {ws : WinState β} (hM : MtxReach C.M false ws.mtx) (hL : WinLink C ws)
    (hi : ∀ t, ws.st.pc (.user t) = .idle) : WindowsUnused C ws := by
  obtain ⟨Q, hQ⟩ := MtxInv.reachable hM
  have hT : ∀ T, ws.mtx.pc T = .idle := fun T => by
    apply Classical.byContradiction
    intro hn
    obtain ⟨t, rfl⟩ := hL.busy T hn
    have h := hL.link t
    rw [hi t] at h
    revert h hn
    cases ws.mtx.pc (C.thr t) <;> simp [WinMatch, Pc.wantsEntry, Pc.entryOf, Pc.leavesLib]
  refine ⟨hi, hT, fun r => ?_, fun r => ?_, fun l => ?_⟩
  · cases e : ws.mtx.win r with
    | none => rfl
    | some T => obtain ⟨l, h, -⟩ := (hQ.win r T).1 e; rw [hT T] at h; cases h
  · cases e : ws.mtx.proc r with
    | none => rfl
    | some T => have h := ((hQ.proc r T).1 e).1; rw [hT T] at h; cases h
  · rw [hQ.mem]
    have : Q l = [] := List.eq_nil_iff_forall_not_mem.2 fun T h => by
      have := (hQ.mem_iff l T).1 h
      rw [hT T] at this
      rcases this with h | h <;> cases h
    rw [this]; rfl

/-- Nothing happens while no getter is active and none is called. -/
theorem unused_stuck {ws ws' : WinState β} (h : WindowsUnused C ws) (hs : WinStep C ws ws')
    (hp : ∀ t, ws'.st.pc (.user t) = .idle) : False := by
  have hu := h.getters
  have hT := h.threads
  cases hs with
  | plain t st' _ _ _ hs =>
    have h1 := hu t
    have h2 := hp t
    cases hs with
    | call _ _ b off => dsimp only at h2; rw [upd_self] at h2; cases h2
    | _ => simp_all
  | call t l m' e => rw [hu t] at e; cases e
  | inside m' _ hne hin =>
    apply hne
    funext u
    apply Classical.byContradiction
    intro hn
    have := hin u hn
    rw [hT u] at this; cases this
  | delete t b off s o m' e => rw [hu t] at e; cases e
  | add t b off s m' e => rw [hu t] at e; cases e
  | start t b off s rnd m' e => rw [hu t] at e; cases e
  | endCall t l m' e => rw [hu t] at e; cases e
  | leave t l m' st' e => rw [hu t] at e; cases e

/-! ### The invariant -/

structure CloseWinInv (C : WinParams β) (procs : Nat) (s : CloseWinSt β) : Prop where
  idle : ∀ t, s.stage (C.P.rankT t) ≠ 0 → s.ws.st.pc (.user t) = .idle
  out : ∀ r, procs ≤ r → s.stage r = 0
  used : (∃ q, q < procs ∧ s.stage q = 0) → WinReach C s.ws
  all : (∀ q, q < procs → s.stage q ≠ 0) → WindowsUnused C s.ws
  bar : ∀ r, 2 ≤ s.stage r → ∀ q, q < procs → s.stage q ≠ 0
  dict : ∀ r, 4 ≤ s.stage r → ∀ q, q < procs → 3 ≤ s.stage q
  cache : ∀ r, 5 ≤ s.stage r → ∀ q, q < procs → 4 ≤ s.stage q
  le : ∀ r, s.stage r ≤ 6

theorem CloseWinInv.start (hp : ∀ t, C.P.rankT t < procs) {l : CacheList}
    (hl : CacheList.init C.P.size C.P.handDiff = some l) :
    CloseWinInv C procs (CloseWinSt.start C l) where
  idle := fun _ h => absurd rfl h
  out := fun _ _ => rfl
  used := fun _ => .init ⟨l, hl, rfl⟩
  all := fun h => absurd rfl (h _ (hp 0))
  bar := fun _ h => absurd h (Nat.not_le_of_lt (Nat.succ_pos _))
  dict := fun _ h => absurd h (Nat.not_le_of_lt (Nat.succ_pos _))
  cache := fun _ h => absurd h (Nat.not_le_of_lt (Nat.succ_pos _))
  le := fun _ => Nat.zero_le _

/-- The stage of one process grows. -/
theorem CloseWinInv.grow {s : CloseWinSt β} (h : CloseWinInv C procs s) {r k : Nat}
    (h0 : s.stage r ≠ 0) (hk : s.stage r < k) (h8 : k ≤ 6)
    (hb : 2 ≤ k → ∀ q, q < procs → s.stage q ≠ 0)
    (hd : 4 ≤ k → ∀ q, q < procs → 3 ≤ s.stage q)
    (hc : 5 ≤ k → ∀ q, q < procs → 4 ≤ s.stage q) :
    CloseWinInv C procs { s with stage := upd s.stage r k } := by
  have hz : ∀ q, upd s.stage r k q ≠ 0 ↔ s.stage q ≠ 0 := fun q => by
    rw [upd_apply]; split
    · next e => subst e; exact ⟨fun _ => h0, fun _ => by omega⟩
    · exact Iff.rfl
  have hz' : ∀ q, upd s.stage r k q = 0 ↔ s.stage q = 0 := fun q => by have := hz q; omega
  have hge : ∀ q, s.stage q ≤ upd s.stage r k q := fun q => by
    rw [upd_apply]; split
    · next e => subst e; omega
    · exact Nat.le_refl _
  refine ⟨fun t ht => h.idle t ((hz _).1 ht), fun q hq => (hz' q).2 (h.out q hq),
    fun ⟨q, h1, h2⟩ => h.used ⟨q, h1, (hz' q).1 h2⟩, fun ha => h.all fun q hq => (hz q).1 (ha q hq),
    fun q hq p hp => (hz p).2 ?_, fun q hq p hp => Nat.le_trans ?_ (hge p),
    fun q hq p hp => Nat.le_trans ?_ (hge p), fun q => ?_⟩
  all_goals simp only [upd_apply] at *
  · split at hq
    · exact hb hq p hp
    · exact h.bar q hq p hp
  · split at hq
    · exact hd hq p hp
    · exact h.dict q hq p hp
  · split at hq
    · exact hc hq p hp
    · exact h.cache q hq p hp
  · split
    · exact h8
    · exact h.le q

theorem CloseWinInv.step (hd : C.Distinct) (hl : Legal C.P) (hm : C.P.mode = .window)
    (hp : ∀ t, C.P.rankT t < procs) {s s' : CloseWinSt β}
    (h : CloseWinInv C procs s) (hs : CloseWinStep C procs s s') : CloseWinInv C procs s' := by
  cases hs with
  | use ws' hw hu =>
    have hstuck : ¬ ∀ q, q < procs → s.stage q ≠ 0 := fun ha =>
      unused_stuck (h.all ha) hw fun t => (hu t (ha _ (hp t))).trans (h.idle t (ha _ (hp t)))
    exact ⟨fun t h0 => (hu t h0).trans (h.idle t h0), h.out, fun he => .step (h.used he) hw,
      fun ha => absurd ha hstuck, h.bar, h.dict, h.cache, h.le⟩
  | call r h1 h2 h3 =>
    have hidle : ∀ t, upd s.stage r 1 (C.P.rankT t) ≠ 0 → s.ws.st.pc (.user t) = .idle := fun t ht => by
      rw [upd_apply] at ht
      split at ht
      · next e => exact h3 t e
      · exact h.idle t ht
    have hreach : WinReach C s.ws := h.used ⟨r, h1, h2⟩
    obtain ⟨-, hM, hL⟩ := WinReach.all hd hl hm hreach
    refine ⟨hidle, fun q hq => ?_, fun _ => hreach,
      fun ha => hL.unused hM fun t => hidle t (ha _ (hp t)), fun q hq p hp' => ?_,
      fun q hq p hp' => ?_, fun q hq p hp' => ?_, fun q => ?_⟩
    all_goals simp only [upd_apply] at *
    · split
      · omega
      · exact h.out q hq
    · split at hq
      · omega
      · exact absurd h2 (h.bar q hq r h1)
    · split at hq
      · omega
      · exact absurd h2 (h.bar q (by omega) r h1)
    · split at hq
      · omega
      · exact absurd h2 (h.bar q (by omega) r h1)
    · split
      · omega
      · exact h.le q
  | pass r h1 h2 =>
    exact h.grow (by omega) (by omega) (by omega) (fun _ q hq => by have := h2 q hq; omega)
      (fun e => by omega) (fun e => by omega)
  | mutexes r h1 =>
    exact h.grow (by omega) (by omega) (by omega) (fun _ => h.bar r (by omega)) (fun e => by omega)
      (fun e => by omega)
  | dictWin r h1 h2 =>
    exact h.grow (by omega) (by omega) (by omega) (fun _ => h.bar r (by omega)) (fun _ => h2)
      (fun e => by omega)
  | cacheWin r h1 h2 =>
    exact h.grow (by omega) (by omega) (by omega) (fun _ => h.bar r (by omega))
      (fun _ => h.dict r (by omega)) (fun _ => h2)
  | free r h1 =>
    exact h.grow (by omega) (by omega) (by omega) (fun _ => h.bar r (by omega))
      (fun _ => h.dict r (by omega)) (fun _ => h.cache r (by omega))

theorem CloseWinReach.inv (hd : C.Distinct) (hl : Legal C.P) (hm : C.P.mode = .window)
    (hp : ∀ t, C.P.rankT t < procs) {s : CloseWinSt β} (h : CloseWinReach C procs s) :
    CloseWinInv C procs s := by
  induction h with
  | init h => obtain ⟨l, hl', rfl⟩ := h; exact .start hp hl'
  | step _ hs ih => exact ih.step hd hl hm hp hs

/-- Before `close` is called anywhere, everything is as in `Verif.Model.WinCache`. -/
theorem WinReach.open_ {ws : WinState β} (h : WinReach C ws) :
    CloseWinReach C procs { ws, stage := fun _ => 0 } := by
  induction h with
  | init h => obtain ⟨l, hl, rfl⟩ := h; exact .init ⟨l, hl, rfl⟩
  | step _ hs ih => exact .step ih (.use _ _ hs fun t h0 => absurd rfl h0)

/-! ### The length of executions -/

/-- Steps of `close` that remain. -/
def CloseWinSt.remain (procs : Nat) (s : CloseWinSt β) : Nat :=
  ∑ r ∈ Finset.range procs, (6 - s.stage r)

theorem win_remain_grow {s : CloseWinSt β} {r k : Nat} (hr : r < procs) (hk : s.stage r < k)
    (h8 : k ≤ 6) :
    CloseWinSt.remain procs { s with stage := upd s.stage r k } + 1 ≤ s.remain procs := by
  unfold CloseWinSt.remain
  rw [← Finset.add_sum_erase _ _ (Finset.mem_range.2 hr),
    ← Finset.add_sum_erase (Finset.range procs) (fun q => 6 - s.stage q) (Finset.mem_range.2 hr)]
  have : ∑ x ∈ (Finset.range procs).erase r, (6 - upd s.stage r k x) =
      ∑ x ∈ (Finset.range procs).erase r, (6 - s.stage x) :=
    Finset.sum_congr rfl fun x hx => by rw [upd_ne _ _ (Finset.ne_of_mem_erase hx)]
  simp only [this, upd_self]
  omega

/-- Every step brings the end of `close` nearer, once all processes have called it. -/
theorem CloseWinInv.less (hp : ∀ t, C.P.rankT t < procs) {s s' : CloseWinSt β}
    (h : CloseWinInv C procs s) (ha : ∀ q, q < procs → s.stage q ≠ 0)
    (hs : CloseWinStep C procs s s') :
    (∀ q, q < procs → s'.stage q ≠ 0) ∧ s'.remain procs + 1 ≤ s.remain procs := by
  have grow : ∀ {r k : Nat}, s.stage r ≠ 0 → s.stage r < k → k ≤ 6 →
      (∀ q, q < procs → upd s.stage r k q ≠ 0) ∧
      CloseWinSt.remain procs { s with stage := upd s.stage r k } + 1 ≤ s.remain procs := by
    intro r k h0 hk h8
    have hr : r < procs := by
      by_cases e : r < procs
      · exact e
      · exact absurd (h.out r (by omega)) h0
    refine ⟨fun q hq => ?_, win_remain_grow hr hk h8⟩
    rw [upd_apply]; split
    · omega
    · exact ha q hq
  cases hs with
  | use ws' h1 hu =>
    exact (unused_stuck (h.all ha) h1 fun t => (hu t (ha _ (hp t))).trans (h.idle t (ha _ (hp t)))).elim
  | call r h1 h2 h3 => exact absurd h2 (ha r h1)
  | pass r h1 h2 => exact grow (by omega) (by omega) (by omega)
  | mutexes r h1 => exact grow (by omega) (by omega) (by omega)
  | dictWin r h1 h2 => exact grow (by omega) (by omega) (by omega)
  | cacheWin r h1 h2 => exact grow (by omega) (by omega) (by omega)
  | free r h1 => exact grow (by omega) (by omega) (by omega)

/-- Something can happen until all processes have closed the grid. -/
theorem CloseWinInv.go {s : CloseWinSt β} (h : CloseWinInv C procs s)
    (ha : ∀ q, q < procs → s.stage q ≠ 0) {r : Nat} (hr : r < procs) (h8 : s.stage r ≠ 6) :
    ∃ s', CloseWinStep C procs s s' := by
  by_cases h3 : ∃ q, q < procs ∧ s.stage q < 3
  · obtain ⟨q, hq, h3⟩ := h3
    have := ha q hq
    by_cases e : s.stage q = 1
    · exact ⟨_, .pass s q e fun p hp => Nat.pos_of_ne_zero (ha p hp)⟩
    · exact ⟨_, .mutexes s q (by omega)⟩
  have h3' : ∀ q, q < procs → 3 ≤ s.stage q := fun q hq => by
    apply Classical.byContradiction; intro hn; exact h3 ⟨q, hq, by omega⟩
  by_cases h4 : ∃ q, q < procs ∧ s.stage q = 3
  · obtain ⟨q, hq, h4⟩ := h4
    exact ⟨_, .dictWin s q h4 h3'⟩
  have h4' : ∀ q, q < procs → 4 ≤ s.stage q := fun q hq => by
    have := h3' q hq
    apply Classical.byContradiction; intro hn; exact h4 ⟨q, hq, by omega⟩
  have h1 := h4' r hr
  have h2 := h.le r
  by_cases e : s.stage r = 4
  · exact ⟨_, .cacheWin s r e h4'⟩
  · exact ⟨_, .free s r (by omega)⟩

end Asagi
