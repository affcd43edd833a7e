import Verif.Proofs.WinCacheLive
import Verif.Proofs.WinCacheRun
import Verif.Props.SharedLib
import Verif.Props.SharedValues
/-
C81: the caches with MPI windows and the directory lock as it is implemented.
-/
namespace Asagi.Props
open Asagi Asagi.Spec
variable {β : Type} {C : WinParams β} {ws ws' : WinState β}

/-- **C81**, the implemented lock is as good as an atomic one: every state of the caches that can be
reached with the implemented lock can be reached if a directory entry is locked, read and written in
one step. So everything that holds for the latter (C09, C17, C35, C63) holds for the former. -/
theorem C81_refines (hC : LegalWin C) (h : WinReach C ws) : DistReach C.P ws.st :=
  (WinReach.all hC.dist hC.legal hC.window h).1

/-- The thread is about to write the directory entry of block `l`. -/
def WritesEntry (C : WinParams β) (ws : WinState β) (t l : Nat) : Prop :=
  ws.mtx.pc (C.thr t) = .update l

/-- **C81**, no update of the directory is lost: when a thread writes a directory entry back, the
entry in the memory of its home process still is the one from which the thread has computed the new
entry (possibly from a copy), although the copy may have been read before the thread had the lock. -/
theorem C81_entry_current (hC : LegalWin C) (h : WinReach C ws) (t l : Nat)
    (ht : WritesEntry C ws t l) : C.entryFor ws t l = ws.st.dir l :=
  (WinReach.all hC.dist hC.legal hC.window h).2.2.entryFor ht

/-- **C81**: while a thread is about to write the entry of a block, or copies or loads the block, no
other thread of any process is about to write the entry, or copies or loads this block. -/
theorem C81_exclusive (hC : LegalWin C) (h : WinReach C ws) (t u l : Nat)
    (ht : WritesEntry C ws t l ∨ ∃ off s ph, ws.st.pc (.user t) = .own l off s ph ∧
      ((∃ e k, ph = .copy e k) ∨ ∃ k, ph = .load k))
    (hu : WritesEntry C ws u l ∨ ∃ off s ph, ws.st.pc (.user u) = .own l off s ph ∧
      ((∃ e k, ph = .copy e k) ∨ ∃ k, ph = .load k)) : t = u := by
  obtain ⟨h1, h2, hL⟩ := WinReach.all hC.dist hC.legal hC.window h
  have hI := hC.legal.inv h1
  obtain ⟨Q, hQ⟩ := MtxInv.reachable h2
  have dl : ∀ t, (∃ off s ph, ws.st.pc (.user t) = .own l off s ph ∧
      ((∃ e k, ph = .copy e k) ∨ ∃ k, ph = .load k)) → ws.st.dl l = some (.user t) := by
    rintro t ⟨off, s, ph, hp, ⟨e, k, rfl⟩ | ⟨k, rfl⟩⟩ <;>
      exact (hI.dl l _).2 (by rw [hp]; exact ⟨hC.window, rfl⟩)
  rcases ht with ht | ht <;> rcases hu with hu | hu
  · have e1 := (hQ.head l (C.thr t)).2 (by rw [show ws.mtx.pc _ = _ from ht]; rfl)
    have e2 := (hQ.head l (C.thr u)).2 (by rw [show ws.mtx.pc _ = _ from hu]; rfl)
    rw [e1] at e2
    have hk := hL.link t
    rw [show ws.mtx.pc _ = _ from ht] at hk
    exact hC.dist t u (hL.live t (wants_idle hk)) (Option.some.inj e2)
  · have := dl u hu
    rw [hL.free hI h2 ht] at this; cases this
  · have := dl t ht
    rw [hL.free hI h2 hu] at this; cases this
  · have e1 := dl t ht
    rw [dl u hu] at e1
    injection e1 with e1; injection e1 with e1; exact e1.symm

/-- **C81** and C35: whoever copies a block from another process with the implemented lock finds all
values of the block in the source slot, nobody writes the slot, and after the copy the own slot
contains the block. -/
theorem C81_window_copy (hC : LegalWin C) (h : WinReach C ws) (t b off s : Nat) :
    (∀ e k, ws.st.pc (.user t) = .own b off s (.copy e k) →
      Holds C.P ws.st (C.P.entryDom e) (C.P.entrySlot e) b ∧
      (∀ a, ¬ Writes C.P a (ws.st.pc a) (C.P.entryDom e) (C.P.entrySlot e)) ∧
      ∀ j, j < k → C.P.valid b j → ws.st.data (C.P.dom t) s j = C.P.file b j) ∧
    (ws.st.pc (.user t) = .own b off s .fin → Holds C.P ws.st (C.P.dom t) s b) :=
  C35_window_copy hC.legal (C81_refines hC h) t b off s

theorem win_during (hC : LegalWin C) {t : Nat} (h : WinReach C ws) (hd : WinDuring C t ws ws') :
    WinReach C ws' ∧ During C.P t ws.st ws'.st := by
  induction hd with
  | refl => exact ⟨h, .refl _⟩
  | @tail w1 w2 _ hs hn ih =>
    obtain ⟨h1, h2⟩ := ih
    refine ⟨.step h1 hs, ?_⟩
    obtain ⟨k1, k2, k3⟩ := WinReach.all hC.dist hC.legal hC.window h1
    rcases (k3.step hC.dist hC.window (hC.legal.inv k1) k2 hs).1 with e | e
    · rw [e]; exact h2
    · exact .tail h2 e hn

/-- **C81** and C09: the value that a getter returns with the implemented lock, after any
interleaving with the steps of all other threads of all processes, is the value of the file at the
selected index. -/
theorem C81_value {α : Type} {fp : Fp} {cc : Bool} {nc : List NcAxis} {val : List Nat → α}
    {c : LevelCfg α} (h : Opened fp cc nc val c) (S : SharedCfg α) {C : WinParams α}
    (hP : C.P = c.shared S) (hC : LegalWin C) {ws ws1 ws2 : WinState α} (hr : WinReach C ws)
    (t : Nat) (pos : List Dbl) (idx : List Nat)
    (hp : pos2index fp (openAxes fp cc nc) pos = some idx) (hs : WinStep C ws ws1)
    (hc : GetterCalled c t pos ws.st ws1.st) (hd : WinDuring C t ws1 ws2) (v : α)
    (hv : GetterReturns t ws2.st v) : v = val idx := by
  have h1 := C81_refines hC hr
  obtain ⟨-, h2⟩ := win_during hC (.step hr hs) hd
  have hl := hC.legal
  rw [hP] at h1 h2 hl
  exact C09_shared_cache_value h S hl h1 t pos idx hp hc h2 v hv

/-- **C81** and C18: in every reachable state in which a thread is inside of a getter, a thread
inside of a getter can continue, although threads wait for messages, for windows and for the lock of
the library in the functions of the lock, with slots locked. -/
theorem C81_no_deadlock (hC : LegalWin C) (h : WinReach C ws) (t : Nat)
    (hn : ws.st.pc (.user t) ≠ .idle) : ∃ ws', WinQuiet C ws ws' :=
  WinReach.progress hC h hn

/-- **C81** and C18: from every reachable state, every execution without new calls has at most `N`
steps, and when it cannot be continued, all calls have returned. -/
theorem C81_every_access_returns (hC : LegalWin C) (h : WinReach C ws) :
    ∃ N, ∀ n ws', WinQuietRun C n ws ws' → n ≤ N ∧
      ((∀ ws'', ¬ WinQuiet C ws' ws'') → ∀ t, ws'.st.pc (.user t) = .idle) := by
  obtain ⟨L, hL⟩ := busy_finite (C81_refines hC h)
  refine ⟨(L.map (winLeft C ws)).sum, fun n ws' hq => ?_⟩
  obtain ⟨h1, h2, h3⟩ := winQuietRun_le hC h hL hq
  refine ⟨by omega, fun hend t => ?_⟩
  by_contra hn
  obtain ⟨ws'', hq'⟩ := C81_no_deadlock hC h1 t hn
  exact hend ws'' hq'

/-- The thread is inside of the MPI part of a getter: inside of the functions of the lock (except
for waiting to get into them), or at a position where it has the lock of an entry. -/
def UsesMpi (C : WinParams β) (ws : WinState β) (t : Nat) : Prop :=
  (ws.mtx.pc (C.thr t) ≠ .idle ∧ ∀ l, ws.mtx.pc (C.thr t) ≠ .wantProc l) ∨ InMpi (ws.st.pc (.user t))

/-- **C81** and C64: with THREADSAFE_MPI, at most one thread of each process uses MPI at a time,
also while it waits for the lock of an entry. -/
theorem C81_one_thread_in_mpi (hC : LegalWin C) (hlib : C.lib = true) (h : WinReach C ws) (t u : Nat)
    (ht : UsesMpi C ws t) (hu : UsesMpi C ws u) (hr : C.P.rankT t = C.P.rankT u) : t = u := by
  obtain ⟨h1, h2, hL⟩ := WinReach.all hC.dist hC.legal hC.window h
  obtain ⟨Q, hQ⟩ := MtxInv.reachable h2
  have hl : C.M.lib = true := hlib
  have key : ∀ t, UsesMpi C ws t → ws.mtx.proc (C.P.rankT t) = some (C.thr t) ∧ C.tid t < C.total := by
    intro t ht
    have hne : ws.mtx.pc (C.thr t) ≠ .idle ∧ ∀ l, ws.mtx.pc (C.thr t) ≠ .wantProc l := by
      rcases ht with ht | ht
      · exact ht
      · have hin := inMpi_inLib ht
        have hk := hL.link t
        have he : ∃ l, (ws.st.pc (.user t)).entryOf = some l := by
          revert ht
          generalize ws.st.pc (.user t) = p
          intro ht
          cases ht <;> exact ⟨_, rfl⟩
        obtain ⟨l, he⟩ := he
        refine ⟨fun e => ?_, fun l' e => ?_⟩
        · rw [e] at hk
          change (ws.st.pc (.user t)).entryOf = none at hk
          rw [he] at hk; cases hk
        · rw [e] at hk
          have := wants_entry hk
          rw [he] at this; cases this
    refine ⟨(hQ.proc _ (C.thr t)).2 ⟨?_, rfl⟩, hQ.wf (C.thr t) hne.1⟩
    have hn := hQ.lib (C.thr t) hl
    revert hne hn
    cases ws.mtx.pc (C.thr t) <;> simp [MtxPc.hasProc, MtxPc.nonLib, hl]
  obtain ⟨a1, a2⟩ := key t ht
  obtain ⟨b1, -⟩ := key u hu
  rw [← hr, a1] at b1
  exact hC.dist t u a2 (Option.some.inj b1)

/-! ### An execution with two processes -/

/-- The two processes of `exShared` with the implemented lock; the threads of process `r` have the
numbers 0, 1 (the threads `2 r` and `2 r + 1`), 2, 3 (`2 r + 4`, `2 r + 5`) and so on, at most 8. -/
def exWin (lib : Bool) : WinParams Nat :=
  { P := exShared .window false false, total := 8, tagOffset := 3, lib, tid := fun t => t / 4 * 2 + t % 2 }

theorem exWin_legal (lib : Bool) : LegalWin (exWin lib) := by
  refine ⟨exShared_legal _ _ _, rfl, fun t u _ h1 h2 => ?_⟩
  have h1 : t % 4 / 2 = u % 4 / 2 := h1
  have h2 : t / 4 * 2 + t % 2 = u / 4 * 2 + u % 2 := h2
  omega

/-- `n` steps of thread `t`; messages are received from thread `u`. -/
def winSteps (t u n : Nat) : List WinCmd := List.replicate n (.step t 0 u)

theorem exWin_state {lib : Bool} (cmds : List WinCmd) (chk : WinState Nat → Bool)
    (h : (winRun (exWin lib) cmds).any chk = true) :
    ∃ ws, WinReach (exWin lib) ws ∧ chk ws = true := by
  cases hr : winRun (exWin lib) cmds with
  | none => rw [hr] at h; cases h
  | some ws => rw [hr] at h; exact ⟨ws, winRun_reach (fun _ _ => trivial) hr, h⟩

/-- Thread 0 loads block 6 with the lock of its entry, threads 1 (same process, other domain) and 2
(the other process) wait for the lock, one behind the other, without THREADSAFE_MPI. -/
def exWinQueue : List WinCmd :=
  [.call 0 6 0] ++ winSteps 0 1 10 ++ [.call 1 6 0] ++ winSteps 1 2 9 ++ [.call 2 6 1] ++ winSteps 2 0 9

/-- The locks of both are passed on: thread 2 has the lock, but its copy of the entry is old: it
lacks the slot of thread 1. -/
example : ∃ ws, WinReach (exWin false) ws ∧ ws.mtx.pc ((exWin false).thr 2) = .reProc 6 ∧
    ws.buf 2 = [0, -1, -1, -1] ∧ ws.st.dir 6 = [2, 0, -1, -1] := by
  obtain ⟨ws, hr, hc⟩ := exWin_state (lib := false)
    (exWinQueue ++ winSteps 0 1 9 ++ winSteps 1 2 12)
    (fun ws => decide (ws.mtx.pc ((exWin false).thr 2) = .reProc 6 ∧
      ws.buf 2 = [0, -1, -1, -1] ∧ ws.st.dir 6 = [2, 0, -1, -1])) (by decide +kernel)
  exact ⟨ws, hr, of_decide_eq_true hc⟩

/-- Two steps later (after thread 1 has left) thread 2 is about to write the entry, with a fresh
copy. -/
example : ∃ ws, WinReach (exWin false) ws ∧ WritesEntry (exWin false) ws 2 6 ∧
    (exWin false).entryFor ws 2 6 = [2, 0, -1, -1] ∧ ws.st.dir 6 = [2, 0, -1, -1] ∧
    (exWin false).P.home 6 ≠ (exWin false).P.rankT 2 := by
  obtain ⟨ws, hr, hc⟩ := exWin_state (lib := false)
    (exWinQueue ++ winSteps 0 1 9 ++ winSteps 1 2 13 ++ winSteps 2 0 2)
    (fun ws => decide (ws.mtx.pc ((exWin false).thr 2) = .update 6 ∧
      (exWin false).entryFor ws 2 6 = [2, 0, -1, -1] ∧ ws.st.dir 6 = [2, 0, -1, -1] ∧
      (exWin false).P.home 6 ≠ (exWin false).P.rankT 2)) (by decide +kernel)
  obtain ⟨h1, h2⟩ := of_decide_eq_true hc
  exact ⟨ws, hr, h1, h2⟩

/-- Thread 2 has copied the first value of block 6 from process 0 (the slot of thread 1) and returns
the second one at the end. -/
example : ∃ ws, WinReach (exWin false) ws ∧ ws.st.pc (.user 2) = .own 6 1 0 (.copy 2 1) ∧
    ws.st.data 2 0 0 = 60 := by
  obtain ⟨ws, hr, hc⟩ := exWin_state (lib := false)
    (exWinQueue ++ winSteps 0 1 9 ++ winSteps 1 2 13 ++ winSteps 2 0 5)
    (fun ws => match ws.st.pc (.user 2) with
      | .own 6 1 0 (.copy 2 1) => decide (ws.st.data 2 0 0 = 60)
      | _ => false) (by decide +kernel)
  refine ⟨ws, hr, ?_⟩
  revert hc
  split
  · next h => intro hc; exact ⟨h, of_decide_eq_true hc⟩
  · intro hc; cases hc

example : ∃ ws, WinReach (exWin false) ws ∧ GetterReturns 2 ws.st 61 := by
  obtain ⟨ws, hr, hc⟩ := exWin_state (lib := false)
    (exWinQueue ++ winSteps 0 1 9 ++ winSteps 1 2 13 ++ winSteps 2 0 13)
    (fun ws => match ws.st.pc (.user 2) with
      | .own 6 1 0 (.out 61) => true
      | _ => false) (by decide +kernel)
  refine ⟨ws, hr, ?_⟩
  revert hc
  split
  · next h => intro _; exact ⟨6, 1, 0, h⟩
  · intro hc; cases hc

/-- With THREADSAFE_MPI: thread 0 (process 0) loads block 6, thread 2 (process 1) waits for the lock
of the entry with the lock of its library, thread 3 (process 1) waits for the lock of the library. -/
example : ∃ ws, WinReach (exWin true) ws ∧ UsesMpi (exWin true) ws 0 ∧ UsesMpi (exWin true) ws 2 ∧
    ¬ UsesMpi (exWin true) ws 3 ∧ ws.st.pc (.user 3) ≠ .idle ∧
    (exWin true).P.rankT 2 = (exWin true).P.rankT 3 := by
  obtain ⟨ws, hr, hc⟩ := exWin_state (lib := true)
    ([.call 0 6 0] ++ winSteps 0 1 10 ++ [.call 2 6 0] ++ winSteps 2 0 9 ++ [.call 3 6 1] ++ winSteps 3 0 5)
    (fun ws => match ws.st.pc (.user 3) with
      | .own 6 1 0 .start => decide (ws.mtx.pc ((exWin true).thr 0) = .held 6 ∧
        ws.mtx.pc ((exWin true).thr 2) = .sending 6 0 3 ∧ ws.mtx.pc ((exWin true).thr 3) = .wantProc 6)
      | _ => false) (by decide +kernel)
  refine ⟨ws, hr, ?_⟩
  revert hc
  split
  · next h =>
    intro hc
    obtain ⟨h1, h2, h3⟩ := of_decide_eq_true hc
    refine ⟨.inl ⟨by rw [h1]; nofun, by rw [h1]; nofun⟩, .inl ⟨by rw [h2]; nofun, by rw [h2]; nofun⟩, ?_,
      by rw [h]; nofun, rfl⟩
    rintro (⟨-, h4⟩ | h4)
    · exact h4 6 h3
    · rw [h] at h4; cases h4
  · intro hc; cases hc

end Asagi.Props
