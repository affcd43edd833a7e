import Verif.Proofs.FullMsgLive
import Verif.Proofs.FullMsgRun
/-
C83: distributed FULL grids with the implemented transfers between processes.
-/
namespace Asagi.Props
open Asagi Asagi.Spec
variable {α : Type}

variable {c : LevelCfg α} {X : XferCfg α} {s0 : FullDist α} {x x' x1 x2 : XferSt α}
  {fp : Fp} {cc : Bool} {nc : List NcAxis} {val : List Nat → α}

theorem source_file (wf : c.WF) (ho : FullOpened c X.F s0) (hval : c.file.val = val) {t b : Nat}
    (hb : b < c.totalBlocks) {buf : List α}
    (hs : fullSource c X.F s0.data (X.rankT t) b = some buf) : IsFileBlock c val b buf := by
  obtain ⟨src, e1, e2, e3⟩ := fullSource_spec (ho.static wf) ho.ranks ho.domains ho.reach (ho.rank t) hb
  rw [hs] at e1; injection e1 with e1; subst e1
  intro idx h1 h2
  rw [← hval]
  refine e3 idx h1 h2 ?_
  exact (block_lt wf h1).2

/-- The block of a thread that fetches it is a block of the grid. -/
theorem load_lt (wf : c.WF) (hx : SizesExact c.fp c.file.size) (ho : FullOpened c X.F s0)
    (hr : XferReach c X s0.data x) {t b off s k : Nat}
    (hp : x.st.pc (.user t) = .own b off s (.load k)) : b < c.totalBlocks := by
  have hI := ho.legal.inv ((XferReach.inv hr).2.dist wf hx ho)
  obtain ⟨⟨-, idx, hl, hin, rfl, rfl⟩, -⟩ := hI.own t b off s _ hp
  exact (block_lt wf (inBox_of_getElem? hl (fun {k a b} ha hb => hin k a b ha hb))).1

/-- **C83.** The implemented transfers refine the direct reads of the memory of the other process:
every reachable state is one of the level with direct reads, as far as the caches and the positions of
the threads are concerned, and every step is a step there or changes nothing of it. -/
theorem C83_refines (hr : XferReach c X s0.data x) :
    FullReach c X.F s0.data x.st ∧
    ∀ early x', XferStep c X s0.data early x x' →
      x'.st = x.st ∨ FullStep c X.F s0.data x.st x'.st := by
  obtain ⟨h1, h2⟩ := XferReach.inv hr
  exact ⟨h2, fun early x' hs => (h1.step hs).2⟩

/-- **C83** Every reply on its way from process `r` to process `q` is for exactly one thread: one of
process `q` that has asked process `r`, and the reply contains the block it has asked for, with the
values of the file. -/
theorem C83_reply_owner (h : Opened fp cc nc val c) (ho : FullOpened c X.F s0)
    (hr : XferReach c X s0.data x) {q r : Nat} {m : XferRep α} (hm : m ∈ x.mail r q) :
    ∃ t b, X.rankT t = q ∧ AwaitsReply c X x r t b ∧ IsFileBlock c val b m.buf ∧
      (∀ t' r' b', X.rankT t' = q → AwaitsReply c X x r' t' b' → t' = t ∧ r' = r ∧ b' = b) ∧
      x.mail r q = [m] ∧ x.wire q r = [] := by
  obtain ⟨wf, hx, -, -, hval⟩ := h.spec
  obtain ⟨h1, -⟩ := XferReach.inv hr
  cases h1.chan q with
  | none e1 e2 e3 => rw [e3] at hm; cases hm
  | asked t b off s k e1 e2 e3 e4 e5 => rw [e5] at hm; cases hm
  | told t b off s k buf e1 e2 e3 e4 e5 e6 =>
    have hm' := hm
    rw [e6] at hm'
    split at hm'
    · next hrb =>
      rw [List.mem_singleton] at hm'
      subst hm'
      have ha : x.call t = .waiting ∨ ∃ k, x.call t = .sending k := by
        revert e2
        cases x.call t with
        | sending k => exact fun _ => .inr ⟨k, rfl⟩
        | waiting => exact fun _ => .inl rfl
        | _ => intro e; cases e
      refine ⟨t, b, e1, ⟨hrb.symm, ⟨off, s, e3⟩, ha⟩, ?_, ?_, ?_, e4 r⟩
      · rw [← e1] at e5
        exact source_file wf ho hval (load_lt wf hx ho hr e3) e5
      · rintro t' r' b' f1 ⟨f2, ⟨off', s', f3⟩, f4⟩
        have hn : x.call t' ≠ .out := by rcases f4 with f4 | ⟨k, f4⟩ <;> rw [f4] <;> nofun
        have := h1.unique (awaits_ne e2) hn (f1.trans e1.symm)
        subst this
        rw [e3] at f3
        injection f3 with f3
        subst f3
        exact ⟨rfl, f2.symm.trans hrb.symm, rfl⟩
      · rw [e6, if_pos hrb]
    · cases hm'

/-- **C83** Every request on its way to a communication thread carries the registered tag and the
number of a block in the memory of this process: the block that exactly one thread of the sending
process waits for. -/
theorem C83_request_owner (hr : XferReach c X s0.data x) {q r : Nat} {m : Msg} (hm : m ∈ x.wire q r) :
    m.tag = X.tag ∧ ∃ t b, X.rankT t = q ∧ AwaitsReply c X x r t b ∧
      m.data = X.F.ds.blockNodeOffset c.totalBlocks b ∧
      (∀ t' r' b', X.rankT t' = q → AwaitsReply c X x r' t' b' → t' = t ∧ r' = r ∧ b' = b) ∧
      x.wire q r = [m] ∧ x.mail r q = [] := by
  obtain ⟨h1, -⟩ := XferReach.inv hr
  cases h1.chan q with
  | none e1 e2 e3 => rw [e2] at hm; cases hm
  | told t b off s k buf e1 e2 e3 e4 e5 e6 => rw [e4] at hm; cases hm
  | asked t b off s k e1 e2 e3 e4 e5 =>
    have hm' := hm
    rw [e4] at hm'
    split at hm'
    · next hrb =>
      rw [List.mem_singleton] at hm'
      subst hm'
      have ha : x.call t = .waiting ∨ ∃ k, x.call t = .sending k := by
        revert e2
        cases x.call t with
        | sending k => exact fun _ => .inr ⟨k, rfl⟩
        | waiting => exact fun _ => .inl rfl
        | _ => intro e; cases e
      refine ⟨rfl, t, b, e1, ⟨hrb.symm, ⟨off, s, e3⟩, ha⟩, rfl, ?_, ?_, e5 r⟩
      · rintro t' r' b' f1 ⟨f2, ⟨off', s', f3⟩, f4⟩
        have hn : x.call t' ≠ .out := by rcases f4 with f4 | ⟨k, f4⟩ <;> rw [f4] <;> nofun
        have := h1.unique (awaits_ne e2) hn (f1.trans e1.symm)
        subst this
        rw [e3] at f3
        injection f3 with f3
        subst f3
        exact ⟨rfl, f2.symm.trans hrb.symm, rfl⟩
      · rw [e4, if_pos hrb]
    · cases hm'

/-- **C83** What `MPI_Recv` stores in the cache is the block of the file. -/
theorem C83_received (h : Opened fp cc nc val c) (ho : FullOpened c X.F s0)
    (hr : XferReach c X s0.data x) {t b off s k : Nat} {buf : List α} (hc : x.call t = .storing buf)
    (hp : x.st.pc (.user t) = .own b off s (.load k)) : IsFileBlock c val b buf := by
  obtain ⟨wf, hx, -, -, hval⟩ := h.spec
  obtain ⟨-, -, b', off', s', k', g3, -, g5⟩ := (XferReach.inv hr).1.hold t (by rw [hc]; nofun)
  rw [hp] at g3
  injection g3 with g3
  subst g3
  rw [hc] at g5
  exact source_file wf ho hval (load_lt wf hx ho hr hp) g5

/-- **C83** In each process at most one thread is inside of a transfer; so no two threads of a process
are between `MPI_Win_lock` and `MPI_Win_unlock` (which MPI forbids), and no two threads wait for a
message with the same tag from the same process. -/
theorem C83_one_transfer (hr : XferReach c X s0.data x) {t u : Nat} (ht : x.call t ≠ .out)
    (hu : x.call u ≠ .out) (e : X.rankT t = X.rankT u) : t = u :=
  (XferReach.inv hr).1.unique hu ht e

/-- **C83** `MPI_Get` stays inside of the window: a thread between `MPI_Win_lock` and
`MPI_Win_unlock` reads values that the window of the other process contains, and they are those of its
block. -/
theorem C83_window_bounds (h : Opened fp cc nc val c) (ho : FullOpened c X.F s0)
    (hr : XferReach c X s0.data x) {t b off s k : Nat} (hc : x.call t = .epoch)
    (hp : x.st.pc (.user t) = .own b off s (.load k)) :
    X.home c b < X.F.ds.ranks ∧
    ∃ src, winSlice c X.F.ds (s0.data (X.home c b))
      (X.F.ds.blockNodeOffset c.totalBlocks b * c.totalBlockSize) c.totalBlockSize = some src ∧
      src.length = c.totalBlockSize ∧ IsFileBlock c val b src := by
  obtain ⟨wf, hx, -, -, hval⟩ := h.spec
  obtain ⟨-, g2, b', off', s', k', g3, g4, -⟩ := (XferReach.inv hr).1.hold t (by rw [hc]; nofun)
  rw [hp] at g3
  injection g3 with g3
  subst g3
  have hb := load_lt wf hx ho hr hp
  obtain ⟨src, e1, e2, -⟩ := fullSource_spec (ho.static wf) ho.ranks ho.domains ho.reach (ho.rank t) hb
  refine ⟨(Dist.owner_bounds ho.ranks ho.domains hb).1, src, ?_, e2, source_file wf ho hval hb e1⟩
  rw [fullSource_remote g4 g2] at e1
  unfold winSlice
  rw [if_pos (node_le ho.ranks ho.domains hb)]; exact e1

/-- **C83** and C07: the value that a getter returns with the implemented transfers, after any
interleaving with the steps of all other threads of all processes, is the value of the file at the
selected index. -/
theorem C83_value (h : Opened fp cc nc val c) (ho : FullOpened c X.F s0)
    (hr : XferReach c X s0.data x) (t : Nat) (pos : List Dbl) (idx : List Nat)
    (hp : pos2index fp (openAxes fp cc nc) pos = some idx) (hc : XferCalled c X t pos x x1)
    (hd : XferDuring c X s0.data t x1 x2) (v : α) (hv : GetterReturns t x2.st v) : v = val idx := by
  obtain ⟨st', hc, rfl⟩ := hc
  have hd' : XferReach c X s0.data x2 ∧ FullDuring c X.F s0.data t st' x2.st := by
    have hr1 : XferReach c X s0.data { x with st := st' } := .step hr (.call x t pos st' hc)
    clear hv
    induction hd with
    | refl => exact ⟨hr1, .refl _⟩
    | tail _ hs hn ih =>
      obtain ⟨i1, i2⟩ := ih
      refine ⟨.step i1 hs, ?_⟩
      rcases (C83_refines i1).2 _ _ hs with e | e
      · rw [e]; exact i2
      · exact .tail i2 e hn
  exact (C07_concurrent_value h ho (C83_refines hr).1 t pos idx hp).2 _ _ v hc hd'.2 hv

/-- **C83** and C18: getters return. From every reachable state, every execution without new calls
has at most `N` steps, also if `MPI_Send` never buffers a message (`early = false`); and as long as a
thread is inside of a getter, somebody can continue. -/
theorem C83_returns (h : Opened fp cc nc val c) (ho : FullOpened c X.F s0)
    (hr : XferReach c X s0.data x) (early : Bool) :
    ∃ N, ∀ n x', XferQuietRun c X s0.data early n x x' → n ≤ N ∧
      ((∀ x'', ¬ XferQuiet c X s0.data early x' x'') → ∀ t, x'.st.pc (.user t) = .idle) := by
  obtain ⟨wf, hx, -⟩ := h.spec
  have hb : 0 < c.totalBlockSize := by
    rw [wf.tbs]
    refine prod_pos fun y hy => ?_
    obtain ⟨d, hd, rfl⟩ := List.mem_map.1 hy
    exact (wf.geom d hd).1
  obtain ⟨m, hm⟩ := XferReach.pot hb hr
  obtain ⟨N, hN⟩ := C18_full_access_returns h ho (C83_refines hr).1
  refine ⟨m + 8 * N, fun n x' hq => ?_⟩
  obtain ⟨k1, k, m', -, k2, k3⟩ := xferQuietRun_sim hb hr hm hq
  have := (hN _ _ k2).1
  refine ⟨by omega, fun hend t => ?_⟩
  by_contra hn
  obtain ⟨x'', hq'⟩ := Xfer.progress wf hx ho (early := early) k1 hn
  exact hend x'' hq'

/-! Concrete cases: the example file (3 x 5 samples in blocks of 3 x 2), two processes with two
domains each. -/

def exXfer (win : Bool) : XferCfg (List Nat) :=
  { F := { exFullCfg with trans := .full }, win := win, tag := 7 }

theorem exXfer_state {win : Bool} (l : List XferCmd) (f : XferSt (List Nat) → Bool)
    (h : ((fullDistOpen exLevel (exXfer win).F.ds 2 1 [] (fun _ => List.replicate 12 [])).bind fun s0 =>
      (CacheList.init 2 1).bind fun cl =>
      xferExec exLevel (exXfer win) s0.data l (XferSt.start exLevel (exXfer win) cl)).any f = true) :
    ∃ s0, FullOpened exLevel (exXfer win).F s0 ∧
      ∃ x, XferReach exLevel (exXfer win) s0.data x ∧ f x = true := by
  revert h
  generalize hx : Option.bind _ _ = y
  cases y with
  | none => intro h; cases h
  | some y =>
    intro hf
    simp only [Option.bind_eq_some_iff] at hx
    obtain ⟨s0, h0, cl, h1, h2⟩ := hx
    refine ⟨s0, ⟨Nat.zero_lt_succ 1, Nat.zero_lt_succ 1, Nat.zero_lt_succ 1, Int.lt_add_one_of_le (Int.le_refl 1),
      fun t => ?_, .inl rfl, ⟨fun _ => List.replicate 12 [], fun r _ => ?_, h0⟩⟩, y, ?_, hf⟩
    · show t % 4 < 2 * 2
      omega
    · rw [List.length_replicate]
      show 12 = domainSize exLevel exFullCfg.ds * exFullCfg.ds.domains
      decide
    · exact xferExec_reach (.init ⟨cl, h1, rfl⟩) h2

def xsteps (t n : Nat) : List XferCmd := List.replicate n (.user t)

/-- Threads 2 and 3 of process 1 need block 2, which is stored by process 0. Thread 2 has sent the
request; thread 3 waits for the mutex. -/
def exXferAsk : List XferCmd :=
  [.call 2 [.fin 4, .fin 7.5], .call 3 [.fin 4, .fin 7.5]] ++ xsteps 2 9 ++ xsteps 3 6

example : ∃ s0, FullOpened exLevel (exXfer false).F s0 ∧
    ∃ x, XferReach exLevel (exXfer false) s0.data x ∧ AwaitsReply exLevel (exXfer false) x 0 2 2 ∧
    x.wire 1 0 = [⟨7, 1, 0⟩] ∧ x.st.pc (.user 3) = .own 2 2 0 (.load 0) := by
  obtain ⟨s0, ho, x, hr, hc⟩ := exXfer_state (win := false) exXferAsk
    (fun x => match x.st.pc (.user 2), x.st.pc (.user 3), x.call 2 with
      | .own 2 2 0 (.load 0), .own 2 2 0 (.load 0), .waiting => decide (x.wire 1 0 = [⟨7, 1, 0⟩])
      | _, _, _ => false) (by decide +kernel)
  refine ⟨s0, ho, x, hr, ?_⟩
  revert hc
  split
  · next h1 h2 h3 =>
    intro hc
    exact ⟨⟨by decide, ⟨2, 0, h1⟩, .inl h3⟩, of_decide_eq_true hc, h2⟩
  · intro hc; cases hc

/-- The reply is on the way: block 2 of the file, with the values at [0, 4], [1, 4] and [2, 4] in
the first column; the second one is outside the file. -/
example : ∃ s0, FullOpened exLevel (exXfer false).F s0 ∧
    ∃ x, XferReach exLevel (exXfer false) s0.data x ∧ AwaitsReply exLevel (exXfer false) x 0 2 2 ∧
    (x.mail 0 1).map XferRep.buf = [[[0, 4], [1, 4], [1, 4], [], [2, 4], []]] ∧
    x.comm 0 = some (1, 1) := by
  obtain ⟨s0, ho, x, hr, hc⟩ := exXfer_state (win := false) (exXferAsk ++ [.take 0 1])
    (fun x => match x.st.pc (.user 2), x.call 2 with
      | .own 2 2 0 (.load 0), .waiting =>
        decide ((x.mail 0 1).map XferRep.buf = [[[0, 4], [1, 4], [1, 4], [], [2, 4], []]] ∧
          x.comm 0 = some (1, 1))
      | _, _ => false) (by decide +kernel)
  refine ⟨s0, ho, x, hr, ?_⟩
  revert hc
  split
  · next h1 h3 =>
    intro hc
    exact ⟨⟨by decide, ⟨2, 0, h1⟩, .inl h3⟩, of_decide_eq_true hc⟩
  · intro hc; cases hc

/-- Thread 2 has received half of the block. -/
example : ∃ s0, FullOpened exLevel (exXfer false).F s0 ∧
    ∃ x, XferReach exLevel (exXfer false) s0.data x ∧
    ∃ buf, x.call 2 = .storing buf ∧ x.st.pc (.user 2) = .own 2 2 0 (.load 3) := by
  obtain ⟨s0, ho, x, hr, hc⟩ := exXfer_state (win := false) (exXferAsk ++ [.take 0 1] ++ xsteps 2 4)
    (fun x => match x.st.pc (.user 2), x.call 2 with
      | .own 2 2 0 (.load 3), .storing _ => true
      | _, _ => false) (by decide +kernel)
  refine ⟨s0, ho, x, hr, ?_⟩
  revert hc
  split
  · next h1 h3 => intro _; exact ⟨_, h3, h1⟩
  · intro hc; cases hc

/-- Thread 2 returns the value at [1, 4]; then thread 3 asks. -/
example : ∃ s0, FullOpened exLevel (exXfer false).F s0 ∧
    ∃ x, XferReach exLevel (exXfer false) s0.data x ∧ GetterReturns 2 x.st [1, 4] ∧
    AwaitsReply exLevel (exXfer false) x 0 3 2 := by
  obtain ⟨s0, ho, x, hr, hc⟩ := exXfer_state (win := false)
    (exXferAsk ++ [.take 0 1] ++ xsteps 2 11 ++ xsteps 3 3)
    (fun x => match x.st.pc (.user 2), x.st.pc (.user 3), x.call 3 with
      | .own 2 2 0 (.out v), .own 2 2 0 (.load 0), .waiting => decide (v = [1, 4])
      | _, _, _ => false) (by decide +kernel)
  refine ⟨s0, ho, x, hr, ?_⟩
  revert hc
  split
  · next h1 h2 h3 =>
    intro hc
    rw [of_decide_eq_true hc] at h1
    exact ⟨⟨_, _, _, h1⟩, ⟨by decide, ⟨2, 0, h2⟩, .inl h3⟩⟩
  · intro hc; cases hc

/-- With windows: thread 2 has stored half of the block; later it returns the value at [1, 4]. -/
example : ∃ s0, FullOpened exLevel (exXfer true).F s0 ∧
    ∃ x, XferReach exLevel (exXfer true) s0.data x ∧ x.call 2 = .epoch ∧
    x.st.pc (.user 2) = .own 2 2 0 (.load 3) ∧ x.mx 1 = some 2 := by
  obtain ⟨s0, ho, x, hr, hc⟩ := exXfer_state (win := true)
    ([.call 2 [.fin 4, .fin 7.5], .call 3 [.fin 4, .fin 7.5]] ++ xsteps 3 6 ++ xsteps 2 11)
    (fun x => match x.st.pc (.user 2), x.call 2 with
      | .own 2 2 0 (.load 3), .epoch => decide (x.mx 1 = some 2)
      | _, _ => false) (by decide +kernel)
  refine ⟨s0, ho, x, hr, ?_⟩
  revert hc
  split
  · next h1 h2 => intro hc; exact ⟨h2, h1, of_decide_eq_true hc⟩
  · intro hc; cases hc

example : ∃ s0, FullOpened exLevel (exXfer true).F s0 ∧
    ∃ x, XferReach exLevel (exXfer true) s0.data x ∧ GetterReturns 2 x.st [1, 4] := by
  obtain ⟨s0, ho, x, hr, hc⟩ := exXfer_state (win := true)
    ([.call 2 [.fin 4, .fin 7.5], .call 3 [.fin 4, .fin 7.5]] ++ xsteps 3 6 ++ xsteps 2 19)
    (fun x => match x.st.pc (.user 2) with
      | .own 2 2 0 (.out v) => decide (v = [1, 4])
      | _ => false) (by decide +kernel)
  refine ⟨s0, ho, x, hr, ?_⟩
  revert hc
  split
  · next h1 => intro hc; rw [of_decide_eq_true hc] at h1; exact ⟨_, _, _, h1⟩
  · intro hc; cases hc

end Asagi.Props
