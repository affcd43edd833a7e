import Verif.Proofs.ManyCommOnly
import Verif.Proofs.ManyCommRun
import Verif.Props.ManyLevels
/-
C88: several grids use the communication threads at the same time.
-/
namespace Asagi.Props
open Asagi Asagi.Spec
variable {α : Type} {G : ManyComm α} {f : Nat → OpenedFile α}

/-- **C88** The communication threads do not mix up the grids: whatever the threads and communication threads do for
the other grids, the states of a grid are those it can reach when it is used alone, with a communication thread of its
own. All properties of the states of one grid (C82, C83, C60, ...) hold. -/
theorem C88_level {s : G.St} (h : ManyCommReach G s) (i : Nat) :
    _root_.Asagi.Reachable (G.L i).start (G.L i).step (s.lv i) := comm_level h i

/-- **C88** The value that a getter of a grid returns is the value of the file of this grid at the index of the
position, after any interleaving with the steps of all threads and communication threads for all grids. -/
theorem C88_value (hG : ProperGrids G f) {s s1 s2 : G.St} (h : ManyCommReach G s) (i t : Nat) (hi : i < G.n)
    (pos : List Dbl) (idx : List Nat) (hp : pos2index (f i).fp (openAxes (f i).fp (f i).cc (f i).nc) pos = some idx)
    (hs : ManyCommStep G true s s1) (hc : (G.L i).called t pos (s.lv i) (s1.lv i)) (hd : CommDuring G i t s1 s2) (v : α)
    (hv : (G.L i).returns t (s2.lv i) v) : v = (f i).val idx := by
  have hg := good_comm (hG.level i hi)
  have hst : (G.L i).step (s.lv i) (s1.lv i) ∨ s1.lv i = s.lv i := by
    cases hs with
    | level j x net' hj hst =>
      by_cases e : i = j
      · subst e; rw [lv_self]; exact .inl hst
      · rw [lv_ne _ e]; exact .inr rfl
  rcases hst with hst | e
  · exact hg.value _ _ _ t pos idx v (comm_level h i) hst hc (many_during (comm_during hd)) hv hp
  · exact (not_called (hG.level i hi) (e ▸ hc)).elim
where
  not_called {rank : Nat → Nat} {g : OpenedFile α} {L : CommSys α} (h : ProperComm rank g L) {t : Nat}
      {pos : List Dbl} {x : L.S} (hc : L.called t pos x x) : False := by
    have key : ∀ st : DistState α, ∀ b off, st.pc (.user t) = .idle →
        st = { st with pc := upd st.pc (.user t) (.wantCm b off) } → False := by
      intro st b off h1 h2
      have h3 := congrArg (fun y => DistState.pc y (.user t)) h2
      dsimp only at h3
      rw [upd_self, h1] at h3; cases h3
    induction h with
    | other L hL => exact C85_value.not_called hL hc
    | full c X s0 =>
      obtain ⟨st', ⟨idx, -, -, h1, h2⟩, h3⟩ := hc
      have h4 : x.st = st' := congrArg XferSt.st h3
      rw [← h4] at h2
      exact key _ _ _ h1 h2
    | cache c S C =>
      obtain ⟨st', ⟨idx, -, h1, h2⟩, h3⟩ := hc
      have h4 : x.st = st' := congrArg MsgSt.st h3
      rw [← h4] at h2
      exact key _ _ _ h1 h2
    | some L R rank' team _ _ _ ih => exact ih hc

/-- **C88** A thread is inside of one getter at a time, and of the threads of a process one at most is inside of the
MPI library (with THREADSAFE_MPI) and one inside of the netCDF library, over all grids. -/
theorem C88_one_user (hG : ProperGrids G f) {s : G.St} (h : ManyCommReach G s) :
    (∀ t i j, i < G.n → j < G.n → (G.L i).busy (s.lv i) t → (G.L j).busy (s.lv j) t → i = j) ∧
    ∀ k t u i j, i < G.n → j < G.n → CommInLibrary k (G.L i) (s.lv i) t → CommInLibrary k (G.L j) (s.lv j) u →
      G.rank t = G.rank u → t = u ∧ i = j := by
  have := many_excl (G := G.many) (fun i hi => (good_comm (hG.level i hi)).toSafe) (comm_reach h)
  exact ⟨this.1, fun k t u i j hi hj h1 h2 => this.2 k t u i j hi hj (commInLibrary_uses h1 (comm_level h i))
    (commInLibrary_uses h2 (comm_level h j))⟩

/-- **C88** The communication thread of a process works for one grid at a time. -/
theorem C88_one_service (hG : ProperGrids G f) {s : G.St} (h : ManyCommReach G s) (r i j : Nat) (hi : i < G.n) (hj : j < G.n)
    (h1 : InRecv (G.L i) (s.lv i) r) (h2 : InRecv (G.L j) (s.lv j) r) : i = j :=
  comm_serving (fun i hi => good_comm (hG.level i hi)) h r i j hi hj (inRecv_serving h1) (inRecv_serving h2)

/-- **C88** No message is lost, no message reaches another grid than the one that has sent it, and the messages of a
grid from one process to another one stay in order: of the messages on the way, those with tags of a grid are the ones
that this grid has sent and not yet received, and there are no others. -/
theorem C88_delivered (hG : ProperGrids G f) {s : G.St} (h : ManyCommReach G s) (q r : Nat) :
    (∀ i l, i < G.n → OnTheWay (G.L i) (s.lv i) q r l →
      (s.net q r).filter (fun tag => decide (G.owner r tag = some i)) = l) ∧
    ∀ tag ∈ s.net q r, ∃ j, j < G.n ∧ G.owner r tag = some j := by
  have := comm_net (fun i hi => good_comm (hG.level i hi)) hG.owner h q r
  exact ⟨fun i l hi hl => (this.1 i hi).trans (onTheWay_inbox hl), this.2⟩

/-- **C88** The grids cannot block each other: as long as a thread is inside of a getter of any grid, some thread or
communication thread can continue without a new call, even if MPI does not buffer messages. -/
theorem C88_no_deadlock (hG : ProperGrids G f) {s : G.St} (h : ManyCommReach G s) (t : Nat) (ht : CommBusy G s t)
    (early : Bool) : ∃ s', CommQuiet G early s s' ∧
      (early = false → ∀ i, i < G.n → s'.lv i = s.lv i ∨ UnbufferedStep (G.L i) (s.lv i) (s'.lv i)) := by
  obtain ⟨s', hs⟩ := comm_progress (fun i hi => good_comm (hG.level i hi)) hG.owner h ht early
  refine ⟨s', hs, fun he i hi => ?_⟩
  cases hs.1 with
  | level j x net' hj hst =>
    by_cases e : i = j
    · subst e
      rw [lv_self, he] at *
      exact .inr (unbuffered (hG.level i hi) hst)
    · rw [lv_ne _ e]; exact .inl rfl
where
  unbuffered {rank : Nat → Nat} {g : OpenedFile α} {L : CommSys α} (h : ProperComm rank g L) {x x' : L.S}
      (hs : L.stepIf false x x') : UnbufferedStep L x x' := by
    induction h with
    | other L hL => exact .other L _ _ hs
    | full c X s0 => exact .full c X _ _ _ hs
    | cache c S C => exact .cache c C _ _ hs
    | some L R rank' team _ _ _ ih => exact .only _ _ _ _ (.translate _ _ _ _ (ih hs.1))

/-- **C88** Every access returns, unless requests for blocks of CACHE grids are refused again and again (C49): from each
state, an execution without new calls in which `k` requests are refused has at most `N + k * K` steps, and when it
cannot be continued, no thread is inside of a getter. -/
theorem C88_returns (hG : ProperGrids G f) {s : G.St} (h : ManyCommReach G s) :
    ∃ N K, ∀ early n k s', CommQuietRun G early n k s s' → n ≤ N + k * K ∧
      ((∀ s'', ¬ CommQuiet G early s' s'') → ∀ t, ¬ CommBusy G s' t) := by
  have hg : ∀ i, i < G.n → (G.L i).Good (f i) := fun i hi => good_comm (hG.level i hi)
  obtain ⟨N, K, hN⟩ := comm_bound hg h
  refine ⟨N, K, fun early n k s' hr => ⟨hN early n k s' hr, fun hend t ht => ?_⟩⟩
  obtain ⟨s'', hq⟩ := comm_progress hg hG.owner (comm_run_reach hg h hr) ht early
  exact hend s'' hq

/-- **C88** Without CACHE grids that use the communication thread, every access returns: every execution without new
calls has at most `N` steps. -/
theorem C88_every_access_returns (hG : ProperGrids G f)
    (hc : ∀ i, i < G.n → ∀ x x', ¬ (G.L i).refused x x') {s : G.St} (h : ManyCommReach G s) :
    ∃ N, ∀ early n k s', CommQuietRun G early n k s s' → n ≤ N ∧
      ((∀ s'', ¬ CommQuiet G early s' s'') → ∀ t, ¬ CommBusy G s' t) := by
  obtain ⟨N, K, hN⟩ := C88_returns hG h
  refine ⟨N, fun early n k s' hr => ?_⟩
  have hk : k = 0 := by
    cases hr with
    | zero => rfl
    | refused _ _ hf => obtain ⟨i, hi, hf⟩ := hf; exact (hc i hi _ _ hf).elim
    | served hr _ _ => exact none_refused hr
  have := hN early n k s' hr
  rw [hk, Nat.zero_mul, Nat.add_zero] at this
  exact this
where
  none_refused {early : Bool} {n k : Nat} {a b : G.St} (hr : CommQuietRun G early n k a b) : k = 0 := by
    induction hr with
    | zero => rfl
    | served _ _ _ ih => exact ih
    | refused _ _ hf => obtain ⟨i, hi, hf⟩ := hf; exact (hc i hi _ _ hf).elim

/-! ### Three grids

A FULL grid and a CACHE grid with the communication thread and a PASS_THROUGH grid, all with the example file; two
processes with two domains; thread `t` belongs to process `t % 4 / 2`. -/

def exCommMsg : MsgParams (List Nat) :=
  { P := exLevel.shared { exManyShared with mode := .thread }, infoTag := 1, xferTag := 2, addTag := 3, delTag := 4
    tagOffset := 0, doff := fun b => b / 2, blockAt := fun r o => 2 * o + r }

def exComm (data : Nat → Mem (List Nat)) : ManyComm (List Nat) :=
  { n := 3, rank := fun t => t % 4 / 2
    L := fun i => match i with
      | 0 => (exXfer false).commSys exLevel data
      | 1 => exCommMsg.commSys exLevel
      | _ => (passSys exLevel (fun t => t / 4 * 2 + t % 2) (fun t => t < 8 ∧ t % 4 < 2) [[], [], [], []]).noComm
    owner := fun _ tag => if tag = 7 then some 0 else if 1 ≤ tag ∧ tag ≤ 4 then some 1 else none }

theorem exCommMsg_legal : LegalMsg exCommMsg := by
  refine ⟨⟨by show 0 < 2; decide, by show 0 < 2; decide, by show (1 : Int) < (2 : Nat); decide⟩, rfl, by decide, fun b k _ => ?_, rfl⟩
  show 2 * (b / 2) + b % 2 = b
  omega

theorem exComm_proper {s0 : FullDist (List Nat)} (h : FullOpened exLevel (exXfer false).F s0) :
    ProperGrids (exComm s0.data) (fun _ => exManyFile) := by
  constructor
  · intro i hi
    match i with
    | 0 => exact .full exLevel _ s0 exLevel_opened h rfl fun _ => rfl
    | 1 => exact .cache exLevel _ exCommMsg exLevel_opened rfl exCommMsg_legal fun _ => rfl
    | 2 => exact .other _ (exMany_proper 2 (by decide))
    | i + 3 => have : i + 3 < 3 := hi; omega
  · intro i hi r tag ht
    match i with
    | 0 =>
      obtain rfl : tag = 7 := by simpa [exComm, XferCfg.commSys, exXfer] using ht
      rfl
    | 1 =>
      have ht : tag ∈ [1, 2, 3, 4] := ht
      simp at ht
      rcases ht with rfl | rfl | rfl | rfl <;> rfl
    | 2 => cases ht
    | i + 3 => have : i + 3 < 3 := hi; omega

/-! Thread 2 uses the FULL grid, thread 3 the CACHE grid; an interpreter for schedules. -/

structure ExCommSt where
  x : XferSt (List Nat)
  ms : MsgSt (List Nat)
  net : Nat → Nat → List Nat

def ExCommSt.st (e : ExCommSt) (data : Nat → Mem (List Nat)) : (exComm data).St :=
  ⟨fun i => match i with
    | 0 => e.x
    | 1 => e.ms
    | _ + 2 => PassState.start [[], [], [], []], e.net⟩

/-- The messages after a step, from those of the level before and after it. -/
def netAfter (l l' w : List Nat) : List Nat :=
  if l' = l then w else if l.length < l'.length then w ++ l'.drop l.length else w.tail

def exNet (net : Nat → Nat → List Nat) (w w' : Nat → Nat → List Msg) (q r : Nat) : List Nat :=
  netAfter ((w q r).map Msg.tag) ((w' q r).map Msg.tag) (net q r)

/-- The communication thread of process `r` has nothing to do and the oldest message of process `src` is the one that
level `i` expects. -/
def exFree (i : Nat) (e : ExCommSt) (r src : Nat) (w : List Msg) : Bool :=
  (match e.x.comm r, e.ms.st.pc (.comm r), e.ms.wait r with
    | none, .idle, none => true
    | _, _, _ => false) &&
  match e.net src r, w.map Msg.tag with
  | a :: _, b :: _ => decide (a = b ∧ (exComm (fun _ => [])).owner r a = some i)
  | _, _ => false

inductive ExCommCmd where
  | full (a : XferCmd)
  | cache (a : MsgCmd)

/-- Threads 2 and 3 call getters for value 2 of block 2, and communication threads take messages they may take. -/
def ExCommCmd.ok (e : ExCommSt) : ExCommCmd → Bool
  | .full (.take r src) => exFree 0 e r src (e.x.wire src r)
  | .full (.call t _) => decide (t = 2)
  | .full (.user t) => decide (t = 2)
  | .full (.answered _) => true
  | .cache (.take r src _) => exFree 1 e r src (e.ms.wire src r)
  | .cache (.call t b off) => decide (t = 3 ∧ b = 2 ∧ off = 2)
  | .cache (.user t _) => decide (t = 3)
  | .cache (.comm _) => true

def ExCommCmd.exec (data : Nat → Mem (List Nat)) (e : ExCommSt) (a : ExCommCmd) : Option ExCommSt :=
  if a.ok e = true then
    match a with
    | .full a =>
      (a.exec exLevel (exXfer false) data e.x).map fun x' => { e with x := x', net := exNet e.net e.x.wire x'.wire }
    | .cache a => (a.exec exCommMsg e.ms).map fun ms' => { e with ms := ms', net := exNet e.net e.ms.wire ms'.wire }
  else none

def Pc.isIdle : Pc (List Nat) → Bool
  | .idle => true
  | _ => false

/-- A schedule; with `keep`, both threads stay inside of their getters. -/
def exCommRun (data : Nat → Mem (List Nat)) (keep : Bool) : List ExCommCmd → ExCommSt → Option ExCommSt
  | [], e => some e
  | a :: l, e => (a.exec data e).bind fun e' =>
    if keep = false ∨ (Pc.isIdle (e'.x.st.pc (.user 2)) = false ∧ Pc.isIdle (e'.ms.st.pc (.user 3)) = false) then
      exCommRun data keep l e' else none

/-- The other threads do nothing. -/
structure ExCommOk (e : ExCommSt) : Prop where
  x : ∀ u, u ≠ 2 → e.x.st.pc (.user u) = .idle
  ms : ∀ u, u ≠ 3 → e.ms.st.pc (.user u) = .idle

theorem exNet_grows {owner : Nat → Option Nat} {i : Nat} {fr : Nat → Prop} {net : Nat → Nat → List Nat}
    {w w' : Nat → Nat → List Msg} (h : WireGrows w w') (q r : Nat) :
    NetStep owner i (fr r) ((w q r).map Msg.tag) ((w' q r).map Msg.tag) (net q r) (exNet net w w' q r) := by
  unfold exNet
  rcases h with rfl | ⟨q', r', m, rfl⟩
  · rw [netAfter, if_pos rfl]; exact .none _ _
  · by_cases e : q = q' ∧ r = r'
    · obtain ⟨rfl, rfl⟩ := e
      rw [upd_self, upd_self, List.map_append, netAfter, if_neg (by simp), if_pos (by simp), List.drop_left]
      exact .send _ _ _
    · have : upd w q' (upd (w q') r' (w q' r' ++ [m])) q r = w q r := by
        rw [upd_apply]
        split
        · next h1 => subst h1; rw [upd_ne _ _ (fun h2 => e ⟨rfl, h2⟩)]
        · rfl
      rw [this, netAfter, if_pos rfl]; exact .none _ _

theorem exNet_take {owner : Nat → Option Nat} {i : Nat} {fr : Nat → Prop} {net : Nat → Nat → List Nat}
    {w : Nat → Nat → List Msg} {src dst : Nat} {m : Msg} {rest : List Msg} (hm : w src dst = m :: rest)
    (hn : ∃ l, net src dst = m.tag :: l) (ho : owner m.tag = some i) (hf : fr dst) (q r : Nat) :
    NetStep owner i (fr r) ((w q r).map Msg.tag) ((upd w src (upd (w src) dst rest) q r).map Msg.tag) (net q r)
      (exNet net w (upd w src (upd (w src) dst rest)) q r) := by
  unfold exNet
  by_cases e : q = src ∧ r = dst
  · obtain ⟨rfl, rfl⟩ := e
    obtain ⟨l, hl⟩ := hn
    rw [upd_self, upd_self, hm, hl, List.map_cons, netAfter, if_neg (by simp), if_neg (by simp), List.tail_cons]
    exact .recv _ _ _ ho hf
  · have : upd w src (upd (w src) dst rest) q r = w q r := by
      rw [upd_apply]
      split
      · next h1 => subst h1; rw [upd_ne _ _ (fun h2 => e ⟨rfl, h2⟩)]
      · rfl
    rw [this, netAfter, if_pos rfl]; exact .none _ _

theorem exFree_spec {i : Nat} {e : ExCommSt} {r src : Nat} {w : List Msg} {m : Msg} {rest : List Msg} (hw : w = m :: rest)
    (h : exFree i e r src w = true) (data : Nat → Mem (List Nat)) :
    (∀ j, j < (exComm data).n → ¬ ((exComm data).L j).serving ((e.st data).lv j) r) ∧
    (∃ l, e.net src r = m.tag :: l) ∧ (exComm data).owner r m.tag = some i := by
  simp only [exFree, Bool.and_eq_true] at h
  obtain ⟨h1, h2⟩ := h
  subst hw
  constructor
  · revert h1
    split
    · next a1 a2 a3 =>
      intro _ j hj
      match j with
      | 0 => exact fun h => h a1
      | 1 => exact fun h => h.elim (fun h => h a2) fun h => h a3
      | 2 => exact id
      | j + 3 => have : j + 3 < 3 := hj; omega
    · intro h; cases h
  · revert h2
    split
    · next a l b l' ha hb =>
      intro h
      have h' := of_decide_eq_true h
      rw [List.map_cons] at hb
      injection hb with hb
      rw [hb, ← h'.1]
      exact ⟨⟨_, ha⟩, h'.2⟩
    · intro h; cases h

theorem exComm_inside : exCommMsg.P.inside 2 2 :=
  ⟨[1, 4], rfl, by
    intro n i x h1 h2
    match n with
    | 0 => cases h1; cases h2; decide
    | 1 => cases h1; cases h2; decide
    | n + 2 => simp [exLevel] at h1, by decide, by decide⟩

theorem exComm_exec {data : Nat → Mem (List Nat)} {a : ExCommCmd} {e e' : ExCommSt} (hk : ExCommOk e)
    (h : a.exec data e = some e') : ExCommOk e' ∧ ManyCommStep (exComm data) true (e.st data) (e'.st data) := by
  have hpass : ∀ t, ¬ ((exComm data).L 2).busy ((e.st data).lv 2) t := fun t h => h rfl
  unfold ExCommCmd.exec at h
  split at h
  · next hf =>
    split at h
    · next a =>
      · have ha : a.thread = none ∨ a.thread = some 2 := by
          cases a with
          | call t pos => exact .inr (congrArg some (of_decide_eq_true hf))
          | user t => exact .inr (congrArg some (of_decide_eq_true hf))
          | take => exact .inl rfl
          | answered => exact .inl rfl
        simp only [Option.map_eq_some_iff] at h
        obtain ⟨x', hx, rfl⟩ := h
        have hoth : ∀ u, u ≠ 2 → x'.st.pc (.user u) = .idle := by
          intro u hu
          rw [xferCmd_other hx (u := u), hk.x u hu]
          rcases ha with ha | ha <;> rw [ha]
          · nofun
          · intro h; injection h with h; exact hu h.symm
        refine ⟨⟨hoth, hk.ms⟩, ?_⟩
        have hst := ManyCommStep.level (G := exComm data) (early := true) (e.st data) 0 x'
          (exNet e.net e.x.wire x'.wire) (by show 0 < 3; decide) (XferCmd.exec_sound hx) ?_ ?_ ?_
        · convert hst using 1
          unfold ExCommSt.st
          congr 1
          funext i
          match i with
          | 0 => rfl
          | 1 => rfl
          | i + 2 => rfl
        · intro t ht hn j hj
          have ht2 : t = 2 := by
            by_contra hne
            exact ht (hoth t hne)
          subst ht2
          match j with
          | 0 => exact hn
          | 1 => exact fun h => h (hk.ms 2 (by decide))
          | 2 => exact hpass 2
          | j + 3 => have : j + 3 < 3 := hj; omega
        · intro k t ht
          cases k with
          | mpi => cases ht.1
          | netcdf => exact ht.elim
        · intro q r
          rcases xferCmd_wire hx with hw | ⟨r', src, m, rest, rfl, -, hm, hw⟩
          · exact exNet_grows (fr := fun r => ∀ j, j < (exComm data).n → ¬ ((exComm data).L j).serving ((e.st data).lv j) r) hw q r
          · obtain ⟨h1, h2, h3⟩ := exFree_spec hm hf data
            have := exNet_take (fr := fun r => ∀ j, j < (exComm data).n → ¬ ((exComm data).L j).serving ((e.st data).lv j) r) hm h2 h3 h1 q r
            rw [← hw] at this
            exact this
    · next a =>
      · have ha : a.thread = none ∨ a.thread = some 3 := by
          cases a with
          | call t b off => exact .inr (congrArg some (of_decide_eq_true hf).1)
          | user t => exact .inr (congrArg some (of_decide_eq_true hf))
          | take => exact .inl rfl
          | comm => exact .inl rfl
        simp only [Option.map_eq_some_iff] at h
        obtain ⟨x', hx, rfl⟩ := h
        have hoth : ∀ u, u ≠ 3 → x'.st.pc (.user u) = .idle := by
          intro u hu
          rw [msgCmd_other hx (u := u), hk.ms u hu]
          rcases ha with ha | ha <;> rw [ha]
          · nofun
          · intro h; injection h with h; exact hu h.symm
        refine ⟨⟨hk.x, hoth⟩, ?_⟩
        have hst := ManyCommStep.level (G := exComm data) (early := true) (e.st data) 1 x'
          (exNet e.net e.ms.wire x'.wire) (by show 1 < 3; decide) (MsgCmd.exec_step (fun t b off hc => by
            subst hc
            obtain ⟨-, rfl, rfl⟩ := of_decide_eq_true hf
            exact exComm_inside) hx) ?_ ?_ ?_
        · convert hst using 1
          unfold ExCommSt.st
          congr 1
          funext i
          match i with
          | 0 => rfl
          | 1 => rfl
          | i + 2 => rfl
        · intro t ht hn j hj
          have ht2 : t = 3 := by
            by_contra hne
            exact ht (hoth t hne)
          subst ht2
          match j with
          | 0 => exact fun h => h (hk.x 3 (by decide))
          | 1 => exact hn
          | 2 => exact hpass 3
          | j + 3 => have : j + 3 < 3 := hj; omega
        · intro k t ht hn j u hj _
          cases k with
          | mpi => exact ht.elim
          | netcdf =>
            have ht2 : t = 3 := by
              by_contra hne
              have ht : (x'.st.pc (.user t)).reading := ht
              rw [hoth t hne] at ht
              exact ht
            subst ht2
            match j with
            | 0 => exact id
            | 1 =>
              intro hu
              by_cases hne : u = 3
              · subst hne; exact hn hu
              · have hu : (e.ms.st.pc (.user u)).reading := hu
                rw [hk.ms u hne] at hu
                exact hu
            | 2 => exact nofun
            | j + 3 => have : j + 3 < 3 := hj; omega
        · intro q r
          rcases msgCmd_wire hx with hw | ⟨r', src, rnd, m, rest, rfl, -, -, hm, hw⟩
          · exact exNet_grows (fr := fun r => ∀ j, j < (exComm data).n → ¬ ((exComm data).L j).serving ((e.st data).lv j) r) hw q r
          · obtain ⟨h1, h2, h3⟩ := exFree_spec hm hf data
            have := exNet_take (fr := fun r => ∀ j, j < (exComm data).n → ¬ ((exComm data).L j).serving ((e.st data).lv j) r) hm h2 h3 h1 q r
            rw [← hw] at this
            exact this
  · cases h

theorem exCommRun_spec {data : Nat → Mem (List Nat)} {keep : Bool} {l : List ExCommCmd} {e e' : ExCommSt} (hk : ExCommOk e)
    (h : exCommRun data keep l e = some e') : ExCommOk e' ∧
      (ManyCommReach (exComm data) (e.st data) → ManyCommReach (exComm data) (e'.st data)) ∧
      (keep = true → ∀ s, CommDuring (exComm data) 0 2 s (e.st data) → CommDuring (exComm data) 0 2 s (e'.st data)) ∧
      (keep = true → ∀ s, CommDuring (exComm data) 1 3 s (e.st data) → CommDuring (exComm data) 1 3 s (e'.st data)) := by
  induction l generalizing e with
  | nil => cases h; exact ⟨hk, id, fun _ _ => id, fun _ _ => id⟩
  | cons a l ih =>
    simp only [exCommRun, Option.bind_eq_some_iff] at h
    obtain ⟨e1, h1, h2⟩ := h
    obtain ⟨hk1, hs⟩ := exComm_exec hk h1
    split at h2
    · next hb =>
      obtain ⟨h3, h4, h5, h6⟩ := ih hk1 h2
      have hbusy : keep = true → e1.x.st.pc (.user 2) ≠ .idle ∧ e1.ms.st.pc (.user 3) ≠ .idle := by
        intro hkp
        rcases hb with hb | hb
        · rw [hkp] at hb; cases hb
        · constructor <;> intro h0 <;> simp [h0, Pc.isIdle] at hb
      exact ⟨h3, fun h => h4 (.step h hs), fun hkp s h => h5 hkp s (.tail h hs (hbusy hkp).1),
        fun hkp s h => h6 hkp s (.tail h hs (hbusy hkp).2)⟩
    · cases h2

def exCommStart (cl : CacheList) : ExCommSt := ⟨XferSt.start exLevel (exXfer false) cl, MsgSt.start exCommMsg cl, fun _ _ => []⟩

/-- Thread 3 has called the getter of the CACHE grid, thread 2 calls the one of the FULL grid; then the schedule `l`. -/
theorem exComm_state (l : List ExCommCmd) (g : ExCommSt → Bool)
    (h : ((fullDistOpen exLevel (exXfer false).F.ds 2 1 [] (fun _ => List.replicate 12 [])).bind fun s0 =>
      (CacheList.init 2 1).bind fun cl =>
      (exCommRun s0.data false [.cache (.call 3 2 2)] (exCommStart cl)).bind fun e =>
      (ExCommCmd.exec s0.data e (.full (.call 2 exManyPos))).bind fun e1 => exCommRun s0.data true l e1).any g = true) :
    ∃ s0, FullOpened exLevel (exXfer false).F s0 ∧ ∃ e e1 e2 : ExCommSt, ManyCommReach (exComm s0.data) (e.st s0.data) ∧
      ManyCommStep (exComm s0.data) true (e.st s0.data) (e1.st s0.data) ∧
      XferCalled exLevel (exXfer false) 2 exManyPos e.x e1.x ∧
      CommDuring (exComm s0.data) 0 2 (e1.st s0.data) (e2.st s0.data) ∧
      CommDuring (exComm s0.data) 1 3 (e1.st s0.data) (e2.st s0.data) ∧
      ManyCommReach (exComm s0.data) (e2.st s0.data) ∧ g e2 = true := by
  revert h
  generalize hx : Option.bind _ _ = y
  cases y with
  | none => intro h; cases h
  | some y =>
    intro hf
    simp only [Option.bind_eq_some_iff] at hx
    obtain ⟨s0, h0, cl, hcl, e, h1, e1, h2, h3⟩ := hx
    have hk0 : ExCommOk (exCommStart cl) := ⟨fun _ _ => rfl, fun _ _ => rfl⟩
    have hr0 : ManyCommReach (exComm s0.data) ((exCommStart cl).st s0.data) := by
      refine .init ⟨fun i => ?_, fun _ _ => rfl⟩
      match i with
      | 0 => exact ⟨cl, hcl, rfl⟩
      | 1 => exact ⟨cl, hcl, rfl⟩
      | i + 2 => exact rfl
    obtain ⟨hk1, hr1, -⟩ := exCommRun_spec hk0 h1
    obtain ⟨hk2, hs⟩ := exComm_exec hk1 h2
    obtain ⟨hk3, hr3, hd, hd'⟩ := exCommRun_spec hk2 h3
    refine ⟨s0, ⟨Nat.zero_lt_succ 1, Nat.zero_lt_succ 1, Nat.zero_lt_succ 1, Int.lt_add_one_of_le (Int.le_refl 1),
      fun t => ?_, .inl rfl, ⟨fun _ => List.replicate 12 [], fun r _ => ?_, h0⟩⟩, e, e1, y, hr1 hr0, hs, ?_,
      hd rfl _ (.refl _), hd' rfl _ (.refl _), hr3 (.step (hr1 hr0) hs), hf⟩
    · show t % 4 < 2 * 2
      omega
    · rw [List.length_replicate]
      show 12 = domainSize exLevel exFullCfg.ds * exFullCfg.ds.domains
      decide
    · unfold ExCommCmd.exec at h2
      rw [if_pos (by rfl)] at h2
      simp only [XferCmd.exec, Option.map_eq_some_iff] at h2
      obtain ⟨x', ⟨st', h4, rfl⟩, rfl⟩ := h2
      exact ⟨st', fullCall_sound h4, rfl⟩

def exCommF (n : Nat) : List ExCommCmd := List.replicate n (.full (.user 2))
def exCommC (n : Nat) : List ExCommCmd := List.replicate n (.cache (.user 3 0))

/-- The requests of both grids are on the way from process 1 to process 0. -/
def exCommAsk : List ExCommCmd := exCommF 9 ++ exCommC 7

example : ∃ s0, FullOpened exLevel (exXfer false).F s0 ∧ ∃ s, ManyCommReach (exComm s0.data) s ∧ s.net 1 0 = [7, 1] ∧
    OnTheWay ((exComm s0.data).L 0) (s.lv 0) 1 0 [7] ∧ OnTheWay ((exComm s0.data).L 1) (s.lv 1) 1 0 [1] ∧
    CommBusy (exComm s0.data) s 2 ∧ CommBusy (exComm s0.data) s 3 := by
  obtain ⟨s0, ho, e, e1, e2, -, -, -, -, -, hr, hc⟩ := exComm_state exCommAsk
    (fun e => decide (e.net 1 0 = [7, 1] ∧ (e.x.wire 1 0).map Msg.tag = [7] ∧ (e.ms.wire 1 0).map Msg.tag = [1] ∧
      Pc.isIdle (e.x.st.pc (.user 2)) = false ∧ Pc.isIdle (e.ms.st.pc (.user 3)) = false)) (by decide +kernel)
  obtain ⟨h1, h2, h3, h4, h5⟩ := of_decide_eq_true hc
  refine ⟨s0, ho, _, hr, h1, h2 ▸ .full exLevel (exXfer false) s0.data e2.x 1 0, h3 ▸ .cache exLevel exCommMsg e2.ms 1 0, ⟨0, by show 0 < 3; decide, fun h => ?_⟩, ⟨1, by show 1 < 3; decide, fun h => ?_⟩⟩
  · rw [show e2.x.st.pc (.user 2) = .idle from h] at h4; cases h4
  · rw [show e2.ms.st.pc (.user 3) = .idle from h] at h5; cases h5

/-- The communication thread of process 0 works for the FULL grid; the message of the CACHE grid waits. -/
example : ∃ s0, FullOpened exLevel (exXfer false).F s0 ∧ ∃ s, ManyCommReach (exComm s0.data) s ∧ s.net 1 0 = [1] ∧
    InRecv ((exComm s0.data).L 0) (s.lv 0) 0 ∧ OnTheWay ((exComm s0.data).L 1) (s.lv 1) 1 0 [1] := by
  obtain ⟨s0, ho, e, e1, e2, -, -, -, -, -, hr, hc⟩ := exComm_state (exCommAsk ++ [.full (.take 0 1)])
    (fun e => decide (e.net 1 0 = [1] ∧ (e.x.comm 0).isSome = true ∧ (e.ms.wire 1 0).map Msg.tag = [1])) (by decide +kernel)
  obtain ⟨h1, h2, h3⟩ := of_decide_eq_true hc
  refine ⟨s0, ho, _, hr, h1, .full exLevel (exXfer false) s0.data e2.x 0 fun h => ?_, h3 ▸ .cache exLevel exCommMsg e2.ms 1 0⟩
  rw [h] at h2; cases h2

/-- Both threads return the value at [1, 4]; the update of the directory of the CACHE grid is on the way. -/
example : ∃ s0, FullOpened exLevel (exXfer false).F s0 ∧ ∃ s s1 s2 : (exComm s0.data).St, ManyCommReach (exComm s0.data) s ∧
    pos2index .exact (openAxes .exact false exFile) exManyPos = some [1, 4] ∧
    ManyCommStep (exComm s0.data) true s s1 ∧ ((exComm s0.data).L 0).called 2 exManyPos (s.lv 0) (s1.lv 0) ∧
    CommDuring (exComm s0.data) 0 2 s1 s2 ∧ ((exComm s0.data).L 0).returns 2 (s2.lv 0) [1, 4] ∧
    CommDuring (exComm s0.data) 1 3 s1 s2 ∧ ((exComm s0.data).L 1).returns 3 (s2.lv 1) [1, 4] ∧ s2.net 1 0 = [3] := by
  obtain ⟨s0, ho, e, e1, e2, hr, hs, hcl, hd, hd', -, hc⟩ := exComm_state (exCommAsk ++ [.full (.take 0 1)] ++ exCommF 11 ++
      [.full (.answered 0), .cache (.take 0 1 0), .cache (.comm 0)] ++ exCommC 12)
    (fun e => match e.x.st.pc (.user 2), e.ms.st.pc (.user 3) with
      | .own _ _ _ (.out v), .own _ _ _ (.out v') => decide (v = [1, 4] ∧ v' = [1, 4] ∧ e.net 1 0 = [3])
      | _, _ => false) (by decide +kernel)
  refine ⟨s0, ho, _, _, _, hr, by decide +kernel, hs, hcl, hd, ?_⟩
  revert hc
  split
  · next h1 h2 =>
    intro hc
    obtain ⟨rfl, rfl, h3⟩ := of_decide_eq_true hc
    exact ⟨⟨_, _, _, h1⟩, hd', ⟨_, _, _, h2⟩, h3⟩
  · intro hc; cases hc

/-- Without the CACHE grid: nothing is refused. -/
def exCommNo (data : Nat → Mem (List Nat)) : ManyComm (List Nat) :=
  { n := 2, rank := fun t => t % 4 / 2
    L := fun i => match i with
      | 0 => (exXfer false).commSys exLevel data
      | _ => (passSys exLevel (fun t => t / 4 * 2 + t % 2) (fun t => t < 8 ∧ t % 4 < 2) [[], [], [], []]).noComm
    owner := fun _ tag => if tag = 7 then some 0 else none }

example : ∃ s0, FullOpened exLevel (exXfer false).F s0 ∧ ProperGrids (exCommNo s0.data) (fun _ => exManyFile) ∧
    (∀ i, i < (exCommNo s0.data).n → ∀ x x', ¬ ((exCommNo s0.data).L i).refused x x') ∧
    ∃ s, ManyCommReach (exCommNo s0.data) s := by
  obtain ⟨s0, ho, x, hx, -⟩ := exXfer_state (win := false) [] (fun _ => true) (by decide +kernel)
  refine ⟨s0, ho, ⟨fun i hi => ?_, fun i hi r tag ht => ?_⟩, fun i hi x x' => ?_, ?_⟩
  · match i with
    | 0 => exact .full exLevel _ s0 exLevel_opened ho rfl fun _ => rfl
    | 1 => exact .other _ (exMany_proper 2 (by decide))
    | i + 2 => have : i + 2 < 2 := hi; omega
  · match i with
    | 0 =>
      obtain rfl : tag = 7 := by simpa [exCommNo, XferCfg.commSys, exXfer] using ht
      rfl
    | 1 => cases ht
    | i + 2 => have : i + 2 < 2 := hi; omega
  · match i with
    | 0 => exact id
    | 1 => exact id
    | i + 2 => have : i + 2 < 2 := hi; omega
  · obtain ⟨l, hl⟩ : ∃ l, CacheList.init 2 1 = some l := by
      have : (CacheList.init 2 1).isSome = true := by decide +kernel
      exact Option.isSome_iff_exists.1 this
    refine ⟨⟨fun i => match i with
      | 0 => XferSt.start exLevel (exXfer false) l
      | _ + 1 => PassState.start [[], [], [], []], fun _ _ => []⟩, .init ⟨fun i => ?_, fun _ _ => rfl⟩⟩
    match i with
    | 0 => exact ⟨l, hl, rfl⟩
    | i + 1 => exact rfl

/-! ### Grids of different processes

Two FULL grids, one opened by the processes 0 and 1, one by the processes 2 and 3. Both have registered tag 7. Thread `t`
belongs to process `t % 8 / 2`. -/

/-- Processes `2 k` and `2 k + 1`. -/
def exRanks (k : Nat) : Ranks :=
  { global := fun r => r / 2 * 4 + 2 * k + r % 2
    rank := fun P => if P % 4 / 2 = k then some (P / 4 * 2 + P % 2) else none }

theorem exRanks_proper {k : Nat} (hk : k < 2) : ProperRanks (exRanks k) := by
  intro P r
  show (if P % 4 / 2 = k then some (P / 4 * 2 + P % 2) else none) = some r ↔ r / 2 * 4 + 2 * k + r % 2 = P
  split
  · next h =>
    constructor
    · intro e; injection e with e; omega
    · intro e; congr 1; omega
  · next h =>
    constructor
    · nofun
    · intro e; omega

def exCommTwo (data : Nat → Mem (List Nat)) : ManyComm (List Nat) :=
  { n := 2, rank := fun t => t % 8 / 2
    L := fun i => (((exXfer false).commSys exLevel data).translate (exRanks (i % 2))).only fun t => t % 8 / 4 = i % 2
    owner := fun P tag => if tag = 7 then some (P % 4 / 2) else none }

example : ∃ s0, FullOpened exLevel (exXfer false).F s0 ∧ ProperGrids (exCommTwo s0.data) (fun _ => exManyFile) ∧
    7 ∈ ((exCommTwo s0.data).L 0).tags 1 ∧ 7 ∈ ((exCommTwo s0.data).L 1).tags 2 ∧
    ((exCommTwo s0.data).L 0).tags 2 = [] ∧ ∃ s, ManyCommReach (exCommTwo s0.data) s := by
  obtain ⟨s0, ho, x, hx, -⟩ := exXfer_state (win := false) [] (fun _ => true) (by decide +kernel)
  refine ⟨s0, ho, ⟨fun i hi => ?_, fun i hi P tag ht => ?_⟩, List.mem_singleton.2 rfl, List.mem_singleton.2 rfl, rfl, ?_⟩
  · refine .some _ _ (fun t => t % 4 / 2) _ (.full exLevel _ s0 exLevel_opened ho rfl fun _ => rfl)
      (exRanks_proper (Nat.mod_lt _ (by decide))) fun t ht => ?_
    change t % 8 / 4 = i % 2 at ht
    show t % 4 / 2 / 2 * 4 + 2 * (i % 2) + t % 4 / 2 % 2 = t % 8 / 2
    omega
  · change i < 2 at hi
    have ht : tag ∈ (match (if P % 4 / 2 = i % 2 then some (P / 4 * 2 + P % 2) else none : Option Nat) with
      | some _ => [7]
      | none => []) := ht
    split at ht
    · next r e =>
      obtain rfl := List.mem_singleton.1 ht
      show some (P % 4 / 2) = some i
      split at e
      · next h => rw [h, Nat.mod_eq_of_lt hi]
      · cases e
    · cases ht
  · obtain ⟨l, hl⟩ : ∃ l, CacheList.init 2 1 = some l := by
      have : (CacheList.init 2 1).isSome = true := by decide +kernel
      exact Option.isSome_iff_exists.1 this
    exact ⟨⟨fun i => XferSt.start exLevel (exXfer false) l, fun _ _ => []⟩, .init ⟨fun i => ⟨l, hl, rfl⟩, fun _ _ => rfl⟩⟩

end Asagi.Props
