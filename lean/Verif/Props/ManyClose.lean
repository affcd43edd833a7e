import Verif.Proofs.ManyCloseAll
import Verif.Proofs.ManyCloseCall
import Verif.Proofs.CloseSessions
import Verif.Props.ManyComm
/-
C95: several grids are used and closed at the same time.
-/
namespace Asagi.Props
open Asagi Asagi.Spec
variable {α : Type} {G : ManyClose α} {f : Nat → OpenedFile α}

/-- **C95** Whatever the threads, the communication threads and `close` do with the other grids, the states of a grid are
those it can reach when it is used and closed alone, with a communication thread of its own. All properties of closing
one grid (C92) hold. -/
theorem C95_level (hG : ProperClosing G f) {s : G.St} (h : ManyCloseReach G s) (i : Nat) :
    _root_.Asagi.Reachable (G.L i).start (G.L i).step (s.lv i) :=
  close_level (mem := fun _ r => r < G.procs) (fun i hi => fine_close hG.ranks (hG.level i hi)) h i

/-- **C95** The value that a getter of a grid returns is the value of the file of this grid at the index of the
position, whatever other threads do, which grids are closed meanwhile and how far their closing is in which process. -/
theorem C95_value (hG : ProperClosing G f) {s s1 s2 : G.St} (h : ManyCloseReach G s) (i t : Nat) (hi : i < G.n)
    (pos : List Dbl) (idx : List Nat) (hp : pos2index (f i).fp (openAxes (f i).fp (f i).cc (f i).nc) pos = some idx)
    (hs : ManyCloseStep G true s s1) (hc : (G.L i).called t pos (s.lv i) (s1.lv i)) (hd : CloseDuring G i t s1 s2) (v : α)
    (hv : (G.L i).returns t (s2.lv i) v) : v = (f i).val idx := by
  have hF : ∀ i, i < G.n → (G.L i).Fine (· < G.procs) G.rank (f i) := fun i hi => fine_close hG.ranks (hG.level i hi)
  have hst : (G.L i).step (s.lv i) (s1.lv i) ∨ s1.lv i = s.lv i := by
    cases hs with
    | level j x net' hj hst =>
      by_cases e : i = j
      · subst e
        rw [show (⟨Function.update s.lv i x, net'⟩ : G.St).lv i = x from Function.update_self ..]; exact .inl hst
      · rw [show (⟨Function.update s.lv j x, net'⟩ : G.St).lv i = s.lv i from Function.update_of_ne e ..]; exact .inr rfl
  rcases hst with hst | e
  · exact (hF i hi).good.value _ _ _ t pos idx v (close_level hF h i) hst hc (many_during (comm_during (close_during hF hd)))
      hv hp
  · exact ((hF i hi).notCalled t pos _ (e ▸ hc)).elim

/-- **C95** A grid that is in use is not closed: while a thread is inside of a getter of a grid, its process has not
called `close` for this grid, and no process has gone beyond the barrier of this `close`. -/
theorem C95_in_use (hG : ProperClosing G f) {s : G.St} (h : ManyCloseReach G s) (i t : Nat) (hi : i < G.n)
    (hb : (G.L i).busy (s.lv i) t) :
    (G.L i).stage (s.lv i) (G.rank t) = 0 ∧ ∀ r, (G.L i).stage (s.lv i) r ≤ 1 := by
  have hF : ∀ i, i < G.n → (G.L i).Fine (· < G.procs) G.rank (f i) := fun i hi => fine_close hG.ranks (hG.level i hi)
  have h0 : (G.L i).stage (s.lv i) (G.rank t) = 0 := Classical.byContradiction fun h0 =>
    (hF i hi).idle _ t (close_level hF h i) h0 hb
  exact ⟨h0, fun r => Nat.le_of_not_lt fun h2 =>
    (hF i hi).bar _ r (close_level hF h i) h2 (G.rank t) (hG.ranks t) h0⟩

/-- **C95** What a process frees is not in use by its communication thread: while the communication thread is in `recv` of
a grid, `close` has not begun to free what `recv` uses; this happens in the last step of `close`. -/
theorem C95_outside (hG : ProperClosing G f) {s : G.St} (h : ManyCloseReach G s) (i r : Nat) (hi : i < G.n)
    (hin : InCloseRecv (G.L i) (s.lv i) r) : (G.L i).stage (s.lv i) r + 1 < (G.L i).closed :=
  key hG.ranks (hG.level i hi) (C95_level hG h i) (serves hin)
where
  serves {W : CloseSys α} {x : W.S} {r : Nat} (h : InCloseRecv W x r) : W.serving x r := by
    induction h with
    | full c X data procs s r h => exact h
    | cache c C procs s r h => exact h
    | withLocal L rank read s r _ ih => exact ih
    | only L team s r _ ih => exact ih
    | translate L R s r P hP _ ih =>
      show (match R.rank P with | some r => L.serving s r | none => False)
      rw [hP]; exact ih
  key {W : CloseSys α} {g : OpenedFile α} {x : W.S} {r : Nat} (hr : ∀ t, G.rank t < G.procs)
      (hp : ProperClose G.rank G.procs g W) (h : _root_.Asagi.Reachable W.start W.step x) (hin : W.serving x r) :
      W.stage x r + 1 < W.closed := by
    cases hp with
    | other L hL => exact hin.elim
    | full c X s0 a1 a2 a3 a4 =>
      show CloseFullSt.stage x r + 1 < 5
      refine Nat.lt_of_not_le fun h5 => ?_
      exact hin (C92_full_outside (fun t => a4 t ▸ hr t) h r (by omega))
    | cache c S C a1 a2 a3 a4 =>
      show CloseSt.stage x r + 1 < 8
      refine Nat.lt_of_not_le fun h5 => ?_
      exact C92_outside a3 (fun t => a4 t ▸ hr t) h r (by omega) hin

/-- **C95** A thread is inside of one getter at a time, and of the threads of a process one at most is inside of the MPI
library (with THREADSAFE_MPI) and one inside of the netCDF library, over all grids. -/
theorem C95_one_user (hG : ProperClosing G f) {s : G.St} (h : ManyCloseReach G s) :
    (∀ t i j, i < G.n → j < G.n → (G.L i).busy (s.lv i) t → (G.L j).busy (s.lv j) t → i = j) ∧
    ∀ k t u i j, i < G.n → j < G.n → CloseInLibrary k (G.L i) (s.lv i) t → CloseInLibrary k (G.L j) (s.lv j) u →
      G.rank t = G.rank u → t = u ∧ i = j := by
  have hF : ∀ i, i < G.n → (G.L i).Fine (· < G.procs) G.rank (f i) := fun i hi => fine_close hG.ranks (hG.level i hi)
  have := many_excl (G := G.calm.many) (fun i hi => (hF i hi).good.toSafe) (comm_reach (close_reach hF h))
  exact ⟨this.1, fun k t u i j hi hj h1 h2 => this.2 k t u i j hi hj (key h1 (close_level hF h i))
    (key h2 (close_level hF h j))⟩
where
  key {k : LibLock} {W : CloseSys α} {x : W.S} {t : Nat} (h : CloseInLibrary k W x t) (hr : W.Reach x) : W.uses k x t := by
    induction h with
    | other _ L rank procs _ _ h1 => exact inLibrary_uses (L := L) h1 (level_close_inv hr).reach
    | read c C procs s _ b off sl k hp hk =>
      show Pc.reading _
      rw [hp]; exact hk
    | withLocal k L rank read s t _ ih => exact ih (local_inv (close_local_inv hr).1).1
    | only k L team s t _ ih => exact ih (close_only_reach hr)
    | translate k L R s t _ ih => exact ih hr

/-- **C95** The communication thread of a process works for one grid at a time. -/
theorem C95_one_service (hG : ProperClosing G f) {s : G.St} (h : ManyCloseReach G s) (r i j : Nat) (hi : i < G.n) (hj : j < G.n)
    (h1 : InCloseRecv (G.L i) (s.lv i) r) (h2 : InCloseRecv (G.L j) (s.lv j) r) : i = j := by
  have hF : ∀ i, i < G.n → (G.L i).Fine (· < G.procs) G.rank (f i) := fun i hi => fine_close hG.ranks (hG.level i hi)
  exact comm_serving (close_goods hF) (close_reach hF h) r i j hi hj (C95_outside.serves h1) (C95_outside.serves h2)

/-- **C95** No message is lost and no message reaches another grid than the one that has sent it, also while grids are
closed: of the messages on the way, those with tags of a grid are the ones that this grid has sent and not yet
received, in the same order, and there are no others. -/
theorem C95_delivered (hG : ProperClosing G f) {s : G.St} (h : ManyCloseReach G s) (q r : Nat) :
    (∀ i l, i < G.n → OnTheWayTo (G.L i) (s.lv i) q r l →
      (s.net q r).filter (fun tag => decide (G.owner r tag = some i)) = l) ∧
    ∀ tag ∈ s.net q r, ∃ j, j < G.n ∧ G.owner r tag = some j := by
  have hF : ∀ i, i < G.n → (G.L i).Fine (· < G.procs) G.rank (f i) := fun i hi => fine_close hG.ranks (hG.level i hi)
  have := comm_net (close_goods hF) hG.owner (close_reach hF h) q r
  exact ⟨fun i l hi hl => (this.1 i hi).trans (key hl), this.2⟩
where
  key {W : CloseSys α} {x : W.S} {q r : Nat} {l : List Nat} (h : OnTheWayTo W x q r l) : W.inbox x q r = l := by
    induction h with
    | withLocal L rank read s q r l _ ih => exact ih
    | only L team s q r l _ ih => exact ih
    | translate L R s q r Q P l hQ hP _ ih =>
      show (match R.rank Q, R.rank P with | some q, some r => L.inbox s q r | _, _ => []) = l
      rw [hQ, hP]; exact ih
    | outside L R s Q P h =>
      show (match R.rank Q, R.rank P with | some q, some r => L.inbox s q r | _, _ => []) = []
      rcases h with h | h
      · rw [h]
      · rw [h]; cases R.rank Q <;> rfl
    | _ => rfl

/-- **C95** If the processes close the grids in one order, closing and using grids cannot block each other: as long as a
thread is inside of a getter of any grid, or a grid that the program closes is not closed in all processes, something
can continue without a new call of a getter, even if MPI does not buffer messages. -/
theorem C95_no_deadlock (hG : ProperClosing G f) (hsame : OneOrder G) {s : G.St} (h : ManyCloseReach G s)
    (ht : (∃ t, CloseBusy G s t) ∨ ∃ i r, i < G.n ∧ r < G.procs ∧ G.closes i ∧ ¬ ClosedBy G s i r) (early : Bool) :
    ∃ s', CloseQuiet G early s s' :=
  close_progress (mem := fun _ r => r < G.procs) (fun i hi => fine_close hG.ranks (hG.level i hi)) hG.owner
    (fun r j i hr hb => ⟨(hsame r j i hb).1, (hsame r j i hb).2, hr⟩) h ht early

/-- **C95** Every access returns and every grid gets closed in every process, unless requests for blocks of CACHE grids
are refused again and again (C49): from each state, an execution without new calls of getters in which `k` requests
are refused has at most `N + k * K` steps, and when it cannot be continued, no thread is inside of a getter and all
grids that the program closes are closed everywhere. -/
theorem C95_returns (hG : ProperClosing G f) (hsame : OneOrder G) {s : G.St} (h : ManyCloseReach G s) :
    ∃ N K, ∀ early n k s', CloseQuietRun G early n k s s' → n ≤ N + k * K ∧
      ((∀ s'', ¬ CloseQuiet G early s' s'') → (∀ t, ¬ CloseBusy G s' t) ∧
        ∀ i r, i < G.n → r < G.procs → G.closes i → ClosedBy G s' i r) := by
  have hF : ∀ i, i < G.n → (G.L i).Fine (· < G.procs) G.rank (f i) := fun i hi => fine_close hG.ranks (hG.level i hi)
  obtain ⟨N, K, hN⟩ := comm_bound (close_goods hF) (close_reach hF h)
  refine ⟨N, K, fun early n k s' hr => ⟨hN true n k s'.calm (close_run hF hr), fun hend => ?_⟩⟩
  have hno : ¬ ((∃ t, CloseBusy G s' t) ∨ ∃ i r, i < G.n ∧ r < G.procs ∧ G.closes i ∧ ¬ ClosedBy G s' i r) := fun ht => by
    obtain ⟨s'', hq⟩ := close_progress (mem := fun _ r => r < G.procs) hF hG.owner
      (fun r j i hr hb => ⟨(hsame r j i hb).1, (hsame r j i hb).2, hr⟩) (close_run_reach (mem := fun _ r => r < G.procs) hF h hr) ht early
    exact hend s'' hq
  exact ⟨fun t ht => hno (.inl ⟨t, ht⟩), fun i r hi hr hc => Classical.byContradiction fun hn =>
    hno (.inr ⟨i, r, hi, hr, hc, hn⟩)⟩

/-- **C95** Closing other grids does not close a grid: one that the program does not close stays open in all processes. -/
theorem C95_kept_open (hG : ProperClosing G f) {s : G.St} (h : ManyCloseReach G s) (i r : Nat) (hi : i < G.n)
    (hc : ¬ G.closes i) : (G.L i).stage (s.lv i) r = 0 := by
  induction h with
  | @init s h => exact key (hG.level i hi) (h.1 i)
  | @step s1 s2 _ hs ih =>
    cases hs with
    | level j x net' hj hst hb hu hn hcl =>
      by_cases e : i = j
      · subst e
        rw [show (⟨Function.update s1.lv i x, net'⟩ : G.St).lv i = x from Function.update_self ..]
        by_contra hne
        exact hc (hcl r (by rw [ih]; exact hne)).1
      · rw [show (⟨Function.update s1.lv j x, net'⟩ : G.St).lv i = s1.lv i from Function.update_of_ne e ..]; exact ih
where
  key {W : CloseSys α} {g : OpenedFile α} {x : W.S} {r : Nat} (hp : ProperClose G.rank G.procs g W) (h : W.start x) :
      W.stage x r = 0 := by
    cases hp with
    | other L hL =>
      have h : L.start x.1 ∧ x.2 = fun _ => 0 := h
      show x.2 r = 0
      rw [h.2]
    | full c X s0 => obtain ⟨l, -, rfl⟩ := h; rfl
    | cache c S C => obtain ⟨l, -, rfl⟩ := h; rfl

/-- **C95** The other grids, open, in `close` or closed, do not stop a thread from calling a getter: a thread that is in no
getter and could call one of this grid if there were no other grid can call it. -/
theorem C95_can_call (hG : ProperClosing G f) {s : G.St} (i t : Nat) (hi : i < G.n) (hidle : ¬ CloseBusy G s t)
    (pos : List Dbl) (x : (G.L i).S) (hs : (G.L i).step (s.lv i) x) (hc : (G.L i).called t pos (s.lv i) x) :
    ∃ s1, ManyCloseStep G true s s1 ∧ (G.L i).called t pos (s.lv i) (s1.lv i) ∧ ∀ j, j ≠ i → s1.lv j = s.lv j := by
  obtain ⟨h1, h2, h3⟩ := close_call_frame (hG.level i hi) hs hc
  refine ⟨⟨Function.update s.lv i x, s.net⟩, .level s i x s.net hi hs (fun u hu hn j hj hb => ?_)
    (fun k u hu hn => (hn (h1.uses k u hu)).elim) (fun q r => ?_) (fun r hr => (hr (by rw [h3])).elim), ?_, fun j hj => ?_⟩
  · rcases h1.busy u hu with h | rfl
    · exact hn h
    · exact hidle ⟨j, hj, hb⟩
  · rw [h2]; exact .none _ _
  · rw [show (⟨Function.update s.lv i x, s.net⟩ : G.St).lv i = x from Function.update_self ..]; exact hc
  · exact Function.update_of_ne hj ..

/-! ### Three grids

The FULL grid, the CACHE grid and the PASS_THROUGH grid of `exComm`, in two processes. The program closes the first two,
the FULL grid first. -/

def exClose (data : Nat → Mem (List Nat)) : ManyClose (List Nat) :=
  { n := 3, procs := 2, rank := fun t => t % 4 / 2
    L := fun i => match i with
      | 0 => (exXfer false).closeSys exLevel data 2
      | 1 => exCommMsg.closeSys exLevel 2
      | _ => (passSys exLevel (fun t => t / 4 * 2 + t % 2) (fun t => t < 8 ∧ t % 4 < 2) [[], [], [], []]).closeSys
          (fun t => t % 4 / 2) 2
    owner := fun _ tag => if tag = 7 then some 0 else if 1 ≤ tag ∧ tag ≤ 4 then some 1 else none
    closes := fun i => i < 2
    before := fun _ j i => j = 0 ∧ i = 1 }

theorem exClose_proper {s0 : FullDist (List Nat)} (h : FullOpened exLevel (exXfer false).F s0) :
    ProperClosing (exClose s0.data) (fun _ => exManyFile) := by
  refine ⟨fun i hi => ?_, fun i hi r tag ht => ?_, fun t => by show t % 4 / 2 < 2; omega⟩
  · match i with
    | 0 => exact .full exLevel _ s0 exLevel_opened h rfl fun _ => rfl
    | 1 => exact .cache exLevel _ exCommMsg exLevel_opened rfl exCommMsg_legal fun _ => rfl
    | 2 => exact .other _ (exMany_proper 2 (by decide))
    | i + 3 => have : i + 3 < 3 := hi; omega
  · match i with
    | 0 =>
      obtain rfl : tag = 7 := by simpa [exClose, XferCfg.closeSys, XferCfg.commSys, exXfer] using ht
      rfl
    | 1 =>
      have ht : tag ∈ [1, 2, 3, 4] := ht
      simp at ht
      rcases ht with rfl | rfl | rfl | rfl <;> rfl
    | 2 => cases ht
    | i + 3 => have : i + 3 < 3 := hi; omega

theorem exClose_order (data : Nat → Mem (List Nat)) : OneOrder (exClose data) := by
  rintro r j i ⟨rfl, rfl⟩
  exact ⟨by decide, by show 0 < 2; decide⟩

/-- The state in which the closing of the FULL grid is at `k`. -/
def ExCommSt.closing (e : ExCommSt) (data : Nat → Mem (List Nat)) (k : Nat → Nat) : (exClose data).St :=
  ⟨fun i => match i with
    | 0 => ⟨e.x, k⟩
    | 1 => ⟨e.ms, fun _ => 0⟩
    | _ + 2 => (PassState.start [[], [], [], []], fun _ => 0), e.net⟩

/-- A step for the CACHE grid. -/
theorem exClose_cache {s0 : FullDist (List Nat)} (ho : FullOpened exLevel (exXfer false).F s0) {k : Nat → Nat} {a : MsgCmd}
    {e e' : ExCommSt} (hk : ExCommOk e) (hr : ManyCloseReach (exClose s0.data) (e.closing s0.data k))
    (h : ExCommCmd.exec s0.data e (.cache a) = some e') :
    ExCommOk e' ∧ ManyCloseStep (exClose s0.data) true (e.closing s0.data k) (e'.closing s0.data k) := by
  unfold ExCommCmd.exec at h
  split at h
  · next hf =>
    dsimp only at h
    have ha : a.thread = none ∨ a.thread = some 3 := by
      cases a with
      | call t b off => exact .inr (congrArg some (of_decide_eq_true hf).1)
      | user t => exact .inr (congrArg some (of_decide_eq_true hf))
      | take => exact .inl rfl
      | comm => exact .inl rfl
    simp only [Option.map_eq_some_iff] at h
    obtain ⟨x', hx, rfl⟩ := h
    have hoth : ∀ u, u ≠ 3 → x'.st.pc (.user u) = .idle := by
      intro u hu
      rw [msgCmd_other hx (u := u), hk.ms u hu]
      rcases ha with ha | ha <;> rw [ha]
      · nofun
      · intro h; injection h with h; exact hu h.symm
    refine ⟨⟨hk.x, hoth⟩, ?_⟩
    have hl : CloseReach exCommMsg 2 ⟨e.ms, fun _ => 0⟩ := C95_level (exClose_proper ho) hr 1
    have hst := ManyCloseStep.level (G := exClose s0.data) (early := true) (e.closing s0.data k) 1 ⟨x', fun _ => 0⟩
      (exNet e.net e.ms.wire x'.wire) (by show 1 < 3; decide) (C92_served exCommMsg_legal
        (fun t => by show t % 4 / 2 < 2; omega) hl 0 (by decide) rfl x' (MsgCmd.exec_step (fun t b off hc => by
          subst hc
          obtain ⟨-, rfl, rfl⟩ := of_decide_eq_true hf
          exact exComm_inside) hx) fun t h0 => (h0 rfl).elim) ?_ ?_ ?_ (fun r hr => (hr rfl).elim)
    · convert hst using 1
      unfold ExCommSt.closing
      congr 1
      funext i
      match i with
      | 0 => rfl
      | 1 => rfl
      | i + 2 => rfl
    · intro t ht hn j hj
      have ht2 : t = 3 := by
        by_contra hne
        exact ht (hoth t hne)
      subst ht2
      match j with
      | 0 => exact fun h => h (hk.x 3 (by decide))
      | 1 => exact hn
      | 2 => exact fun h => h rfl
      | j + 3 => have : j + 3 < 3 := hj; omega
    · intro k t ht hn j u hj _
      cases k with
      | mpi => exact ht.elim
      | netcdf =>
        have ht2 : t = 3 := by
          by_contra hne
          have ht : (x'.st.pc (.user t)).reading := ht
          rw [hoth t hne] at ht
          exact ht
        subst ht2
        match j with
        | 0 => exact id
        | 1 =>
          intro hu
          by_cases hne : u = 3
          · subst hne; exact hn hu
          · have hu : (e.ms.st.pc (.user u)).reading := hu
            rw [hk.ms u hne] at hu
            exact hu
        | 2 => exact nofun
        | j + 3 => have : j + 3 < 3 := hj; omega
    · intro q r
      rcases msgCmd_wire hx with hw | ⟨r', src, rnd, m, rest, rfl, -, -, hm, hw⟩
      · exact exNet_grows (fr := fun r => ∀ j, j < (exClose s0.data).n →
          ¬ ((exClose s0.data).L j).serving ((e.closing s0.data k).lv j) r) hw q r
      · obtain ⟨h1, h2, h3⟩ := exFree_spec hm hf s0.data
        have h1' : ∀ j, j < (exClose s0.data).n → ¬ ((exClose s0.data).L j).serving ((e.closing s0.data k).lv j) r' := by
          intro j hj
          match j with
          | 0 => exact h1 0 hj
          | 1 => exact h1 1 hj
          | 2 => exact id
          | j + 3 => have : j + 3 < 3 := hj; omega
        have := exNet_take (fr := fun r => ∀ j, j < (exClose s0.data).n →
          ¬ ((exClose s0.data).L j).serving ((e.closing s0.data k).lv j) r) hm h2 h3 h1' q r
        rw [← hw] at this
        exact this
  · cases h

def exCloseQuiet (e : ExCommSt) (r : Nat) : Bool :=
  match e.x.comm r, e.ms.st.pc (.comm r), e.ms.wait r with
  | none, .idle, none => true
  | _, _, _ => false

/-- A step in `close` of the FULL grid, in process `r`. -/
theorem exClose_full {data : Nat → Mem (List Nat)} {k : Nat → Nat} {e : ExCommSt} {r v : Nat}
    (hq : exCloseQuiet e r = true) (h : CloseFullStep exLevel (exXfer false) data 2 true ⟨e.x, k⟩ ⟨e.x, upd k r v⟩) :
    ManyCloseStep (exClose data) true (e.closing data k) (e.closing data (upd k r v)) := by
  have hst := ManyCloseStep.level (G := exClose data) (early := true) (e.closing data k) 0 ⟨e.x, upd k r v⟩ e.net
    (by show 0 < 3; decide) h (fun t ht hn => (hn ht).elim) (fun j t ht hn => (hn ht).elim) (fun q r => .none _ _)
    (fun q hne => ?_)
  · convert hst using 1
    unfold ExCommSt.closing
    congr 1
    funext i
    match i with
    | 0 => rfl
    | 1 => rfl
    | i + 2 => rfl
  · refine ⟨by show 0 < 2; decide, ?_, fun _ j hj => ?_⟩
    · rintro j ⟨-, h1⟩; cases h1
    · obtain rfl : q = r := by
        by_contra hqr
        exact hne (upd_ne _ _ hqr)
      revert hq
      unfold exCloseQuiet
      split
      · next a1 a2 a3 =>
        intro _
        match j with
        | 0 => exact fun h => h a1
        | 1 => exact fun h => h.elim (fun h => h a2) fun h => h a3
        | 2 => exact id
        | j + 3 => have : j + 3 < 3 := hj; omega
      · intro h; cases h

/-- A schedule for the CACHE grid, in which thread 3 stays inside of its getter. -/
def exClosingRun : List MsgCmd → ExCommSt → Option ExCommSt
  | [], e => some e
  | a :: l, e => (ExCommCmd.exec (fun _ => []) e (.cache a)).bind fun e' =>
    if Pc.isIdle (e'.ms.st.pc (.user 3)) = false then exClosingRun l e' else none

theorem exClosingRun_spec {s0 : FullDist (List Nat)} (ho : FullOpened exLevel (exXfer false).F s0) {k : Nat → Nat} {l : List MsgCmd}
    {e e' : ExCommSt} (hk : ExCommOk e) {s : (exClose s0.data).St}
    (hr : ManyCloseReach (exClose s0.data) (e.closing s0.data k))
    (hd : CloseDuring (exClose s0.data) 1 3 s (e.closing s0.data k)) (h : exClosingRun l e = some e') :
    ExCommOk e' ∧ ManyCloseReach (exClose s0.data) (e'.closing s0.data k) ∧
      CloseDuring (exClose s0.data) 1 3 s (e'.closing s0.data k) := by
  induction l generalizing e with
  | nil => cases h; exact ⟨hk, hr, hd⟩
  | cons a l ih =>
    simp only [exClosingRun, Option.bind_eq_some_iff] at h
    obtain ⟨e1, h1, h2⟩ := h
    obtain ⟨hk1, hs⟩ := exClose_cache ho hk hr h1
    split at h2
    · next hb =>
      refine ih hk1 (.step hr hs) (.tail hd hs fun h0 => ?_) h2
      rw [show e1.ms.st.pc (.user 3) = .idle from h0] at hb; cases hb
    · cases h2

/-- Closing the FULL grid in both processes, while thread 3 is in a getter of the CACHE grid. -/
theorem exClosing_all {data : Nat → Mem (List Nat)} {e : ExCommSt} (hx : ∀ u, e.x.st.pc (.user u) = .idle)
    (h0 : exCloseQuiet e 0 = true) (h1 : exCloseQuiet e 1 = true) (hb : Pc.isIdle (e.ms.st.pc (.user 3)) = false)
    {s : (exClose data).St} (hr : ManyCloseReach (exClose data) (e.closing data fun _ => 0))
    (hd : CloseDuring (exClose data) 1 3 s (e.closing data fun _ => 0)) :
    ∃ k, k 0 = 5 ∧ k 1 = 5 ∧ ManyCloseReach (exClose data) (e.closing data k) ∧
      CloseDuring (exClose data) 1 3 s (e.closing data k) := by
  have hc : ∀ {r}, exCloseQuiet e r = true → e.x.comm r = none := by
    intro r
    unfold exCloseQuiet
    split
    · next a1 _ _ => exact fun _ => a1
    · intro h; cases h
  have key : ∀ {k : Nat → Nat} {r v : Nat}, exCloseQuiet e r = true →
      (ManyCloseReach (exClose data) (e.closing data k) ∧ CloseDuring (exClose data) 1 3 s (e.closing data k)) →
      CloseFullStep exLevel (exXfer false) data 2 true ⟨e.x, k⟩ ⟨e.x, upd k r v⟩ →
      ManyCloseReach (exClose data) (e.closing data (upd k r v)) ∧
        CloseDuring (exClose data) 1 3 s (e.closing data (upd k r v)) := by
    intro k r v hq ⟨a1, a2⟩ a3
    have hs := exClose_full hq a3
    refine ⟨.step a1 hs, .tail a2 hs fun h0 => ?_⟩
    rw [show e.ms.st.pc (.user 3) = .idle from h0] at hb; cases hb
  have b1 := key h0 ⟨hr, hd⟩ (.call ⟨e.x, _⟩ 0 (by decide) rfl fun t _ => hx t)
  have b2 := key h1 b1 (.call ⟨e.x, _⟩ 1 (by decide) rfl fun t _ => hx t)
  have b3 := key h0 b2 (.pass ⟨e.x, _⟩ 0 rfl fun q hq => by
    match q with
    | 0 => exact Nat.le_refl 1
    | 1 => exact Nat.le_refl 1
    | q + 2 => omega)
  have b4 := key h1 b3 (.pass ⟨e.x, _⟩ 1 rfl fun q hq => by
    match q with
    | 0 => exact Nat.le_succ 1
    | 1 => exact Nat.le_refl 1
    | q + 2 => omega)
  have b5 := key h0 b4 (.freeCache ⟨e.x, _⟩ 0 rfl)
  have b6 := key h1 b5 (.freeCache ⟨e.x, _⟩ 1 rfl)
  have b7 := key h0 b6 (.unregister ⟨e.x, _⟩ 0 rfl rfl (hc h0))
  have b8 := key h1 b7 (.unregister ⟨e.x, _⟩ 1 rfl rfl (hc h1))
  have b9 := key h0 b8 (.free ⟨e.x, _⟩ 0 rfl)
  have b10 := key h1 b9 (.free ⟨e.x, _⟩ 1 rfl)
  exact ⟨_, rfl, rfl, b10⟩

/-- Thread 3 calls a getter of the CACHE grid and sends its request; both processes close the FULL grid; then the
schedule `l`. -/
theorem exClosing_state (l : List MsgCmd) (g : ExCommSt → Bool)
    (h : ((CacheList.init 2 1).bind fun cl =>
      (ExCommCmd.exec (fun _ => []) (exCommStart cl) (.cache (.call 3 2 2))).bind fun e1 =>
      (exClosingRun (List.replicate 7 (.user 3 0)) e1).bind fun e2 =>
      if exCloseQuiet e2 0 = true ∧ exCloseQuiet e2 1 = true ∧ Pc.isIdle (e2.x.st.pc (.user 2)) = true ∧
        Pc.isIdle (e2.ms.st.pc (.user 3)) = false then exClosingRun l e2 else none).any g = true) :
    ∃ s0, FullOpened exLevel (exXfer false).F s0 ∧ ∃ (e e1 e2 : ExCommSt) (k : Nat → Nat),
      ManyCloseReach (exClose s0.data) (e.closing s0.data fun _ => 0) ∧
      ManyCloseStep (exClose s0.data) true (e.closing s0.data fun _ => 0) (e1.closing s0.data fun _ => 0) ∧
      MsgCalled exLevel 3 exManyPos e.ms e1.ms ∧
      CloseDuring (exClose s0.data) 1 3 (e1.closing s0.data fun _ => 0) (e2.closing s0.data k) ∧
      ManyCloseReach (exClose s0.data) (e2.closing s0.data k) ∧ k 0 = 5 ∧ k 1 = 5 ∧ g e2 = true := by
  obtain ⟨s0, ho, -⟩ := exXfer_state (win := false) [] (fun _ => true) (by decide +kernel)
  refine ⟨s0, ho, ?_⟩
  revert h
  generalize hx : Option.bind _ _ = y
  cases y with
  | none => intro h; cases h
  | some y =>
    intro hf
    simp only [Option.bind_eq_some_iff] at hx
    obtain ⟨cl, hcl, e1, h1, e2, h2, h3⟩ := hx
    have hk0 : ExCommOk (exCommStart cl) := ⟨fun _ _ => rfl, fun _ _ => rfl⟩
    have hr0 : ManyCloseReach (exClose s0.data) ((exCommStart cl).closing s0.data fun _ => 0) := by
      refine .init ⟨fun i => ?_, fun _ _ => rfl⟩
      match i with
      | 0 => exact ⟨cl, hcl, rfl⟩
      | 1 => exact ⟨cl, hcl, rfl⟩
      | i + 2 => exact ⟨rfl, rfl⟩
    obtain ⟨hk1, hs1⟩ := exClose_cache ho hk0 hr0 h1
    obtain ⟨hk2, hr2, hd2⟩ := exClosingRun_spec ho hk1 (.step hr0 hs1) (.refl _) h2
    split at h3
    · next hq =>
      obtain ⟨q0, q1, q2, q3⟩ := hq
      obtain ⟨k, c0, c1, hr3, hd3⟩ := exClosing_all (fun u => by
        by_cases e : u = 2
        · subst e
          revert q2
          cases e2.x.st.pc (.user 2) with
          | idle => intro _; rfl
          | _ => intro h; cases h
        · exact hk2.x u e) q0 q1 q3 hr2 hd2
      obtain ⟨hk4, hr4, hd4⟩ := exClosingRun_spec ho hk2 hr3 hd3 h3
      refine ⟨_, e1, y, k, hr0, hs1, ?_, hd4, hr4, c0, c1, hf⟩
      unfold ExCommCmd.exec at h1
      rw [if_pos (by rfl)] at h1
      dsimp only at h1
      rw [show MsgCmd.exec exCommMsg (exCommStart cl).ms (.call 3 2 2) = some { (exCommStart cl).ms with
        st := { (exCommStart cl).ms.st with pc := upd (exCommStart cl).ms.st.pc (.user 3) (.wantCm 2 2) } } from rfl] at h1
      cases h1
      exact ⟨_, ⟨[1, 4], exMany_index, rfl, rfl⟩, rfl⟩
    · cases h3
/-- The FULL grid is closed in both processes; thread 3 is inside of a getter of the CACHE grid, its request is on the
way, and the CACHE grid is not closed. -/
example : ∃ s0 : FullDist (List Nat), ProperClosing (exClose s0.data) (fun _ => exManyFile) ∧ OneOrder (exClose s0.data) ∧
    ∃ s, ManyCloseReach (exClose s0.data) s ∧ ClosedBy (exClose s0.data) s 0 0 ∧ ClosedBy (exClose s0.data) s 0 1 ∧
      CloseBusy (exClose s0.data) s 3 ∧ s.net 1 0 = [1] ∧ OnTheWayTo ((exClose s0.data).L 1) (s.lv 1) 1 0 [1] ∧
      (exClose s0.data).closes 1 ∧ ¬ ClosedBy (exClose s0.data) s 1 1 := by
  obtain ⟨s0, ho, e, e1, e2, k, -, -, -, -, hr, h0, h1, hc⟩ := exClosing_state []
    (fun e => decide (e.net 1 0 = [1] ∧ (e.ms.wire 1 0).map Msg.tag = [1] ∧ Pc.isIdle (e.ms.st.pc (.user 3)) = false))
    (by decide +kernel)
  obtain ⟨a1, a2, a3⟩ := of_decide_eq_true hc
  refine ⟨s0, exClose_proper ho, exClose_order _, _, hr, h0, h1, ⟨1, by show 1 < 3; decide, fun h => ?_⟩, a1,
    a2 ▸ .cache exLevel exCommMsg 2 ⟨e2.ms, fun _ => 0⟩ 1 0, by show 1 < 2; decide, by show ¬ 0 = 8; decide⟩
  rw [show e2.ms.st.pc (.user 3) = .idle from h] at a3; cases a3

/-- After that the communication thread of process 0 answers the request for the block of the CACHE grid. -/
example : ∃ s0 : FullDist (List Nat), ProperClosing (exClose s0.data) (fun _ => exManyFile) ∧
    ∃ s, ManyCloseReach (exClose s0.data) s ∧ ClosedBy (exClose s0.data) s 0 0 ∧
      InCloseRecv ((exClose s0.data).L 1) (s.lv 1) 0 := by
  obtain ⟨s0, ho, e, e1, e2, k, -, -, -, -, hr, h0, h1, hc⟩ := exClosing_state [.take 0 1 0]
    (fun e => (e.ms.wait 0).isSome) (by decide +kernel)
  refine ⟨s0, exClose_proper ho, _, hr, h0, .cache exLevel exCommMsg 2 ⟨e2.ms, fun _ => 0⟩ 0 (.inr fun h => ?_)⟩
  rw [show e2.ms.wait 0 = none from h] at hc; cases hc

/-- Then thread 3 is inside of the netCDF library. -/
example : ∃ s0 : FullDist (List Nat), ProperClosing (exClose s0.data) (fun _ => exManyFile) ∧
    ∃ s, ManyCloseReach (exClose s0.data) s ∧ ClosedBy (exClose s0.data) s 0 1 ∧
      CloseInLibrary .netcdf ((exClose s0.data).L 1) (s.lv 1) 3 := by
  obtain ⟨s0, ho, e, e1, e2, k, -, -, -, -, hr, h0, h1, hc⟩ := exClosing_state
    ([.take 0 1 0, .comm 0] ++ List.replicate 5 (.user 3 0))
    (fun e => match e.ms.st.pc (.user 3) with
      | .own _ _ _ (.load k) => decide (0 < k)
      | _ => false) (by decide +kernel)
  revert hc
  split
  · next h =>
    intro hc
    exact ⟨s0, exClose_proper ho, _, hr, h1, .read exLevel exCommMsg 2 ⟨e2.ms, fun _ => 0⟩ 3 _ _ _ _ h (of_decide_eq_true hc)⟩
  · intro hc; cases hc

/-- And it returns the value at [1, 4]. -/
example : ∃ s0 : FullDist (List Nat), ProperClosing (exClose s0.data) (fun _ => exManyFile) ∧ ∃ s s1 s2 : (exClose s0.data).St,
    ManyCloseReach (exClose s0.data) s ∧ pos2index .exact (openAxes .exact false exFile) exManyPos = some [1, 4] ∧
    ManyCloseStep (exClose s0.data) true s s1 ∧ ((exClose s0.data).L 1).called 3 exManyPos (s.lv 1) (s1.lv 1) ∧
    ¬ ClosedBy (exClose s0.data) s1 0 0 ∧ CloseDuring (exClose s0.data) 1 3 s1 s2 ∧ ClosedBy (exClose s0.data) s2 0 0 ∧
    ClosedBy (exClose s0.data) s2 0 1 ∧ ((exClose s0.data).L 1).returns 3 (s2.lv 1) [1, 4] := by
  obtain ⟨s0, ho, e, e1, e2, k, hr, hs, hm, hd, -, h0, h1, hc⟩ := exClosing_state
    ([.take 0 1 0, .comm 0] ++ List.replicate 12 (.user 3 0))
    (fun e => match e.ms.st.pc (.user 3) with
      | .own _ _ _ (.out v) => decide (v = [1, 4])
      | _ => false) (by decide +kernel)
  refine ⟨s0, exClose_proper ho, _, _, _, hr, by decide +kernel, hs, hm, by show ¬ 0 = 5; decide, hd, h0, h1, ?_⟩
  revert hc
  split
  · next h =>
    intro hc
    obtain rfl := of_decide_eq_true hc
    exact ⟨_, _, _, h⟩
  · intro hc; cases hc

/-- The PASS_THROUGH grid is never closed. -/
example : ∃ s0 : FullDist (List Nat), ProperClosing (exClose s0.data) (fun _ => exManyFile) ∧ ¬ (exClose s0.data).closes 2 ∧
    ∃ s, ManyCloseReach (exClose s0.data) s ∧ ClosedBy (exClose s0.data) s 0 0 := by
  obtain ⟨s0, ho, e, e1, e2, k, -, -, -, -, hr, h0, -, -⟩ := exClosing_state [] (fun _ => true) (by decide +kernel)
  exact ⟨s0, exClose_proper ho, by show ¬ 2 < 2; decide, _, hr, h0⟩

/-- After the FULL grid is closed, thread 0 of process 0, which is in no getter, can call a getter of the PASS_THROUGH
grid. -/
example : ∃ s0 : FullDist (List Nat), ProperClosing (exClose s0.data) (fun _ => exManyFile) ∧
    ∃ s s1, ManyCloseReach (exClose s0.data) s ∧ ClosedBy (exClose s0.data) s 0 0 ∧ ¬ CloseBusy (exClose s0.data) s 0 ∧
      ManyCloseStep (exClose s0.data) true s s1 ∧ ((exClose s0.data).L 2).called 0 exManyPos (s.lv 2) (s1.lv 2) := by
  obtain ⟨s0, ho, e, e1, e2, k, -, -, -, -, hr, h0, -, hc⟩ := exClosing_state [] (fun e => Pc.isIdle (e.ms.st.pc (.user 0)) &&
    Pc.isIdle (e.x.st.pc (.user 0))) (by decide +kernel)
  simp only [Bool.and_eq_true] at hc
  have key : ∀ p : Pc (List Nat), Pc.isIdle p = true → p = .idle := by
    intro p hp
    cases p <;> first | rfl | cases hp
  have hidle : ¬ CloseBusy (exClose s0.data) (e2.closing s0.data k) 0 := by
    rintro ⟨j, hj, hb⟩
    match j with
    | 0 => exact hb (key _ hc.2)
    | 1 => exact hb (key _ hc.1)
    | 2 => exact hb rfl
    | j + 3 => have : j + 3 < 3 := hj; omega
  have hne : upd (fun _ => PassPc.idle) 0 (PassPc.want exManyPos) ≠ fun _ : Nat => (PassPc.idle : PassPc (List Nat)) := by
    intro h
    have := congrFun h 0
    rw [upd_self] at this; cases this
  have hwant : ∀ t pos, upd (fun _ => PassPc.idle) 0 (PassPc.want exManyPos) t = (PassPc.want pos : PassPc (List Nat)) →
      (pos2index exLevel.fp exLevel.axes pos).isSome := by
    intro t pos hp
    rw [upd_apply] at hp
    split at hp
    · injection hp with hp
      subst hp
      decide +kernel
    · cases hp
  have hbusy : upd (fun _ => PassPc.idle) 0 (PassPc.want exManyPos) 0 ≠ (PassPc.idle : PassPc (List Nat)) := by
    rw [upd_self]; nofun
  obtain ⟨s1, hs1, hc1, -⟩ := C95_can_call (exClose_proper ho) (s := e2.closing s0.data k) 2 0 (by show 2 < 3; decide) hidle
    exManyPos ({ PassState.start [[], [], [], []] with pc := upd (fun _ => .idle) 0 (.want exManyPos) }, fun _ => 0)
    (.use _ _ _ ⟨.call 0 exManyPos (by decide) rfl, hne, hwant⟩ ⟨0, rfl, .inr hbusy⟩ fun t ht => (ht rfl).elim) ⟨rfl, rfl⟩
  exact ⟨s0, exClose_proper ho, _, s1, hr, h0, hidle, hs1, hc1⟩

/-! ### Closing in different orders

Two PASS_THROUGH grids, two processes. Process 0 closes grid 0 first, process 1 closes grid 1 first. -/

def exCross : ManyClose (List Nat) :=
  { n := 2, procs := 2, rank := fun t => t % 4 / 2
    L := fun _ => (passSys exLevel (fun t => t / 4 * 2 + t % 2) (fun t => t < 8 ∧ t % 4 < 2) [[], [], [], []]).closeSys
      (fun t => t % 4 / 2) 2
    owner := fun _ _ => none
    closes := fun _ => True
    before := fun r j i => i = 1 - r ∧ j = r }

/-- Nobody uses the grids; the closing of grid `i` is at `K i`. -/
def exCrossSt (K : Nat → Nat → Nat) : exCross.St := ⟨fun i => (PassState.start [[], [], [], []], K i), fun _ _ => []⟩

theorem exCross_call {K : Nat → Nat → Nat} {r i : Nat} (hr : r < 2) (hi : i < 2) (h0 : K i r = 0) (h : i = r) :
    ManyCloseStep exCross true (exCrossSt K) (exCrossSt (upd K i (upd (K i) r 1))) := by
  have hst := ManyCloseStep.level (G := exCross) (early := true) (exCrossSt K) i
    (PassState.start [[], [], [], []], upd (K i) r 1) (fun _ _ => []) hi
    (LevelCloseStep.call _ (K i) r hr h0 fun t _ hb => hb rfl) (fun t ht _ _ _ => (ht rfl).elim)
    (fun k t ht hn => (hn ht).elim) (fun q r => .none _ _) (fun q hq => ⟨trivial, ?_, nofun⟩)
  · convert hst using 1
    unfold exCrossSt
    congr 1
    funext j
    by_cases e : j = i
    · subst e
      rw [upd_self]
      exact (Function.update_self (β := fun _ => (exCross.L 0).S) ..).symm
    · rw [upd_ne _ _ e]
      exact (Function.update_of_ne (β := fun _ => (exCross.L 0).S) e _ (exCrossSt K).lv).symm
  · rintro j ⟨h1, rfl⟩
    obtain rfl : j = r := by
      by_contra e
      exact hq (upd_ne _ _ e)
    omega

/-- **C95**, why the order matters: if two processes close two grids in different orders, each waits in `close` for
the other one, forever, although nobody uses the grids. -/
theorem C95_other_order : ∃ (G : ManyClose (List Nat)) (f : Nat → OpenedFile (List Nat)), ProperClosing G f ∧
    (∀ r j i, r < G.procs → (G.before r j i ↔ (r = 0 ∧ j = 0 ∧ i = 1) ∨ (r = 1 ∧ j = 1 ∧ i = 0))) ∧
    ∃ s, ManyCloseReach G s ∧ (∀ t, ¬ CloseBusy G s t) ∧
      (∀ i r, i < G.n → r < G.procs → G.closes i ∧ ¬ ClosedBy G s i r) ∧ ∀ early s', ¬ CloseQuiet G early s s' := by
  refine ⟨exCross, fun _ => exManyFile, ⟨fun i _ => .other _ (exMany_proper 2 (by decide)), fun i _ r tag ht => ?_, fun t => ?_⟩, ?_, exCrossSt (upd (upd (fun _ _ => 0) 0 (upd (fun _ => 0) 0 1)) 1 (upd (fun _ => 0) 1 1)),
    ?_, ?_, ?_, ?_⟩
  · cases ht
  · show t % 4 / 2 < 2
    omega
  · intro r j i hr
    have hr : r < 2 := hr
    show (i = 1 - r ∧ j = r) ↔ _
    omega
  · refine .step (.step (.init (s := exCrossSt fun _ _ => 0) ⟨fun i => ⟨rfl, rfl⟩, fun _ _ => rfl⟩)
      (exCross_call (r := 0) (i := 0) ?_ ?_ rfl rfl)) (exCross_call (r := 1) (i := 1) ?_ ?_ rfl rfl) <;> decide
  · rintro t ⟨i, -, hb⟩; exact hb rfl
  · intro i r hi hr
    change i < 2 at hi
    change r < 2 at hr
    refine ⟨trivial, ?_⟩
    obtain rfl | rfl : i = 0 ∨ i = 1 := by omega
    all_goals
      obtain rfl | rfl : r = 0 ∨ r = 1 := by omega
      all_goals exact fun h => nomatch h
  · rintro early s' ⟨hs, hq⟩
    cases hs with
    | level i x net' hi hst hb hu hn hc =>
      change i < 2 at hi
      have hq' : ∀ t, ¬ (exCross.L i).busy x t := fun t ht => by
        obtain ⟨j, -, hj⟩ := hq t ⟨i, hi, by
          rw [show (⟨Function.update (exCrossSt _).lv i x, net'⟩ : exCross.St).lv i = x from Function.update_self ..]
          exact ht⟩
        exact hj rfl
      have hst : LevelCloseStep (passSys exLevel (fun t => t / 4 * 2 + t % 2) (fun t => t < 8 ∧ t % 4 < 2) [[], [], [], []])
          (fun t => t % 4 / 2) 2 (PassState.start [[], [], [], []],
            upd (upd (fun _ _ => 0) 0 (upd (fun _ => 0) 0 1)) 1 (upd (fun _ => 0) 1 1) i) x := by
        cases early <;> exact hst
      cases hst with
      | use _ x' _ h1 h2 h3 =>
        obtain ⟨t, -, h2⟩ := h2
        rcases h2 with h2 | h2
        · exact h2 rfl
        · exact hq' t h2
      | call _ _ r hr h0 h1 =>
        have hr2 := hc r (by
          show upd _ r 1 r ≠ _
          rw [upd_self]
          intro e
          exact absurd (h0.symm.trans e.symm) (by decide))
        obtain rfl | rfl : i = 0 ∨ i = 1 := by omega
        · obtain rfl | rfl : r = 0 ∨ r = 1 := by omega
          · cases h0
          · exact nomatch (show (1 : Nat) = 3 from hr2.2.1 1 ⟨rfl, rfl⟩)
        · obtain rfl | rfl : r = 0 ∨ r = 1 := by omega
          · exact nomatch (show (1 : Nat) = 3 from hr2.2.1 0 ⟨rfl, rfl⟩)
          · cases h0
      | pass _ _ r h1 h2 =>
        have := h2 (1 - i) (by omega)
        obtain rfl | rfl : i = 0 ∨ i = 1 := by omega
        · exact absurd (show 1 ≤ 0 from this) (by decide)
        · exact absurd (show 1 ≤ 0 from this) (by decide)
      | free _ _ r h0 =>
        obtain rfl | rfl : i = 0 ∨ i = 1 := by omega
        all_goals
          change upd (fun _ => 0) _ 1 r = 2 at h0
          rw [upd_apply] at h0
          split at h0 <;> cases h0

end Asagi.Props
