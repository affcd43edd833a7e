import Verif.Proofs.CloseSessionsAll
import Verif.Props.CommSessions
import Verif.Props.ManyClose
/-
C96: several grids, each from its `setParam` calls to `close`, are used and closed at the same time, with and without the
communication thread.
-/
namespace Asagi.Props
open Asagi Asagi.Spec
variable {α : Type} {Q : Program α} {G : ManyClose α} {x : Nat → LevelVar α}

theorem closeProgram_fine (hQ : ProperCloseProgram Q x) (hG : Q.RunsClose G) (i : Nat) (hi : i < G.n) :
    (G.L i).Fine (Q.V i).member G.rank ⟨(x i).fp, cellCentered (Q.V i).S.params, (x i).nc, (x i).val⟩ ∧
    ((G.L i).Callable G.rank fun t pos =>
      (pos2index (x i).fp (openAxes (x i).fp false (x i).nc) pos).isSome ∧ (Q.V i).team t) ∧
    ∀ s t, (G.L i).Reach s → (G.L i).busy s t → (Q.V i).member (G.rank t) := by
  rw [hG.n] at hi
  rw [hG.rank]
  exact session_fine (hQ.level i hi) (hQ.place i hi) (hQ.axes i hi) (hQ.sizes i hi) (hG.sys i hi)

theorem closeProgram_owner (hG : Q.RunsClose G) (i : Nat) (hi : i < G.n) (r : Nat) :
    ∀ tag ∈ (G.L i).tags r, G.owner r tag = some i := by
  rw [hG.n] at hi
  intro tag ht
  obtain ⟨h1, h2⟩ := close_tags (hG.sys i hi) r tag ht
  exact hG.owner i hi r h1 tag h2

/-- **C96**, in the arithmetic of the machine: the value at the index that is computed for the position, which does not
depend on any parameter of any grid nor on the grids that are closed. -/
theorem C96_value (hQ : ProperCloseProgram Q x) (hG : Q.RunsClose G) {s s1 s2 : G.St} (h : ManyCloseReach G s) (i t : Nat)
    (hi : i < Q.n) (pos : List Dbl) (idx : List Nat)
    (hp : pos2index (x i).fp (openAxes (x i).fp false (x i).nc) pos = some idx) (hs : ManyCloseStep G true s s1)
    (hc : (G.L i).called t pos (s.lv i) (s1.lv i)) (hd : CloseDuring G i t s1 s2) (v : α)
    (hv : (G.L i).returns t (s2.lv i) v) : v = (x i).val idx := by
  have hF := fun i hi => (closeProgram_fine hQ hG i hi).1
  have hi' : i < G.n := by rw [hG.n]; exact hi
  have hst : (G.L i).step (s.lv i) (s1.lv i) := by
    obtain ⟨e1, e2⟩ := (closeProgram_fine hQ hG i hi').2.1.calledBusy _ _ _ _ hc
    cases hs with
    | level j y net' hj hst =>
      by_cases e : i = j
      · subst e
        rw [show (⟨Function.update s.lv i y, net'⟩ : G.St).lv i = y from Function.update_self ..]; exact hst
      · rw [show (⟨Function.update s.lv j y, net'⟩ : G.St).lv i = s.lv i from Function.update_of_ne e ..] at e2
        exact absurd e2 e1
  rw [pos2index_valuePosition _ false (cellCentered (Q.V i).S.params)] at hp
  exact (hF i hi').good.value _ _ _ t pos idx v (close_level (mem := fun i => (Q.V i).member) hF h i) hst hc
    (many_during (comm_during (close_during (mem := fun i => (Q.V i).member) hF hd))) hv hp

/-- **C96.** Any number of grids, each configured by any sequence of `setParam` calls, opened by some of the processes for
any variable with equidistant samples, with or without the communication thread; the threads of all processes use them
and the processes close them, in any order. Whatever a getter returns is the value of the sample of the variable of its
level that is nearest to the position. -/
theorem C96_nearest_value (hQ : ProperCloseProgram Q x) (hG : Q.RunsClose G) {s s1 s2 : G.St} (h : ManyCloseReach G s)
    (i t : Nat) (hi : i < Q.n) (hfp : (x i).fp = .exact) (hf : RegularFile (x i).nc) (pos : List ℚ)
    (hpos : pos.length = (x i).nc.length) (hs : ManyCloseStep G true s s1)
    (hc : (G.L i).called t (pos.map .fin) (s.lv i) (s1.lv i)) (hd : CloseDuring G i t s1 s2) (v : α)
    (hv : (G.L i).returns t (s2.lv i) v) : ∃ idx, Selected (x i).nc pos idx ∧ v = (x i).val idx := by
  obtain ⟨idx, e1, e2, -⟩ := C01_nearest_sample false (x i).nc hf pos hpos
  exact ⟨idx, e2, C96_value hQ hG h i t hi _ idx (by rw [hfp]; exact e1) hs hc hd v hv⟩

/-- **C96.** After any history, whatever other threads and other processes do, which grids are closed or in `close`: a
thread that is in no getter can call a getter of each level that it has opened and that its process has not begun to
close, for each position. -/
theorem C96_can_call (hQ : ProperCloseProgram Q x) (hG : Q.RunsClose G) {s : G.St} (h : ManyCloseReach G s) (i t : Nat)
    (hi : i < Q.n) (ht : (Q.V i).team t) (hidle : ¬ CloseBusy G s t) (hopen : (G.L i).stage (s.lv i) (Q.rank t) = 0)
    (hfp : (x i).fp = .exact) (hf : RegularFile (x i).nc) (pos : List ℚ) (hpos : pos.length = (x i).nc.length) :
    ∃ s1, ManyCloseStep G true s s1 ∧ (G.L i).called t (pos.map .fin) (s.lv i) (s1.lv i) ∧
      ∀ j, j ≠ i → s1.lv j = s.lv j := by
  obtain ⟨idx, e1, -, -⟩ := C01_nearest_sample false (x i).nc hf pos hpos
  rw [← hfp] at e1
  have hF := fun i hi => (closeProgram_fine hQ hG i hi).1
  have hi' : i < G.n := by rw [hG.n]; exact hi
  have hb : ¬ (G.L i).busy (s.lv i) t := fun hb => hidle ⟨i, hi', hb⟩
  obtain ⟨y, h1, h2, h3, h4, h5, h6⟩ := (closeProgram_fine hQ hG i hi').2.1.canCall (s.lv i) t _
    (close_level (mem := fun i => (Q.V i).member) hF h i) hb (by rw [hG.rank]; exact hopen) ⟨by rw [e1]; rfl, ht⟩
  refine ⟨⟨Function.update s.lv i y, s.net⟩, .level s i y s.net hi' h1 (fun u hu hn j hj hb' => ?_)
    (fun k u h5 h6 => absurd (h4 k u h5) h6) (fun q r => ?_) (fun r hr => (hr (by rw [h6])).elim), ?_,
    fun j hj => Function.update_of_ne hj ..⟩
  · rcases h3 u hu with e | e
    · exact hn e
    · subst e; exact hidle ⟨j, hj, hb'⟩
  · rw [h5]; exact .none _ _
  · rw [show (⟨Function.update s.lv i y, s.net⟩ : G.St).lv i = y from Function.update_self ..]; exact h2

/-- **C96.** A grid that is in use is not closed: while a thread is inside of a getter of a grid, its process has not
called `close` for this grid, and no process has gone beyond the barrier of this `close`. -/
theorem C96_in_use (hQ : ProperCloseProgram Q x) (hG : Q.RunsClose G) {s : G.St} (h : ManyCloseReach G s) (i t : Nat)
    (hi : i < Q.n) (hb : (G.L i).busy (s.lv i) t) :
    (G.L i).stage (s.lv i) (Q.rank t) = 0 ∧ ∀ r, (G.L i).stage (s.lv i) r ≤ 1 := by
  have hF := fun i hi => (closeProgram_fine hQ hG i hi).1
  have hi' : i < G.n := by rw [hG.n]; exact hi
  have hl := close_level (mem := fun i => (Q.V i).member) hF h i
  have h0 : (G.L i).stage (s.lv i) (G.rank t) = 0 := Classical.byContradiction fun h0 => (hF i hi').idle _ t hl h0 hb
  exact ⟨hG.rank ▸ h0, fun r => Nat.le_of_not_lt fun h2 =>
    (hF i hi').bar _ r hl h2 (G.rank t) ((closeProgram_fine hQ hG i hi').2.2 _ t hl hb) h0⟩

/-- **C96.** A process that has not opened a grid does not close it. -/
theorem C96_outsider (hQ : ProperCloseProgram Q x) (hG : Q.RunsClose G) {s : G.St} (h : ManyCloseReach G s) (i r : Nat)
    (hi : i < Q.n) (hr : ¬ (Q.V i).member r) : (G.L i).stage (s.lv i) r = 0 := by
  have hF := fun i hi => (closeProgram_fine hQ hG i hi).1
  exact (hF i (by rw [hG.n]; exact hi)).out _ r (close_level (mem := fun i => (Q.V i).member) hF h i) hr

/-- **C96.** While the communication thread of a process is in `recv` of a grid, `close` has not begun to free what `recv`
uses; this happens in the last step of `close`. -/
theorem C96_outside (hQ : ProperCloseProgram Q x) (hG : Q.RunsClose G) {s : G.St} (h : ManyCloseReach G s) (i r : Nat)
    (hi : i < Q.n) (hin : InCloseRecv (G.L i) (s.lv i) r) : (G.L i).stage (s.lv i) r + 1 < (G.L i).closed :=
  key (hQ.level i hi) (hQ.axes i hi) (hQ.sizes i hi) (hG.sys i hi)
    (close_level (mem := fun i => (Q.V i).member) (fun i hi => (closeProgram_fine hQ hG i hi).1) h i)
    (C95_outside.serves hin)
where
  key {V : OpenLevel α} {W : CloseSys α} {x : LevelVar α} {y : W.S} {P : Nat} {rank : Nat → Nat} (hV : ProperSession rank V x)
      (hne : x.nc ≠ []) (hx : SizesExact x.fp (x.nc.map NcAxis.size)) (hL : CloseImpl V W) (hr : W.Reach y)
      (hin : W.serving y P) : W.stage y P + 1 < W.closed := by
    have hp := hV.possible
    obtain ⟨h1, h2, h3⟩ := session_open hV.reads hV.file hV.opened
    have hO : Opened x.fp (cellCentered V.S.params) x.nc x.val V.c := ⟨hne, hx, _, _, _, _, h3⟩
    obtain ⟨wf, -⟩ := hO.spec
    have hloc : ∀ t, V.loc t < V.sel.ranks := fun t =>
      Nat.div_lt_of_lt_mul (by rw [Nat.mul_comm]; exact hp.threads t)
    cases hL with
    | other L hm hL =>
      change (match V.group.rank P with | some r => False | none => False) at hin
      split at hin <;> exact hin.elim
    | full s0 hk hm hF =>
      change (match V.group.rank P with | some r => y.1.x.comm r ≠ none | none => False) at hin
      show (match V.group.rank P with | some r => y.1.stage r | none => 0) + 1 < 5
      have hr := (local_inv (close_local_inv (close_only_reach hr)).1).1
      cases e : V.group.rank P with
      | none => rw [e] at hin; exact hin.elim
      | some r =>
        rw [e] at hin
        refine Nat.lt_of_not_le fun h5 => ?_
        exact hin (C92_full_outside (X := V.S.xfer V.K V.sel) hloc hr r (Nat.le_of_succ_le_succ h5))
    | cache hk hm =>
      have hC := session_legalMsg hp hV.numbers wf h1 h2 hm
      change (match V.group.rank P with | some r => CommInside y.ms r | none => False) at hin
      show (match V.group.rank P with | some r => CloseSt.stage y r | none => 0) + 1 < 8
      have hr := close_only_reach hr
      cases e : V.group.rank P with
      | none => rw [e] at hin; exact hin.elim
      | some r =>
        rw [e] at hin
        refine Nat.lt_of_not_le fun h5 => ?_
        exact C92_outside hC hloc hr r (Nat.le_of_succ_le_succ h5) hin

/-- **C96.** A thread is inside of one getter at a time; of the threads of a process at most one is inside of the MPI
library (with THREADSAFE_MPI) and at most one inside of the netCDF library, over all grids; the communication thread
of a process works for one grid at a time. -/
theorem C96_one_user (hQ : ProperCloseProgram Q x) (hG : Q.RunsClose G) {s : G.St} (h : ManyCloseReach G s) :
    (∀ t i j, i < G.n → j < G.n → (G.L i).busy (s.lv i) t → (G.L j).busy (s.lv j) t → i = j) ∧
    (∀ k t u i j, i < G.n → j < G.n → CloseInLibrary k (G.L i) (s.lv i) t → CloseInLibrary k (G.L j) (s.lv j) u →
      G.rank t = G.rank u → t = u ∧ i = j) ∧
    ∀ r i j, i < G.n → j < G.n → InCloseRecv (G.L i) (s.lv i) r → InCloseRecv (G.L j) (s.lv j) r → i = j := by
  have hF := fun i hi => (closeProgram_fine hQ hG i hi).1
  have hr := close_reach (mem := fun i => (Q.V i).member) hF h
  have hl := close_level (mem := fun i => (Q.V i).member) hF h
  have := many_excl (G := G.calm.many) (fun i hi => (hF i hi).good.toSafe) (comm_reach hr)
  exact ⟨this.1, fun k t u i j hi hj h1 h2 => this.2 k t u i j hi hj (C95_one_user.key h1 (hl i))
    (C95_one_user.key h2 (hl j)), fun r i j hi hj h1 h2 => comm_serving (close_goods (mem := fun i => (Q.V i).member) hF) hr
      r i j hi hj (C95_outside.serves h1) (C95_outside.serves h2)⟩

/-- **C96.** No message is lost or reaches another grid, also while grids are closed: of the messages on the way from one
process to another one, those with tags of a grid are the ones that this grid has sent and not yet received, in this
order, and there are no others. -/
theorem C96_delivered (hQ : ProperCloseProgram Q x) (hG : Q.RunsClose G) {s : G.St} (h : ManyCloseReach G s) (q r : Nat) :
    (∀ i l, i < G.n → OnTheWayTo (G.L i) (s.lv i) q r l →
      (s.net q r).filter (fun tag => decide (G.owner r tag = some i)) = l) ∧
    ∀ tag ∈ s.net q r, ∃ j, j < G.n ∧ G.owner r tag = some j := by
  have hF := fun i hi => (closeProgram_fine hQ hG i hi).1
  have := comm_net (close_goods (mem := fun i => (Q.V i).member) hF) (closeProgram_owner hG)
    (close_reach (mem := fun i => (Q.V i).member) hF h) q r
  exact ⟨fun i l hi hl => (this.1 i hi).trans (C95_delivered.key hl), this.2⟩

/-- **C96.** If the processes close the grids in one order, closing and using grids cannot block each other: as long as a
thread is inside of a getter of any grid, or a grid that the program closes is not closed in all processes that have
opened it, something can continue without a new call of a getter, even if MPI does not buffer messages. -/
theorem C96_no_deadlock (hQ : ProperCloseProgram Q x) (hG : Q.RunsClose G) (ho : OneOrderFor Q G) {s : G.St}
    (h : ManyCloseReach G s) (ht : (∃ t, CloseBusy G s t) ∨
      ∃ i r, i < G.n ∧ (Q.V i).member r ∧ G.closes i ∧ ¬ ClosedBy G s i r) (early : Bool) :
    ∃ s', CloseQuiet G early s s' :=
  close_progress (mem := fun i => (Q.V i).member) (fun i hi => (closeProgram_fine hQ hG i hi).1) (closeProgram_owner hG)
    (fun r j i hr hb => ho r j i hb hr) h ht early

/-- **C96.** Every access returns and every grid gets closed in every process that has opened it, unless requests for
blocks of CACHE grids with the communication thread are refused again and again (C49): from each state, an execution
without new calls of getters in which `k` requests are refused has at most `N + k * K` steps, and when it cannot be
continued, no thread is inside of a getter and all grids that the program closes are closed. -/
theorem C96_returns (hQ : ProperCloseProgram Q x) (hG : Q.RunsClose G) (ho : OneOrderFor Q G) {s : G.St}
    (h : ManyCloseReach G s) : ∃ N K, ∀ early n k s', CloseQuietRun G early n k s s' → n ≤ N + k * K ∧
      ((∀ s'', ¬ CloseQuiet G early s' s'') → (∀ t, ¬ CloseBusy G s' t) ∧
        ∀ i r, i < G.n → (Q.V i).member r → G.closes i → ClosedBy G s' i r) := by
  have hF := fun i hi => (closeProgram_fine hQ hG i hi).1
  obtain ⟨N, K, hN⟩ := comm_bound (close_goods (mem := fun i => (Q.V i).member) hF)
    (close_reach (mem := fun i => (Q.V i).member) hF h)
  refine ⟨N, K, fun early n k s' hr => ⟨hN true n k s'.calm (close_run (mem := fun i => (Q.V i).member) hF hr),
    fun hend => ?_⟩⟩
  have hno : ¬ ((∃ t, CloseBusy G s' t) ∨ ∃ i r, i < G.n ∧ (Q.V i).member r ∧ G.closes i ∧ ¬ ClosedBy G s' i r) :=
    fun ht => by
      obtain ⟨s'', hq⟩ := C96_no_deadlock hQ hG ho (close_run_reach (mem := fun i => (Q.V i).member) hF h hr) ht early
      exact hend s'' hq
  exact ⟨fun t ht => hno (.inl ⟨t, ht⟩), fun i r hi hr hc => Classical.byContradiction fun hn =>
    hno (.inr ⟨i, r, hi, hr, hc, hn⟩)⟩

/-- **C96.** Closing other grids does not close a grid: one that the program does not close stays open. -/
theorem C96_kept_open (hG : Q.RunsClose G) {s : G.St} (h : ManyCloseReach G s) (i r : Nat) (hi : i < Q.n)
    (hc : ¬ G.closes i) : (G.L i).stage (s.lv i) r = 0 := by
  induction h with
  | @init s h => exact close_impl_start (hG.sys i hi) (h.1 i) r
  | @step s1 s2 _ hs ih =>
    cases hs with
    | level j x net' hj hst hb hu hn hcl =>
      by_cases e : i = j
      · subst e
        rw [show (⟨Function.update s1.lv i x, net'⟩ : G.St).lv i = x from Function.update_self ..]
        by_contra hne
        exact hc (hcl r (by rw [ih]; exact hne)).1
      · rw [show (⟨Function.update s1.lv j x, net'⟩ : G.St).lv i = s1.lv i from Function.update_of_ne e ..]; exact ih

/-- **C96.** Opening such levels gives a running program, whichever grids the processes are going to close in which
order. -/
theorem C96_starts (hQ : ProperCloseProgram Q x) (closes : Nat → Prop) (before : Nat → Nat → Nat → Prop) :
    ∃ G, Q.RunsClose G ∧ G.closes = closes ∧ G.before = before ∧ ∃ s, ManyCloseReach G s ∧ (∀ t, ¬ CloseBusy G s t) ∧
      ∀ i r, i < Q.n → (G.L i).stage (s.lv i) r = 0 := by
  have key : ∀ i, ∃ W : CloseSys α, ∃ s : W.S, W.start s ∧ (i < Q.n → CloseImpl (Q.V i) W) := by
    intro i
    by_cases hi : i < Q.n
    · obtain ⟨W, h1, s, h2, -⟩ := session_close_impl (hQ.level i hi) (hQ.axes i hi) (hQ.sizes i hi)
      exact ⟨W, s, h2, fun _ => h1⟩
    · exact ⟨LevelSys.none.closeSys (fun _ => 0) 0, ((), fun _ => 0), ⟨trivial, rfl⟩, fun h => absurd h hi⟩
  choose L s h1 h2 using key
  classical
  let owner : Nat → Nat → Option Nat := fun P tag =>
    if h : ∃ i, i < Q.n ∧ (Q.V i).group.rank P ≠ none ∧ LevelTag (Q.V i) tag then some h.choose else none
  let G : ManyClose α := ⟨Q.n, 0, Q.rank, L, owner, closes, before⟩
  have hG : Q.RunsClose G := ⟨rfl, rfl, h2, fun i hi P hP tag ht => by
    have hex : ∃ i, i < Q.n ∧ (Q.V i).group.rank P ≠ none ∧ LevelTag (Q.V i) tag := ⟨i, hi, hP, ht⟩
    show (if h : ∃ i, i < Q.n ∧ (Q.V i).group.rank P ≠ none ∧ LevelTag (Q.V i) tag then some h.choose else none) = some i
    rw [dif_pos hex]
    exact congrArg some (hQ.tags _ i hex.choose_spec.1 hi P hex.choose_spec.2.1 hP tag hex.choose_spec.2.2 ht)⟩
  refine ⟨G, hG, rfl, rfl, ⟨s, fun _ _ => []⟩, .init ⟨h1, fun _ _ => rfl⟩, ?_,
    fun i r hi => close_impl_start (h2 i hi) (h1 i) r⟩
  rintro t ⟨i, hi, hb⟩
  exact (closeProgram_fine hQ hG i hi).1.good.fresh _ t (h1 i) hb

/-- **C96.** Without CACHE grids with the communication thread, an execution without new calls of getters has at most `N`
steps, and when it cannot be continued, no thread is inside of a getter and all grids that the program closes are
closed. -/
theorem C96_all_close (hQ : ProperCloseProgram Q x) (hG : Q.RunsClose G) (ho : OneOrderFor Q G)
    (hc : ∀ i, i < Q.n → (Q.V i).sel.type.kind = .cache → (Q.V i).sel.type.mpi ≠ .thread) {s : G.St}
    (h : ManyCloseReach G s) : ∃ N, ∀ early n k s', CloseQuietRun G early n k s s' → n ≤ N ∧
      ((∀ s'', ¬ CloseQuiet G early s' s'') → (∀ t, ¬ CloseBusy G s' t) ∧
        ∀ i r, i < G.n → (Q.V i).member r → G.closes i → ClosedBy G s' i r) := by
  obtain ⟨N, K, hN⟩ := C96_returns hQ hG ho h
  refine ⟨N, fun early n k s' hr => ?_⟩
  have hk : k = 0 := none_refused (fun i hi => by
    rw [hG.n] at hi
    exact close_not_refused (hG.sys i hi) (hc i hi)) hr
  have := hN early n k s' hr
  rw [hk, Nat.zero_mul, Nat.add_zero] at this
  exact this
where
  none_refused (hc : ∀ i, i < G.n → ∀ y y', ¬ (G.L i).refused y y') {early : Bool} {n k : Nat} {a b : G.St}
      (hr : CloseQuietRun G early n k a b) : k = 0 := by
    induction hr with
    | zero => rfl
    | served _ _ _ ih => exact ih
    | refused _ _ hf => obtain ⟨i, hi, hf⟩ := hf; exact (hc i hi _ _ hf).elim

/-- A thread that is inside of a getter can be brought to its return without new calls. -/
theorem closeProgram_returns (hQ : ProperCloseProgram Q x) (hG : Q.RunsClose G) (ho : OneOrderFor Q G)
    (hc : ∀ i, i < Q.n → (Q.V i).sel.type.kind = .cache → (Q.V i).sel.type.mpi ≠ .thread) {s : G.St}
    (h : ManyCloseReach G s) {i t : Nat} (hi : i < G.n) (hb : (G.L i).busy (s.lv i) t) :
    ∃ s2 v, CloseDuring G i t s s2 ∧ (G.L i).returns t (s2.lv i) v := by
  have hF := fun i hi => (closeProgram_fine hQ hG i hi).1
  obtain ⟨N, hN⟩ := C96_all_close hQ hG ho hc h
  obtain ⟨n, s2, ⟨-, h2, -, -⟩, v, h3⟩ := run_until
    (fun n w => (∃ k, CloseQuietRun G true n k s w) ∧ CloseDuring G i t s w ∧ ManyCloseReach G w ∧
      (G.L i).busy (w.lv i) t)
    (fun w => ∃ v, (G.L i).returns t (w.lv i) v) N (fun n w h => by
      obtain ⟨⟨k, h⟩, -⟩ := h
      exact (hN true n k w h).1)
    (fun n w h' => by
      obtain ⟨⟨k, h1⟩, h2, h3, h4⟩ := h'
      obtain ⟨w', hq⟩ := C96_no_deadlock hQ hG ho h3 (.inl ⟨t, i, hi, h4⟩) true
      by_cases hid : (G.L i).busy (w'.lv i) t
      · refine .inr ⟨w', ?_, .tail h2 hq.1 hid, .step h3 hq.1, hid⟩
        by_cases hf : CloseRefused G w w'
        · exact ⟨_, .refused h1 hq hf⟩
        · exact ⟨_, .served h1 hq hf⟩
      · refine .inl ?_
        obtain ⟨hs, -⟩ := hq
        cases hs with
        | level j y net' hj hst =>
          by_cases e : i = j
          · subst e
            rw [show (⟨Function.update w.lv i y, net'⟩ : G.St).lv i = y from Function.update_self ..] at hid
            exact (closeProgram_fine hQ hG i hi).2.1.leaves _ _ t (close_level (mem := fun i => (Q.V i).member) hF h3 i)
              hst h4 hid
          · rw [show (⟨Function.update w.lv j y, net'⟩ : G.St).lv i = w.lv i from Function.update_of_ne e ..] at hid
            exact absurd h4 hid)
    s ⟨⟨0, .zero _⟩, .refl _, h, hb⟩
  exact ⟨s2, v, h2, h3⟩

/-- **C96.** Without CACHE grids with the communication thread: after any history, a thread that is in no getter can call
a getter of each level that it has opened and that its process has not begun to close, for each position; the call can
return, and the value that it returns is the value of the nearest sample. -/
theorem C96_getter_returns (hQ : ProperCloseProgram Q x) (hG : Q.RunsClose G) (ho : OneOrderFor Q G)
    (hn : ∀ i, i < Q.n → (Q.V i).sel.type.kind = .cache → (Q.V i).sel.type.mpi ≠ .thread) {s : G.St}
    (h : ManyCloseReach G s) (i t : Nat) (hi : i < Q.n) (ht : (Q.V i).team t) (hidle : ¬ CloseBusy G s t)
    (hopen : (G.L i).stage (s.lv i) (Q.rank t) = 0) (hfp : (x i).fp = .exact) (hf : RegularFile (x i).nc)
    (pos : List ℚ) (hpos : pos.length = (x i).nc.length) :
    ∃ idx, Selected (x i).nc pos idx ∧
      (∃ s1, ManyCloseStep G true s s1 ∧ (G.L i).called t (pos.map .fin) (s.lv i) (s1.lv i)) ∧
      ∀ s1, ManyCloseStep G true s s1 → (G.L i).called t (pos.map .fin) (s.lv i) (s1.lv i) → ∀ v,
        (∃ s2, CloseDuring G i t s1 s2 ∧ (G.L i).returns t (s2.lv i) v) ↔ v = (x i).val idx := by
  obtain ⟨idx, e1, e2, -⟩ := C01_nearest_sample false (x i).nc hf pos hpos
  rw [← hfp] at e1
  have hi' : i < G.n := by rw [hG.n]; exact hi
  obtain ⟨s1, c1, c2, -⟩ := C96_can_call hQ hG h i t hi ht hidle hopen hfp hf pos hpos
  refine ⟨idx, e2, ⟨s1, c1, c2⟩, fun s1 hs hc v => ⟨?_, ?_⟩⟩
  · rintro ⟨s2, hd, hv⟩
    exact C96_value hQ hG h i t hi _ idx e1 hs hc hd v hv
  · rintro rfl
    obtain ⟨s2, w, hd, hw⟩ := closeProgram_returns hQ hG ho hn (.step h hs) hi'
      ((closeProgram_fine hQ hG i hi').2.1.calledBusy _ _ _ _ hc).2
    rw [← C96_value hQ hG h i t hi _ idx e1 hs hc hd w hw]
    exact ⟨s2, hd, hw⟩

/-- **C96.** Without CACHE grids with the communication thread: after any history, the program can come to a state in which
no thread is in a getter and all grids that it closes are closed by all processes that have opened them. -/
theorem C96_can_close (hQ : ProperCloseProgram Q x) (hG : Q.RunsClose G) (ho : OneOrderFor Q G)
    (hc : ∀ i, i < Q.n → (Q.V i).sel.type.kind = .cache → (Q.V i).sel.type.mpi ≠ .thread) {s : G.St}
    (h : ManyCloseReach G s) : ∃ s', ManyCloseReach G s' ∧ (∀ t, ¬ CloseBusy G s' t) ∧
      ∀ i r, i < G.n → (Q.V i).member r → G.closes i → ClosedBy G s' i r := by
  have hF := fun i hi => (closeProgram_fine hQ hG i hi).1
  obtain ⟨N, hN⟩ := C96_all_close hQ hG ho hc h
  obtain ⟨n, s2, ⟨-, h2⟩, h3⟩ := run_until
    (fun n w => (∃ k, CloseQuietRun G true n k s w) ∧ ManyCloseReach G w)
    (fun w => (∀ t, ¬ CloseBusy G w t) ∧ ∀ i r, i < G.n → (Q.V i).member r → G.closes i → ClosedBy G w i r) N
    (fun n w h => by
      obtain ⟨⟨k, h⟩, -⟩ := h
      exact (hN true n k w h).1)
    (fun n w h' => by
      obtain ⟨⟨k, h1⟩, h2⟩ := h'
      by_cases hend : ∃ w', CloseQuiet G true w w'
      · obtain ⟨w', hq⟩ := hend
        refine .inr ⟨w', ?_, .step h2 hq.1⟩
        by_cases hf : CloseRefused G w w'
        · exact ⟨_, .refused h1 hq hf⟩
        · exact ⟨_, .served h1 hq hf⟩
      · exact .inl ((hN true n k w h1).2 fun w' hq => hend ⟨w', hq⟩))
    s ⟨⟨0, .zero _⟩, h⟩
  exact ⟨s2, h2, h3⟩

/-! ### Programs with five grids

The five grids of C89. The processes 0 to 3 close the first FULL grid, then the CACHE grid with the communication thread;
the processes 4 to 7 close their FULL grid; the other grids stay open. -/

theorem exGroup_member {V : OpenLevel (List Nat)} (h : V.sel.ranks = 4) {k sh : Nat} (hk : k < 2) (hs : sh < 4)
    (hg : V.group = exGroup k sh) (P : Nat) : V.member P ↔ 4 * k ≤ P ∧ P < 4 * k + 4 := by
  unfold OpenLevel.member
  rw [h, hg]
  have hr := exGroup_proper hk hs
  constructor
  · rintro ⟨r, h1, h2⟩
    have h2 : r / 4 * 8 + 4 * k + (r + sh) % 4 = P := (hr P r).1 h2
    omega
  · intro h1
    refine ⟨(P % 4 + (4 - sh)) % 4, Nat.mod_lt _ (by decide), (hr P _).2 ?_⟩
    show (P % 4 + (4 - sh)) % 4 / 4 * 8 + 4 * k + ((P % 4 + (4 - sh)) % 4 + sh) % 4 = P
    omega

/-- The closing order: the grids 0, 3 and 4 are closed, 0 before 3 in the processes 0 to 3. -/
def exCloses (i : Nat) : Prop := i = 0 ∨ i = 3 ∨ i = 4

def exBefore (r j i : Nat) : Prop := r < 4 ∧ j = 0 ∧ i = 3

theorem exCloseProgram : ∃ Q : Program (List Nat), Q.n = 5 ∧ ProperCloseProgram Q (fun _ => exVar) ∧
    (Q.V 0).sel.type = .FULL_MPITHREAD_NUMA ∧ (Q.V 1).sel.type = .CACHE_MPIWIN_NUMA ∧
    (Q.V 2).sel.type = .PASS_THROUGH ∧ (Q.V 3).sel.type = .CACHE_MPITHREAD_NUMA ∧
    (Q.V 4).sel.type = .FULL_MPITHREAD_NUMA ∧ (∀ t, t < 8 → (Q.V 0).team t) ∧ (∀ t, t < 8 → (Q.V 1).team t) ∧
    (∀ t, t < 8 → Q.rank t = t / 2) ∧
    (∀ r, (Q.V 0).member r ↔ r < 4) ∧ (∀ r, (Q.V 3).member r ↔ r < 4) ∧ (∀ r, (Q.V 4).member r ↔ 4 ≤ r ∧ r < 8) ∧
    ∀ G : ManyClose (List Nat), G.closes = exCloses → G.before = exBefore → OneOrderFor Q G := by
  obtain ⟨Q, h1, hQ, t0, t1, t2, t3, t4, ht, -, -, ht1, hn, g0, g3, g4, hr⟩ := exCommProgram
  have m0 := fun P => exGroup_member (hn 0) (by decide) (by decide) g0 P
  have m3 := fun P => exGroup_member (hn 3) (by decide) (by decide) g3 P
  have m4 := fun P => exGroup_member (hn 4) (by decide) (by decide) g4 P
  refine ⟨Q, h1, ⟨hQ, fun i hi t ht => (hQ.level i hi).place (by rw [hn]; decide) t ht⟩, t0, t1, t2, t3, t4, ht, ht1,
    fun t ht => by rw [hr]; omega, fun r => by rw [m0]; omega, fun r => by rw [m3]; omega, m4,
    fun G e1 e2 r j i hb hm => ?_⟩
  rw [e2] at hb
  obtain ⟨b1, rfl, rfl⟩ := hb
  exact ⟨by decide, by rw [e1]; exact .inl rfl, (m0 r).2 (by omega)⟩

/-- The five grids meet the hypotheses: there is such a program with this order. In each state in which its process has not
begun to close the first grid, thread 5 can call a getter of it, and whatever it returns for position (3.6, 8.9) is the
value of sample (1, 4); the CACHE grid with windows stays open. -/
example : ∃ Q : Program (List Nat), Q.n = 5 ∧ ProperCloseProgram Q (fun _ => exVar) ∧
    (∃ G, Q.RunsClose G ∧ OneOrderFor Q G ∧ G.closes = exCloses ∧
      ∃ s, ManyCloseReach G s ∧ (∀ t, ¬ CloseBusy G s t) ∧ ∀ i r, i < 5 → (G.L i).stage (s.lv i) r = 0) ∧
    ∀ G, Q.RunsClose G → G.closes = exCloses → ∀ s, ManyCloseReach G s →
      (∀ r, (G.L 1).stage (s.lv 1) r = 0) ∧ (¬ CloseBusy G s 5 → (G.L 0).stage (s.lv 0) 2 = 0 →
      (∃ s1, ManyCloseStep G true s s1 ∧ (G.L 0).called 5 [.fin 3.6, .fin 8.9] (s.lv 0) (s1.lv 0)) ∧
      ∀ s1 s2 v, ManyCloseStep G true s s1 → (G.L 0).called 5 [.fin 3.6, .fin 8.9] (s.lv 0) (s1.lv 0) →
        CloseDuring G 0 5 s1 s2 → (G.L 0).returns 5 (s2.lv 0) v → v = [1, 4]) := by
  obtain ⟨Q, h1, hQ, -, -, -, -, -, ht, -, hr, -, -, -, ho⟩ := exCloseProgram
  obtain ⟨G, hG, c1, c2, s, c3, c4, c5⟩ := C96_starts hQ exCloses exBefore
  refine ⟨Q, h1, hQ, ⟨G, hG, ho G c1 c2, c1, s, c3, c4, fun i r hi => c5 i r (by rw [h1]; exact hi)⟩,
    fun G hG hc s hs => ⟨fun r => C96_kept_open hG hs 1 r (by rw [h1]; decide) (by rw [hc]; unfold exCloses; decide),
      fun hb h0 => ?_⟩⟩
  obtain ⟨s1, a1, a2, -⟩ := C96_can_call hQ hG hs 0 5 (by rw [h1]; decide) (ht 5 (by decide)) hb
    (by rw [hr 5 (by decide)]; exact h0) rfl exFile_regular [3.6, 8.9] rfl
  refine ⟨⟨s1, a1, a2⟩, fun s1 s2 v e1 e2 e3 e4 => ?_⟩
  obtain ⟨j, j1, j2⟩ := C96_nearest_value hQ hG hs 0 5 (by rw [h1]; decide) rfl exFile_regular [3.6, 8.9] rfl e1 e2 e3 v e4
  obtain ⟨k, k1, k2, -⟩ := C01_nearest_sample false exFile exFile_regular [3.6, 8.9] rfl
  have hk : k = [1, 4] := Option.some.inj (k1.symm.trans (by decide +kernel))
  subst hk
  rw [selected_unique k2 j1]
  exact j2

/-- Without the last two grids: a state is reachable in which the processes 0 to 3 have closed the first grid and process 4
has not; there the grid with windows is open, the call of thread 5 for it can return this value and no other. -/
example : ∃ (Q : Program (List Nat)) (G : ManyClose (List Nat)), Q.n = 3 ∧ ProperCloseProgram Q (fun _ => exVar) ∧
    Q.RunsClose G ∧ OneOrderFor Q G ∧ ∃ s, ManyCloseReach G s ∧ (∀ r, r < 4 → ClosedBy G s 0 r) ∧
      (G.L 0).stage (s.lv 0) 4 = 0 ∧
      (∃ s1, ManyCloseStep G true s s1 ∧ (G.L 1).called 5 [.fin 3.6, .fin 8.9] (s.lv 1) (s1.lv 1)) ∧
      ∀ s1, ManyCloseStep G true s s1 → (G.L 1).called 5 [.fin 3.6, .fin 8.9] (s.lv 1) (s1.lv 1) → ∀ v,
        (∃ s2, CloseDuring G 1 5 s1 s2 ∧ (G.L 1).returns 5 (s2.lv 1) v) ↔ v = [1, 4] := by
  obtain ⟨Q, h1, hQ, t0, t1, t2, -, -, -, ht, hr, m0, m3, -, ho⟩ := exCloseProgram
  have up : ∀ i, i < 3 → i < Q.n := fun i hi => by omega
  let R : Program (List Nat) := ⟨3, Q.rank, Q.V⟩
  have hR : ProperCloseProgram R (fun _ => exVar) :=
    ⟨⟨fun i hi => hQ.level i (up i hi), fun i j hi hj => hQ.tags i j (up i hi) (up j hj), fun i hi => hQ.axes i (up i hi),
      fun i hi => hQ.sizes i (up i hi)⟩, fun i hi => hQ.place i (up i hi)⟩
  have hth : ∀ i, i < R.n → (R.V i).sel.type.kind = .cache → (R.V i).sel.type.mpi ≠ .thread := fun i hi => by
    change i < 3 at hi
    show (Q.V i).sel.type.kind = .cache → (Q.V i).sel.type.mpi ≠ .thread
    match i with
    | 0 => rw [t0]; nofun
    | 1 => rw [t1]; nofun
    | 2 => rw [t2]; nofun
  obtain ⟨G, hG, c1, c2, s0, c3, -⟩ := C96_starts hR exCloses exBefore
  have hn : G.n = 3 := hG.n
  obtain ⟨s, hs, hidle, hcl⟩ := C96_can_close hR hG (ho G c1 c2) hth c3
  have h1o : (G.L 1).stage (s.lv 1) (R.rank 5) = 0 :=
    C96_kept_open hG hs 1 _ (show 1 < 3 by decide) (by rw [c1]; unfold exCloses; decide)
  obtain ⟨j, j1, j2, j3⟩ := C96_getter_returns hR hG (ho G c1 c2) hth hs 1 5 (show 1 < 3 by decide) (ht 5 (by decide))
    (hidle 5) h1o rfl exFile_regular [3.6, 8.9] rfl
  refine ⟨R, G, rfl, hR, hG, ho G c1 c2, s, hs, fun r hr => hcl 0 r (by rw [hn]; decide) ((m0 r).2 hr) (by rw [c1]; exact .inl rfl),
    C96_outsider hR hG hs 0 4 (show 0 < 3 by decide) (fun h => absurd ((m0 4).1 h) (by decide)), ?_⟩
  obtain ⟨k, k1, k2, -⟩ := C01_nearest_sample false exFile exFile_regular [3.6, 8.9] rfl
  have hk : k = [1, 4] := Option.some.inj (k1.symm.trans (by decide +kernel))
  subst hk
  rw [selected_unique k2 j1]
  exact ⟨j2, j3⟩

end Asagi.Props
