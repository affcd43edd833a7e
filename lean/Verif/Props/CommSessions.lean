import Verif.Proofs.CommSessions
import Verif.Proofs.InLibrary
import Verif.Props.ManySessions
import Verif.Props.ManyComm
/-
C89: several grids, each from its `setParam` calls to the getters, are used at the same time, with and without the
communication thread.
-/
namespace Asagi.Props
open Asagi Asagi.Spec
variable {α : Type} {Q : Program α} {G : ManyComm α} {x : Nat → LevelVar α}

theorem commProgram_good (hQ : ProperCommProgram Q x) (hG : Q.RunsComm G) (i : Nat) (hi : i < G.n) :
    (G.L i).Good ⟨(x i).fp, cellCentered (Q.V i).S.params, (x i).nc, (x i).val⟩ ∧
    (G.L i).toLevelSys.Usable fun t pos =>
      (pos2index (x i).fp (openAxes (x i).fp false (x i).nc) pos).isSome ∧ (Q.V i).team t := by
  rw [hG.n] at hi
  exact session_comm_good (hQ.level i hi) (hQ.axes i hi) (hQ.sizes i hi) (hG.sys i hi)

theorem commProgram_owner (hG : Q.RunsComm G) (i : Nat) (hi : i < G.n) (r : Nat) :
    ∀ tag ∈ (G.L i).tags r, G.owner r tag = some i := by
  rw [hG.n] at hi
  intro tag ht
  obtain ⟨h1, h2⟩ := comm_tags (hG.sys i hi) r tag ht
  exact hG.owner i hi r h1 tag h2

/-- **C89**, in the arithmetic of the machine: the value at the index that is computed for the position, which does not
depend on any parameter of any grid. -/
theorem C89_value (hQ : ProperCommProgram Q x) (hG : Q.RunsComm G) {s s1 s2 : G.St} (h : ManyCommReach G s) (i t : Nat)
    (hi : i < Q.n) (pos : List Dbl) (idx : List Nat)
    (hp : pos2index (x i).fp (openAxes (x i).fp false (x i).nc) pos = some idx) (hs : ManyCommStep G true s s1)
    (hc : (G.L i).called t pos (s.lv i) (s1.lv i)) (hd : CommDuring G i t s1 s2) (v : α)
    (hv : (G.L i).returns t (s2.lv i) v) : v = (x i).val idx := by
  obtain ⟨hg, hu⟩ := commProgram_good hQ hG i (by rw [hG.n]; exact hi)
  have hst : (G.L i).step (s.lv i) (s1.lv i) := by
    obtain ⟨e1, e2⟩ := hu.calledBusy _ _ _ _ hc
    cases hs with
    | level j y net' hj hst =>
      by_cases e : i = j
      · subst e; rw [lv_self]; exact hst
      · rw [lv_ne _ e] at e2; exact absurd e2 e1
  rw [pos2index_valuePosition _ false (cellCentered (Q.V i).S.params)] at hp
  exact hg.value _ _ _ t pos idx v (comm_level h i) hst hc (many_during (comm_during hd)) hv hp

/-- **C89.** Any number of grids, each configured by any sequence of `setParam` calls, opened for any variable with
equidistant samples, with or without the communication thread, and used at the same time by the threads of all
processes. Whatever a getter returns is the value of the sample of the variable of its level that is nearest to the
position. -/
theorem C89_nearest_value (hQ : ProperCommProgram Q x) (hG : Q.RunsComm G) {s s1 s2 : G.St} (h : ManyCommReach G s)
    (i t : Nat) (hi : i < Q.n) (hfp : (x i).fp = .exact) (hf : RegularFile (x i).nc) (pos : List ℚ)
    (hpos : pos.length = (x i).nc.length) (hs : ManyCommStep G true s s1)
    (hc : (G.L i).called t (pos.map .fin) (s.lv i) (s1.lv i)) (hd : CommDuring G i t s1 s2) (v : α)
    (hv : (G.L i).returns t (s2.lv i) v) : ∃ idx, Selected (x i).nc pos idx ∧ v = (x i).val idx := by
  obtain ⟨idx, e1, e2, -⟩ := C01_nearest_sample false (x i).nc hf pos hpos
  exact ⟨idx, e2, C89_value hQ hG h i t hi _ idx (by rw [hfp]; exact e1) hs hc hd v hv⟩

/-- **C89.** A thread is inside of one getter at a time; of the threads of a process at most one is inside of the MPI
library (with THREADSAFE_MPI) and at most one inside of the netCDF library, over all grids; the communication thread
of a process works for one grid at a time. -/
theorem C89_one_user (hQ : ProperCommProgram Q x) (hG : Q.RunsComm G) {s : G.St} (h : ManyCommReach G s) :
    (∀ t i j, i < G.n → j < G.n → (G.L i).busy (s.lv i) t → (G.L j).busy (s.lv j) t → i = j) ∧
    (∀ k t u i j, i < G.n → j < G.n → CommInLibrary k (G.L i) (s.lv i) t → CommInLibrary k (G.L j) (s.lv j) u →
      G.rank t = G.rank u → t = u ∧ i = j) ∧
    ∀ r i j, i < G.n → j < G.n → InRecv (G.L i) (s.lv i) r → InRecv (G.L j) (s.lv j) r → i = j := by
  have hg := fun i hi => (commProgram_good hQ hG i hi).1
  have := many_excl (G := G.many) (fun i hi => (hg i hi).toSafe) (comm_reach h)
  exact ⟨this.1, fun k t u i j hi hj h1 h2 => this.2 k t u i j hi hj (commInLibrary_uses h1 (comm_level h i))
    (commInLibrary_uses h2 (comm_level h j)),
    fun r i j hi hj h1 h2 => comm_serving hg h r i j hi hj (inRecv_serving h1) (inRecv_serving h2)⟩

/-- **C89.** No message is lost or reaches another grid: of the messages on the way from one process to another one, those
with tags of a grid are the ones that this grid has sent and not yet received, in this order, and there are no
others. -/
theorem C89_delivered (hQ : ProperCommProgram Q x) (hG : Q.RunsComm G) {s : G.St} (h : ManyCommReach G s) (q r : Nat) :
    (∀ i l, i < G.n → OnTheWay (G.L i) (s.lv i) q r l →
      (s.net q r).filter (fun tag => decide (G.owner r tag = some i)) = l) ∧
    ∀ tag ∈ s.net q r, ∃ j, j < G.n ∧ G.owner r tag = some j := by
  have := comm_net (fun i hi => (commProgram_good hQ hG i hi).1) (commProgram_owner hG) h q r
  exact ⟨fun i l hi hl => (this.1 i hi).trans (onTheWay_inbox hl), this.2⟩

/-- **C89.** As long as a thread is inside of a getter, some thread or communication thread can continue without a new
call, even if MPI does not buffer messages. -/
theorem C89_no_deadlock (hQ : ProperCommProgram Q x) (hG : Q.RunsComm G) {s : G.St} (h : ManyCommReach G s) (t : Nat)
    (ht : CommBusy G s t) (early : Bool) : ∃ s', CommQuiet G early s s' ∧
      (early = false → ∀ i, i < G.n → s'.lv i = s.lv i ∨ UnbufferedStep (G.L i) (s.lv i) (s'.lv i)) := by
  obtain ⟨s', hs⟩ := comm_progress (fun i hi => (commProgram_good hQ hG i hi).1) (commProgram_owner hG) h ht early
  refine ⟨s', hs, fun he i hi => ?_⟩
  cases hs.1 with
  | level j y net' hj hst =>
    by_cases e : i = j
    · subst e
      rw [lv_self, he] at *
      rw [hG.n] at hi
      exact .inr (unbuffered (hG.sys i hi) hst)
    · rw [lv_ne _ e]; exact .inl rfl
where
  unbuffered {V : OpenLevel α} {L : CommSys α} (h : CommImpl V L) {y y' : L.S}
      (hs : L.stepIf false y y') : UnbufferedStep L y y' := by
    cases h with
    | other L hL => exact .other L _ _ hs
    | full s0 =>
      refine .only _ _ _ _ ?_
      rcases hs.1 with ⟨h1, h2, -⟩ | h
      · exact .translate _ _ _ _ (.withLocal _ _ _ _ (.full _ _ _ _ _ h1) h2)
      · exact .translate _ _ _ _ (.direct _ _ _ _ h.1)
    | cache => exact .only _ _ _ _ (.translate _ _ _ _ (.cache _ _ _ _ hs.1))

/-- **C89.** Every access returns, whatever the other threads do in this and other grids, unless requests for blocks of
CACHE grids with the communication thread are refused again and again (C49): from each state, an execution without new
calls in which `k` requests are refused has at most `N + k * K` steps, and when it cannot be continued, no thread is
inside of a getter. -/
theorem C89_returns (hQ : ProperCommProgram Q x) (hG : Q.RunsComm G) {s : G.St} (h : ManyCommReach G s) :
    ∃ N K, ∀ early n k s', CommQuietRun G early n k s s' → n ≤ N + k * K ∧
      ((∀ s'', ¬ CommQuiet G early s' s'') → ∀ t, ¬ CommBusy G s' t) := by
  have hg := fun i hi => (commProgram_good hQ hG i hi).1
  obtain ⟨N, K, hN⟩ := comm_bound hg h
  refine ⟨N, K, fun early n k s' hr => ⟨hN early n k s' hr, fun hend t ht => ?_⟩⟩
  obtain ⟨s'', hq⟩ := comm_progress hg (commProgram_owner hG) (comm_run_reach hg h hr) ht early
  exact hend s'' hq

/-- **C89.** After any history, with any threads inside of getters of any grids: a thread that is in no getter can call a
getter of each level that it has opened, for each position. -/
theorem C89_can_call (hQ : ProperCommProgram Q x) (hG : Q.RunsComm G) {s : G.St} (h : ManyCommReach G s) (i t : Nat)
    (hi : i < Q.n) (ht : (Q.V i).team t) (hidle : ¬ CommBusy G s t) (hfp : (x i).fp = .exact)
    (hf : RegularFile (x i).nc) (pos : List ℚ) (hpos : pos.length = (x i).nc.length) :
    ∃ s1, ManyCommStep G true s s1 ∧ (G.L i).called t (pos.map .fin) (s.lv i) (s1.lv i) := by
  obtain ⟨idx, e1, -, -⟩ := C01_nearest_sample false (x i).nc hf pos hpos
  rw [← hfp] at e1
  have hi' : i < G.n := by rw [hG.n]; exact hi
  obtain ⟨hg, hu⟩ := commProgram_good hQ hG i hi'
  have hb : ¬ (G.L i).busy (s.lv i) t := fun hb => hidle ⟨i, hi', hb⟩
  obtain ⟨y, h1, h2, h3, h4⟩ := hu.canCall (s.lv i) t _ (comm_level h i) hb ⟨by rw [e1]; rfl, ht⟩
  have hnet := comm_called_inbox (hG.sys i hi) h2
  refine ⟨⟨Function.update s.lv i y, s.net⟩, .level s i y s.net hi' h1 (fun u hu hn j hj hb' => ?_)
    (fun k u h5 h6 => absurd (h4 k u h5) h6) fun q r => ?_, ?_⟩
  · rcases h3 u hu with e | e
    · exact hn e
    · subst e; exact hidle ⟨j, hj, hb'⟩
  · rw [hnet]; exact .none _ _
  · rw [lv_self]; exact h2

/-- **C89.** Without CACHE grids with the communication thread, an execution without new calls has at most `N` steps, and
when it cannot be continued, no thread is inside of a getter. -/
theorem C89_every_access_returns (hQ : ProperCommProgram Q x) (hG : Q.RunsComm G)
    (hc : ∀ i, i < Q.n → (Q.V i).sel.type.kind = .cache → (Q.V i).sel.type.mpi ≠ .thread) {s : G.St}
    (h : ManyCommReach G s) : ∃ N, ∀ early n k s', CommQuietRun G early n k s s' → n ≤ N ∧
      ((∀ s'', ¬ CommQuiet G early s' s'') → ∀ t, ¬ CommBusy G s' t) := by
  obtain ⟨N, K, hN⟩ := C89_returns hQ hG h
  refine ⟨N, fun early n k s' hr => ?_⟩
  have hk : k = 0 := none_refused (fun i hi => by
    rw [hG.n] at hi
    exact comm_not_refused (hG.sys i hi) (hc i hi)) hr
  have := hN early n k s' hr
  rw [hk, Nat.zero_mul, Nat.add_zero] at this
  exact this
where
  none_refused (hc : ∀ i, i < G.n → ∀ y y', ¬ (G.L i).refused y y') {early : Bool} {n k : Nat} {a b : G.St}
      (hr : CommQuietRun G early n k a b) : k = 0 := by
    induction hr with
    | zero => rfl
    | served _ _ _ ih => exact ih
    | refused _ _ hf => obtain ⟨i, hi, hf⟩ := hf; exact (hc i hi _ _ hf).elim

/-- A thread that is inside of a getter can be brought to its return without new calls. -/
theorem commProgram_returns (hQ : ProperCommProgram Q x) (hG : Q.RunsComm G)
    (hc : ∀ i, i < Q.n → (Q.V i).sel.type.kind = .cache → (Q.V i).sel.type.mpi ≠ .thread) {s : G.St}
    (h : ManyCommReach G s) {i t : Nat} (hi : i < G.n) (hb : (G.L i).busy (s.lv i) t) :
    ∃ s2 v, CommDuring G i t s s2 ∧ (G.L i).returns t (s2.lv i) v := by
  obtain ⟨N, hN⟩ := C89_every_access_returns hQ hG hc h
  obtain ⟨n, s2, ⟨-, h2, -, -⟩, v, h3⟩ := run_until
    (fun n w => (∃ k, CommQuietRun G true n k s w) ∧ CommDuring G i t s w ∧ ManyCommReach G w ∧ (G.L i).busy (w.lv i) t)
    (fun w => ∃ v, (G.L i).returns t (w.lv i) v) N (fun n w h => by
      obtain ⟨⟨k, h⟩, -⟩ := h
      exact (hN true n k w h).1)
    (fun n w h' => by
      obtain ⟨⟨k, h1⟩, h2, h3, h4⟩ := h'
      obtain ⟨w', hq, -⟩ := C89_no_deadlock hQ hG h3 t ⟨i, hi, h4⟩ true
      by_cases hid : (G.L i).busy (w'.lv i) t
      · refine .inr ⟨w', ?_, .tail h2 hq.1 hid, .step h3 hq.1, hid⟩
        by_cases hf : CommRefused G w w'
        · exact ⟨_, .refused h1 hq hf⟩
        · exact ⟨_, .served h1 hq hf⟩
      · refine .inl ?_
        obtain ⟨hs, -⟩ := hq
        cases hs with
        | level j y net' hj hst =>
          by_cases e : i = j
          · subst e
            rw [lv_self] at hid
            exact (commProgram_good hQ hG i hi).2.leaves _ _ t (comm_level h3 i) hst h4 hid
          · rw [lv_ne _ e] at hid; exact absurd h4 hid)
    s ⟨⟨0, .zero _⟩, .refl _, h, hb⟩
  exact ⟨s2, v, h2, h3⟩

/-- **C89.** Without CACHE grids with the communication thread: after any history, a thread that is in no getter can call
a getter of each level that it has opened, for each position; the call can return, and the value that it returns is the
value of the nearest sample. -/
theorem C89_getter_returns (hQ : ProperCommProgram Q x) (hG : Q.RunsComm G)
    (hn : ∀ i, i < Q.n → (Q.V i).sel.type.kind = .cache → (Q.V i).sel.type.mpi ≠ .thread) {s : G.St}
    (h : ManyCommReach G s) (i t : Nat) (hi : i < Q.n) (ht : (Q.V i).team t) (hidle : ¬ CommBusy G s t)
    (hfp : (x i).fp = .exact) (hf : RegularFile (x i).nc) (pos : List ℚ) (hpos : pos.length = (x i).nc.length) :
    ∃ idx, Selected (x i).nc pos idx ∧
      (∃ s1, ManyCommStep G true s s1 ∧ (G.L i).called t (pos.map .fin) (s.lv i) (s1.lv i)) ∧
      ∀ s1, ManyCommStep G true s s1 → (G.L i).called t (pos.map .fin) (s.lv i) (s1.lv i) → ∀ v,
        (∃ s2, CommDuring G i t s1 s2 ∧ (G.L i).returns t (s2.lv i) v) ↔ v = (x i).val idx := by
  obtain ⟨idx, e1, e2, -⟩ := C01_nearest_sample false (x i).nc hf pos hpos
  rw [← hfp] at e1
  have hi' : i < G.n := by rw [hG.n]; exact hi
  have hu := (commProgram_good hQ hG i hi').2
  refine ⟨idx, e2, C89_can_call hQ hG h i t hi ht hidle hfp hf pos hpos, fun s1 hs hc v => ⟨?_, ?_⟩⟩
  · rintro ⟨s2, hd, hv⟩
    exact C89_value hQ hG h i t hi _ idx e1 hs hc hd v hv
  · rintro rfl
    obtain ⟨s2, w, hd, hw⟩ := commProgram_returns hQ hG hn (.step h hs) hi' (hu.calledBusy _ _ _ _ hc).2
    rw [← C89_value hQ hG h i t hi _ idx e1 hs hc hd w hw]
    exact ⟨s2, hd, hw⟩

/-- **C89.** Opening such levels gives a running program. -/
theorem C89_starts (hQ : ProperCommProgram Q x) : ∃ G, Q.RunsComm G ∧ ∃ s, ManyCommReach G s ∧ ∀ t, ¬ CommBusy G s t := by
  have key : ∀ i, ∃ L : CommSys α, ∃ s : L.S, L.start s ∧ (i < Q.n → CommImpl (Q.V i) L) := by
    intro i
    by_cases hi : i < Q.n
    · obtain ⟨L, h1, s, h2⟩ := session_comm_impl (hQ.level i hi) (hQ.axes i hi) (hQ.sizes i hi)
      exact ⟨L, s, h2, fun _ => h1⟩
    · exact ⟨LevelSys.none.noComm, (), trivial, fun h => absurd h hi⟩
  choose L s h1 h2 using key
  classical
  let owner : Nat → Nat → Option Nat := fun P tag =>
    if h : ∃ i, i < Q.n ∧ (Q.V i).group.rank P ≠ none ∧ LevelTag (Q.V i) tag then some h.choose else none
  let G : ManyComm α := ⟨Q.n, Q.rank, L, owner⟩
  have hG : Q.RunsComm G := ⟨rfl, rfl, h2, fun i hi P hP tag ht => by
    have hex : ∃ i, i < Q.n ∧ (Q.V i).group.rank P ≠ none ∧ LevelTag (Q.V i) tag := ⟨i, hi, hP, ht⟩
    show (if h : ∃ i, i < Q.n ∧ (Q.V i).group.rank P ≠ none ∧ LevelTag (Q.V i) tag then some h.choose else none) = some i
    rw [dif_pos hex]
    exact congrArg some (hQ.tags _ i hex.choose_spec.1 hi P hex.choose_spec.2.1 hP tag hex.choose_spec.2.2 ht)⟩
  refine ⟨G, hG, ⟨s, fun _ _ => []⟩, .init ⟨h1, fun _ _ => rfl⟩, ?_⟩
  rintro t ⟨i, hi, hb⟩
  exact (commProgram_good hQ hG i hi).1.fresh _ t (h1 i) hb

/-! ### Programs with five grids

Eight processes with two domains each, two threads in each process. The first grid is a FULL grid of the processes 0 to 3
with the communication thread, the second one a CACHE grid with MPI windows, the third one a PASS_THROUGH grid of process
1, the fourth one a CACHE grid of the processes 3, 0, 1, 2 with the communication thread, and the fifth one a FULL grid of
the processes 4 to 7, which have registered the same tag as the processes 0 to 3 for the first grid. -/

/-- FULL with the communication thread. -/
def exSessionE : Session (List Nat) := exSession { defaultBuild with threadsafeMpi := false }
  [("VARIABLE".toList, "height".toList, 1), ("MPI-communication".toList, "thread".toList, 0)]

theorem exSessionE_ok : ReadsVariable exSessionE "height".toList ∧
    (∃ c, exSessionE.open .exact exHeight = some (⟨.FULL_MPITHREAD_NUMA, 4⟩, c)) ∧
    Possible exSessionE ⟨.FULL_MPITHREAD_NUMA, 4⟩ := by
  have hv : ReadsVariable exSessionE "height".toList := by unfold ReadsVariable; decide +kernel
  have hfile : exHeight "height".toList = some (exFile, fun i => i) := if_pos rfl
  obtain ⟨sel, c, ho⟩ := C65_open_succeeds (fp := .exact) _ (by decide)
    (fun a ha => (exFile_regular.2 a ha).1) hv hfile rfl (by decide +kernel) rfl rfl
  have e : initContainers exSessionE.build exSessionE.params exSessionE.commSize exSessionE.domains =
    some ⟨.FULL_MPITHREAD_NUMA, 4⟩ := by decide +kernel
  have h1 : sel = ⟨.FULL_MPITHREAD_NUMA, 4⟩ :=
    Option.some.inj ((session_open hv hfile ho).1.symm.trans e)
  subst h1
  exact ⟨hv, ⟨c, ho⟩, by decide, by decide, nofun, nofun, fun h => absurd h (by decide +kernel),
    by decide +kernel, fun t => Nat.mod_lt _ (by decide)⟩

/-- CACHE with MPI windows. -/
def exSessionF : Session (List Nat) := exSession { defaultBuild with threadsafeMpi := false }
  [("GRID".toList, "CACHE".toList, 0), ("VARIABLE".toList, "height".toList, 1),
   ("CACHE_SIZE".toList, "3".toList, 1), ("BLOCK_SIZE_0".toList, "2".toList, 1)]

theorem exSessionF_ok : ReadsVariable exSessionF "height".toList ∧
    (∃ c, exSessionF.open .exact exHeight = some (⟨.CACHE_MPIWIN_NUMA, 4⟩, c)) ∧
    Possible exSessionF ⟨.CACHE_MPIWIN_NUMA, 4⟩ := by
  have hv : ReadsVariable exSessionF "height".toList := by unfold ReadsVariable; decide +kernel
  have hfile : exHeight "height".toList = some (exFile, fun i => i) := if_pos rfl
  obtain ⟨sel, c, ho⟩ := C65_open_succeeds (fp := .exact) _ (by decide)
    (fun a ha => (exFile_regular.2 a ha).1) hv hfile rfl (by decide +kernel) rfl rfl
  have e : initContainers exSessionF.build exSessionF.params exSessionF.commSize exSessionF.domains =
    some ⟨.CACHE_MPIWIN_NUMA, 4⟩ := by decide +kernel
  have h1 : sel = ⟨.CACHE_MPIWIN_NUMA, 4⟩ :=
    Option.some.inj ((session_open hv hfile ho).1.symm.trans e)
  subst h1
  exact ⟨hv, ⟨c, ho⟩, by decide, by decide, nofun, nofun, fun h => absurd h (by decide +kernel),
    by decide +kernel, fun t => Nat.mod_lt _ (by decide)⟩

/-- PASS_THROUGH. -/
def exSessionG : Session (List Nat) := exSession { defaultBuild with threadsafeMpi := false }
  [("GRID".toList, "PASS_THROUGH".toList, 0), ("VARIABLE".toList, "height".toList, 1)]

theorem exSessionG_ok : ReadsVariable exSessionG "height".toList ∧
    (∃ c, exSessionG.open .exact exHeight = some (⟨.PASS_THROUGH, 4⟩, c)) ∧
    Possible exSessionG ⟨.PASS_THROUGH, 4⟩ := by
  have hv : ReadsVariable exSessionG "height".toList := by unfold ReadsVariable; decide +kernel
  have hfile : exHeight "height".toList = some (exFile, fun i => i) := if_pos rfl
  obtain ⟨sel, c, ho⟩ := C65_open_succeeds (fp := .exact) _ (by decide)
    (fun a ha => (exFile_regular.2 a ha).1) hv hfile rfl (by decide +kernel) rfl rfl
  have e : initContainers exSessionG.build exSessionG.params exSessionG.commSize exSessionG.domains =
    some ⟨.PASS_THROUGH, 4⟩ := by decide +kernel
  have h1 : sel = ⟨.PASS_THROUGH, 4⟩ :=
    Option.some.inj ((session_open hv hfile ho).1.symm.trans e)
  subst h1
  exact ⟨hv, ⟨c, ho⟩, by decide, by decide, nofun, nofun, fun h => absurd h (by decide +kernel),
    by decide +kernel, fun t => Nat.mod_lt _ (by decide)⟩

/-- The numbers of the first grid; the tags of the fourth grid are 0 to 3. -/
def exNumbersE : CommNumbers := { exNumbers with fullTag := 4 }

theorem exNumbersE_proper (build : Build) (calls : List (Str × Str × Nat)) (sel : Selection) :
    ProperNumbers (exSession build calls) exNumbersE sel :=
  have h := exNumbers_proper build calls sel
  ⟨h.threads, h.tags, h.first⟩

/-- Four processes, from `4 k`, with ranks that are rotated by `sh`. -/
def exGroup (k sh : Nat) : Ranks :=
  { global := fun r => r / 4 * 8 + 4 * k + (r + sh) % 4
    rank := fun P => if P % 8 / 4 = k then some (P / 8 * 4 + (P % 4 + (4 - sh)) % 4) else none }

theorem exGroup_proper {k sh : Nat} (hk : k < 2) (hs : sh < 4) : ProperRanks (exGroup k sh) := by
  intro P r
  show (if P % 8 / 4 = k then some (P / 8 * 4 + (P % 4 + (4 - sh)) % 4) else none) = some r ↔
    r / 4 * 8 + 4 * k + (r + sh) % 4 = P
  split
  · next h =>
    constructor
    · intro e; injection e with e; omega
    · intro e; congr 1; omega
  · next h =>
    constructor
    · nofun
    · intro e; omega

/-- CACHE with the communication thread, in a communicator with other ranks. -/
def exSessionH : Session (List Nat) := { exSessionB with dom := fun t => (t + 2) % 8 }

/-- The numbers of the fifth grid, which is used by threads 8 to 15. -/
def exNumbersI : CommNumbers :=
  { exNumbers with fullTag := 4, tid := fun t => if 8 ≤ t ∧ t < 16 then t % 2 else t + 2 }

theorem exNumbersI_proper (build : Build) (calls : List (Str × Str × Nat)) (sel : Selection) :
    ProperNumbers (exSession build calls) exNumbersI sel := by
  refine ⟨fun t u h1 h2 h3 => ?_, by decide, fun _ => rfl⟩
  change (if 8 ≤ t ∧ t < 16 then t % 2 else t + 2) < 2 at h1
  change t % 8 / 2 = u % 8 / 2 at h2
  change (if 8 ≤ t ∧ t < 16 then t % 2 else t + 2) = (if 8 ≤ u ∧ u < 16 then u % 2 else u + 2) at h3
  by_cases ht : 8 ≤ t ∧ t < 16 <;> by_cases hu : 8 ≤ u ∧ u < 16 <;> simp only [ht, hu, and_self, if_true, if_false] at h1 h3 <;> omega

theorem exNumbersH_proper (sel : Selection) : ProperNumbers exSessionH exNumbers sel := by
  refine ⟨fun t u h1 h2 h3 => ?_, by decide, fun _ => rfl⟩
  change (if t < 8 then t % 2 else t) < 2 at h1
  change (t + 2) % 8 / 2 = (u + 2) % 8 / 2 at h2
  change (if t < 8 then t % 2 else t) = (if u < 8 then u % 2 else u) at h3
  by_cases ht : t < 8 <;> by_cases hu : u < 8 <;> simp only [ht, hu, if_true, if_false] at h1 h3 <;> omega

theorem exCommProgram : ∃ Q : Program (List Nat), Q.n = 5 ∧ ProperCommProgram Q (fun _ => exVar) ∧
    (Q.V 0).sel.type = .FULL_MPITHREAD_NUMA ∧ (Q.V 1).sel.type = .CACHE_MPIWIN_NUMA ∧
    (Q.V 2).sel.type = .PASS_THROUGH ∧ (Q.V 3).sel.type = .CACHE_MPITHREAD_NUMA ∧
    (Q.V 4).sel.type = .FULL_MPITHREAD_NUMA ∧ (∀ t, t < 8 → (Q.V 0).team t) ∧
    LevelTag (Q.V 0) 4 ∧ LevelTag (Q.V 4) 4 ∧ (∀ t, t < 8 → (Q.V 1).team t) ∧ (∀ i, (Q.V i).sel.ranks = 4) ∧
    (Q.V 0).group = exGroup 0 0 ∧ (Q.V 3).group = exGroup 0 3 ∧ (Q.V 4).group = exGroup 1 0 ∧
    ∀ t, Q.rank t = t % 16 / 2 := by
  obtain ⟨a1, ⟨cA, a2⟩, a3⟩ := exSessionE_ok
  obtain ⟨b1, ⟨cB, b2⟩, b3⟩ := exSessionB_ok
  obtain ⟨c1, ⟨cC, c2⟩, c3⟩ := exSessionF_ok
  obtain ⟨d1, ⟨cD, d2⟩, d3⟩ := exSessionG_ok
  have hfile : exHeight "height".toList = some (exFile, fun i => i) := if_pos rfl
  have hx : SizesExact .exact (exFile.map NcAxis.size) := sizesExact_exact (by
    intro s hs
    obtain ⟨a, ha, rfl⟩ := List.mem_map.1 hs
    exact (exFile_regular.2 a ha).2.1)
  have htid : ∀ t, t < 8 → exNumbers.tid t < exNumbers.total := by
    intro t ht
    show (if t < 8 then t % 2 else t) < 2
    rw [if_pos ht]; omega
  let V : Nat → OpenLevel (List Nat) := fun i => match i with
    | 0 => ⟨exSessionE, exNumbersE, ⟨.FULL_MPITHREAD_NUMA, 4⟩, cA, fun t => t < 8, exGroup 0 0⟩
    | 1 => ⟨exSessionF, exNumbers, ⟨.CACHE_MPIWIN_NUMA, 4⟩, cC, fun t => t < 8, exGroup 0 0⟩
    | 2 => ⟨exSessionG, exNumbers, ⟨.PASS_THROUGH, 4⟩, cD, fun t => t = 2 ∨ t = 3, exGroup 0 0⟩
    | 3 => ⟨exSessionH, exNumbers, ⟨.CACHE_MPITHREAD_NUMA, 4⟩, cB, fun t => t < 8, exGroup 0 3⟩
    | 4 => ⟨exSessionE, exNumbersI, ⟨.FULL_MPITHREAD_NUMA, 4⟩, cA, fun t => 8 ≤ t ∧ t < 16, exGroup 1 0⟩
    | _ => ⟨exSessionF, exNumbers, ⟨.CACHE_MPIWIN_NUMA, 4⟩, cC, fun t => t < 8, exGroup 0 0⟩
  let Q : Program (List Nat) := ⟨5, fun t => t % 16 / 2, V⟩
  have htag : ∀ i tag P, (V i).group.rank P ≠ none → LevelTag (V i) tag →
      (i = 0 ∧ tag = 4 ∧ P % 8 / 4 = 0) ∨ (i = 3 ∧ tag < 4) ∨ (i = 4 ∧ tag = 4 ∧ P % 8 / 4 = 1) := by
    intro i tag P hP h
    match i with
    | 0 =>
      refine .inl ⟨rfl, ?_, ?_⟩
      · cases h with
        | full => rfl
        | info hk => cases hk
        | xfer hk => cases hk
        | add hk => cases hk
        | del hk => cases hk
      · by_contra hn
        exact hP (if_neg hn)
    | 1 => cases h <;> next hm => cases hm
    | 2 => cases h <;> next hm => cases hm
    | 3 =>
      refine .inr (.inl ⟨rfl, ?_⟩)
      cases h with
      | full hk => cases hk
      | info => exact (show 0 < 4 by decide)
      | xfer => exact (show 1 < 4 by decide)
      | add => exact (show 2 < 4 by decide)
      | del => exact (show 3 < 4 by decide)
    | 4 =>
      refine .inr (.inr ⟨rfl, ?_, ?_⟩)
      · cases h with
        | full => rfl
        | info hk => cases hk
        | xfer hk => cases hk
        | add hk => cases hk
        | del hk => cases hk
      · by_contra hn
        exact hP (if_neg hn)
    | i + 5 => cases h <;> next hm => cases hm
  refine ⟨Q, rfl, ⟨fun i hi => ?_, fun i j hi hj P p1 p2 tag h1 h2 => ?_, fun _ _ => exFile_regular.1, fun _ _ => hx⟩,
    rfl, rfl, rfl, rfl, rfl, fun t ht => ht, .full rfl rfl, .full rfl rfl, fun t ht => ht, fun i => ?_, rfl, rfl, rfl,
    fun _ => rfl⟩
  · have hplace : ∀ t, t < 8 → (exGroup 0 0).global (t % 8 / 2) = t % 16 / 2 := by
      intro t ht
      show t % 8 / 2 / 4 * 8 + 4 * 0 + (t % 8 / 2 + 0) % 4 = t % 16 / 2
      omega
    have hg0 : ProperRanks (exGroup 0 0) := exGroup_proper (by decide) (by decide)
    match i with
    | 0 => exact ⟨a3, exNumbersE_proper _ _ _, a1, hfile, a2, htid, hg0, fun _ => hplace, nofun⟩
    | 1 => exact ⟨c3, exNumbers_proper _ _ _, c1, hfile, c2, htid, hg0, fun _ => hplace, nofun⟩
    | 2 =>
      have h2 : ∀ t, t = 2 ∨ t = 3 → t < 8 := by omega
      refine ⟨d3, exNumbers_proper _ _ _, d1, hfile, d2, fun t ht => htid t (h2 t ht), hg0,
        fun _ t ht => hplace t (h2 t ht), fun _ t u ht hu => ?_⟩
      change t = 2 ∨ t = 3 at ht
      change u = 2 ∨ u = 3 at hu
      show t % 16 / 2 = u % 16 / 2
      omega
    | 3 =>
      refine ⟨⟨b3.1, b3.2, b3.3, b3.4, b3.5, b3.6, fun t => Nat.mod_lt _ (by decide)⟩, exNumbersH_proper _, b1, hfile, b2,
        htid, exGroup_proper (by decide) (by decide), fun _ t ht => ?_, nofun⟩
      change t < 8 at ht
      show (t + 2) % 8 / 2 / 4 * 8 + 4 * 0 + ((t + 2) % 8 / 2 + 3) % 4 = t % 16 / 2
      omega
    | 4 =>
      refine ⟨a3, exNumbersI_proper _ _ _, a1, hfile, a2, fun t ht => ?_, exGroup_proper (by decide) (by decide),
        fun _ t ht => ?_, nofun⟩
      · change 8 ≤ t ∧ t < 16 at ht
        show (if 8 ≤ t ∧ t < 16 then t % 2 else t + 2) < 2
        rw [if_pos ht]; omega
      · change 8 ≤ t ∧ t < 16 at ht
        show t % 8 / 2 / 4 * 8 + 4 * 1 + (t % 8 / 2 + 0) % 4 = t % 16 / 2
        omega
    | i + 5 => exact absurd hi (by change ¬ i + 5 < 5; omega)
  · have := htag i tag P p1 h1
    have := htag j tag P p2 h2
    omega
  · match i with
    | 0 => rfl
    | 1 => rfl
    | 2 => rfl
    | 3 => rfl
    | 4 => rfl
    | i + 5 => rfl

/-- The five grids meet the hypotheses: there is such a program, thread 5 can always call a getter of the FULL grid with
the communication thread, and whatever it returns for position (3.6, 8.9) is the value of sample (1, 4). -/
example : ∃ Q : Program (List Nat), Q.n = 5 ∧ ProperCommProgram Q (fun _ => exVar) ∧
    (∃ G, Q.RunsComm G ∧ ∃ s, ManyCommReach G s ∧ ∀ t, ¬ CommBusy G s t) ∧
    ∀ G, Q.RunsComm G → ∀ s, ManyCommReach G s → ¬ CommBusy G s 5 →
      (∃ s1, ManyCommStep G true s s1 ∧ (G.L 0).called 5 [.fin 3.6, .fin 8.9] (s.lv 0) (s1.lv 0)) ∧
      ∀ s1 s2 v, ManyCommStep G true s s1 → (G.L 0).called 5 [.fin 3.6, .fin 8.9] (s.lv 0) (s1.lv 0) →
        CommDuring G 0 5 s1 s2 → (G.L 0).returns 5 (s2.lv 0) v → v = [1, 4] := by
  obtain ⟨Q, h1, hQ, -, -, -, -, -, ht, -⟩ := exCommProgram
  refine ⟨Q, h1, hQ, C89_starts hQ, fun G hG s hs hb =>
    ⟨C89_can_call hQ hG hs 0 5 (by rw [h1]; decide) (ht 5 (by decide)) hb rfl exFile_regular [3.6, 8.9] rfl,
    fun s1 s2 v e1 e2 e3 e4 => ?_⟩⟩
  obtain ⟨j, j1, j2⟩ := C89_nearest_value hQ hG hs 0 5 (by rw [h1]; decide) rfl exFile_regular [3.6, 8.9] rfl e1 e2 e3 v e4
  obtain ⟨k, k1, k2, -⟩ := C01_nearest_sample false exFile exFile_regular [3.6, 8.9] rfl
  have hk : k = [1, 4] := Option.some.inj (k1.symm.trans (by decide +kernel))
  subst hk
  rw [selected_unique k2 j1]
  exact j2

/-- Without the last two grids, the call of thread 5 can return this value. -/
example : ∃ Q : Program (List Nat), Q.n = 3 ∧ ProperCommProgram Q (fun _ => exVar) ∧
    (Q.V 0).sel.type = .FULL_MPITHREAD_NUMA ∧
    ∀ G, Q.RunsComm G → ∀ s, ManyCommReach G s → ¬ CommBusy G s 5 →
      (∃ s1, ManyCommStep G true s s1 ∧ (G.L 0).called 5 [.fin 3.6, .fin 8.9] (s.lv 0) (s1.lv 0)) ∧
      ∀ s1, ManyCommStep G true s s1 → (G.L 0).called 5 [.fin 3.6, .fin 8.9] (s.lv 0) (s1.lv 0) → ∀ v,
        (∃ s2, CommDuring G 0 5 s1 s2 ∧ (G.L 0).returns 5 (s2.lv 0) v) ↔ v = [1, 4] := by
  obtain ⟨Q, h1, hQ, t0, t1, t2, -, -, ht, -⟩ := exCommProgram
  have up : ∀ i, i < 3 → i < Q.n := fun i hi => by omega
  let R : Program (List Nat) := ⟨3, Q.rank, Q.V⟩
  have hR : ProperCommProgram R (fun _ => exVar) :=
    ⟨fun i hi => hQ.level i (up i hi), fun i j hi hj => hQ.tags i j (up i hi) (up j hj), fun i hi => hQ.axes i (up i hi),
      fun i hi => hQ.sizes i (up i hi)⟩
  refine ⟨R, rfl, hR, t0, fun G hG s hs hb => ?_⟩
  obtain ⟨j, j1, j2, j3⟩ := C89_getter_returns hR hG (fun i hi => by
    change i < 3 at hi
    show (Q.V i).sel.type.kind = .cache → (Q.V i).sel.type.mpi ≠ .thread
    match i with
    | 0 => rw [t0]; nofun
    | 1 => rw [t1]; nofun
    | 2 => rw [t2]; nofun) hs 0 5 (show 0 < 3 by decide) (ht 5 (by decide)) hb rfl exFile_regular [3.6, 8.9] rfl
  obtain ⟨k, k1, k2, -⟩ := C01_nearest_sample false exFile exFile_regular [3.6, 8.9] rfl
  have hk : k = [1, 4] := Option.some.inj (k1.symm.trans (by decide +kernel))
  subst hk
  rw [selected_unique k2 j1]
  exact ⟨j2, j3⟩

end Asagi.Props
