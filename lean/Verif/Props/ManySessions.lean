import Verif.Proofs.InLibrary
import Verif.Proofs.ManySessions
/-
C87: several grids, each from its `setParam` calls to the getters, are used at the same time.
-/
namespace Asagi.Props
open Asagi Asagi.Spec
variable {α : Type} {Q : Program α} {G : Many α} {x : Nat → LevelVar α}

theorem program_good (hQ : ProperProgram Q x) (hG : Q.Runs G) (i : Nat) (hi : i < G.n) :
    (G.L i).Good ⟨(x i).fp, cellCentered (Q.V i).S.params, (x i).nc, (x i).val⟩ ∧
    (G.L i).Usable fun t pos => (pos2index (x i).fp (openAxes (x i).fp false (x i).nc) pos).isSome ∧ (Q.V i).team t := by
  rw [hG.n] at hi
  exact session_good (hQ.level i hi) (hQ.axes i hi) (hQ.sizes i hi) (hG.sys i hi)

/-- **C87**, in the arithmetic of the machine: the value at the index that is computed for the position, which does not
depend on any parameter of any grid. -/
theorem C87_value (hQ : ProperProgram Q x) (hG : Q.Runs G) {s s1 s2 : G.St} (h : ManyReach G s) (i t : Nat)
    (hi : i < Q.n) (pos : List Dbl) (idx : List Nat)
    (hp : pos2index (x i).fp (openAxes (x i).fp false (x i).nc) pos = some idx) (hs : ManyStep G s s1)
    (hc : (G.L i).called t pos (s i) (s1 i)) (hd : ManyDuring G i t s1 s2) (v : α)
    (hv : (G.L i).returns t (s2 i) v) : v = (x i).val idx := by
  obtain ⟨hg, hu⟩ := program_good hQ hG i (by rw [hG.n]; exact hi)
  have hst : (G.L i).step (s i) (s1 i) := by
    obtain ⟨e1, e2⟩ := hu.calledBusy _ _ _ _ hc
    cases hs with
    | level j y hj hst =>
      by_cases e : i = j
      · subst e; rw [Function.update_self]; exact hst
      · rw [Function.update_of_ne e] at e2; exact absurd e2 e1
  rw [pos2index_valuePosition _ false (cellCentered (Q.V i).S.params)] at hp
  exact hg.value _ _ _ t pos idx v (many_level h i) hst hc (many_during hd) hv hp

/-- **C87.** Any number of levels of any number of grids, each configured by any sequence of `setParam` calls, opened
for any variable with equidistant samples, and used at the same time by the threads of all processes. Whatever a getter
returns is the value of the sample of the variable of its level that is nearest to the position. -/
theorem C87_nearest_value (hQ : ProperProgram Q x) (hG : Q.Runs G) {s s1 s2 : G.St} (h : ManyReach G s) (i t : Nat)
    (hi : i < Q.n) (hfp : (x i).fp = .exact) (hf : RegularFile (x i).nc) (pos : List ℚ)
    (hpos : pos.length = (x i).nc.length) (hs : ManyStep G s s1)
    (hc : (G.L i).called t (pos.map .fin) (s i) (s1 i)) (hd : ManyDuring G i t s1 s2) (v : α)
    (hv : (G.L i).returns t (s2 i) v) : ∃ idx, Selected (x i).nc pos idx ∧ v = (x i).val idx := by
  obtain ⟨idx, e1, e2, -⟩ := C01_nearest_sample false (x i).nc hf pos hpos
  exact ⟨idx, e2, C87_value hQ hG h i t hi _ idx (by rw [hfp]; exact e1) hs hc hd v hv⟩

/-- **C87.** A thread is inside of one getter at a time, and of the threads of a process at most one is inside of the MPI
library (with THREADSAFE_MPI) and at most one inside of the netCDF library, over all grids. -/
theorem C87_one_user (hQ : ProperProgram Q x) (hG : Q.Runs G) {s : G.St} (h : ManyReach G s) :
    (∀ t i j, i < G.n → j < G.n → (G.L i).busy (s i) t → (G.L j).busy (s j) t → i = j) ∧
    ∀ k t u i j, i < G.n → j < G.n → InLibrary k (G.L i) (s i) t → InLibrary k (G.L j) (s j) u →
      G.rank t = G.rank u → t = u ∧ i = j := by
  have := many_excl (fun i hi => (program_good hQ hG i hi).1.toSafe) h
  exact ⟨this.1, fun k t u i j hi hj h1 h2 => this.2 k t u i j hi hj (inLibrary_uses h1 (many_level h i))
    (inLibrary_uses h2 (many_level h j))⟩

/-- **C87.** Every access returns, whatever the other threads do in this and other grids: as long as a thread is inside of
a getter, some thread can continue; every execution without new calls has at most `N` steps, and when it cannot be
continued, no thread is inside of a getter. -/
theorem C87_every_access_returns (hQ : ProperProgram Q x) (hG : Q.Runs G) {s : G.St} (h : ManyReach G s) :
    (∀ t, ManyBusy G s t → ∃ s', ManyQuiet G s s') ∧
    ∃ N, ∀ n s', ManyQuietRun G n s s' → n ≤ N ∧
      ((∀ s'', ¬ ManyQuiet G s' s'') → ∀ t, ¬ ManyBusy G s' t) := by
  have hg := fun i hi => (program_good hQ hG i hi).1
  obtain ⟨N, hN⟩ := many_bound hg h
  refine ⟨fun t ht => many_progress hg h ht, N, fun n s' hr => ⟨hN n s' hr, fun hend t ht => ?_⟩⟩
  obtain ⟨s'', hq⟩ := many_progress hg (many_quiet_reach h hr) ht
  exact hend s'' hq

/-- A thread that is inside of a getter can be brought to its return without new calls. -/
theorem program_returns (hQ : ProperProgram Q x) (hG : Q.Runs G) {s : G.St} (h : ManyReach G s) {i t : Nat}
    (hi : i < G.n) (hb : (G.L i).busy (s i) t) : ∃ s2 v, ManyDuring G i t s s2 ∧ (G.L i).returns t (s2 i) v := by
  obtain ⟨-, N, hN⟩ := C87_every_access_returns hQ hG h
  obtain ⟨n, s2, ⟨-, h2, -, -⟩, v, h3⟩ := run_until
    (fun n w => ManyQuietRun G n s w ∧ ManyDuring G i t s w ∧ ManyReach G w ∧ (G.L i).busy (w i) t)
    (fun w => ∃ v, (G.L i).returns t (w i) v) N (fun n w h => (hN n w h.1).1)
    (fun n w h' => by
      obtain ⟨h1, h2, h3, h4⟩ := h'
      obtain ⟨w', hq⟩ := (C87_every_access_returns hQ hG h3).1 t ⟨i, hi, h4⟩
      by_cases hid : (G.L i).busy (w' i) t
      · exact .inr ⟨w', .succ h1 hq, .tail h2 hq.1 hid, .step h3 hq.1, hid⟩
      · refine .inl ?_
        obtain ⟨hs, -⟩ := hq
        cases hs with
        | level j y hj hst =>
          by_cases e : i = j
          · subst e
            rw [Function.update_self] at hid
            exact (program_good hQ hG i hi).2.leaves _ _ t (many_level h3 i) hst h4 hid
          · rw [Function.update_of_ne e] at hid; exact absurd h4 hid)
    s ⟨.zero _, .refl _, h, hb⟩
  exact ⟨s2, v, h2, h3⟩

/-- **C87.** After any history, with any threads inside of getters of any grids: a thread that is in no getter can call a
getter of each level that it has opened, for each position; the call can return, and every value that it can return is
the value of the nearest sample. -/
theorem C87_getter_returns (hQ : ProperProgram Q x) (hG : Q.Runs G) {s : G.St} (h : ManyReach G s) (i t : Nat)
    (hi : i < Q.n) (ht : (Q.V i).team t) (hidle : ¬ ManyBusy G s t) (hfp : (x i).fp = .exact)
    (hf : RegularFile (x i).nc) (pos : List ℚ) (hpos : pos.length = (x i).nc.length) :
    ∃ idx, Selected (x i).nc pos idx ∧
      (∃ s1, ManyStep G s s1 ∧ (G.L i).called t (pos.map .fin) (s i) (s1 i)) ∧
      ∀ s1, ManyStep G s s1 → (G.L i).called t (pos.map .fin) (s i) (s1 i) → ∀ v,
        (∃ s2, ManyDuring G i t s1 s2 ∧ (G.L i).returns t (s2 i) v) ↔ v = (x i).val idx := by
  obtain ⟨idx, e1, e2, -⟩ := C01_nearest_sample false (x i).nc hf pos hpos
  rw [← hfp] at e1
  have hi' : i < G.n := by rw [hG.n]; exact hi
  have hu := (program_good hQ hG i hi').2
  refine ⟨idx, e2, ?_, fun s1 hs hc v => ⟨?_, ?_⟩⟩
  · have hb : ¬ (G.L i).busy (s i) t := fun hb => hidle ⟨i, hi', hb⟩
    obtain ⟨y, h1, h2, h3, h4⟩ := hu.canCall (s i) t _ (many_level h i) hb ⟨by rw [e1]; rfl, ht⟩
    refine ⟨_, .level s i y hi' h1 (fun u hu hn j hj hb' => ?_) (fun k u h5 h6 => absurd (h4 k u h5) h6), ?_⟩
    · rcases h3 u hu with e | e
      · exact hn e
      · subst e; exact hidle ⟨j, hj, hb'⟩
    · rw [Function.update_self]; exact h2
  · rintro ⟨s2, hd, hv⟩
    exact C87_value hQ hG h i t hi _ idx e1 hs hc hd v hv
  · rintro rfl
    obtain ⟨s2, w, hd, hw⟩ := program_returns hQ hG (.step h hs) hi' (hu.calledBusy _ _ _ _ hc).2
    rw [← C87_value hQ hG h i t hi _ idx e1 hs hc hd w hw]
    exact ⟨s2, hd, hw⟩

/-- **C87.** Opening such levels gives a running program. -/
theorem C87_starts (hQ : ProperProgram Q x) : ∃ G, Q.Runs G ∧ ∃ s, ManyReach G s ∧ ∀ t, ¬ ManyBusy G s t := by
  have key : ∀ i, ∃ L : LevelSys α, ∃ s : L.S, L.start s ∧ (i < Q.n → LevelImpl (Q.V i) L) := by
    intro i
    by_cases hi : i < Q.n
    · obtain ⟨L, h1, s, h2⟩ := session_impl (hQ.level i hi) (hQ.axes i hi) (hQ.sizes i hi) (hQ.noThread i hi)
      exact ⟨L, s, h2, fun _ => h1⟩
    · exact ⟨LevelSys.none, (), trivial, fun h => absurd h hi⟩
  choose L s h1 h2 using key
  let G : Many α := ⟨Q.n, Q.rank, L⟩
  have hG : Q.Runs G := ⟨rfl, rfl, h2⟩
  refine ⟨G, hG, s, .init h1, ?_⟩
  rintro t ⟨i, hi, hb⟩
  exact (program_good hQ hG i hi).1.fresh _ t (h1 i) hb

/-! ### A program with three grids

Four processes with two domains each, two threads in each process. The first grid is a FULL grid that is distributed over
the processes, the second one is a CACHE grid with MPI windows, the third one a PASS_THROUGH grid of process 1. -/

/-- PASS_THROUGH. -/
def exSessionD : Session (List Nat) := exSession defaultBuild
  [("GRID".toList, "PASS_THROUGH".toList, 0), ("VARIABLE".toList, "height".toList, 1)]

theorem exSessionD_ok : ReadsVariable exSessionD "height".toList ∧
    (∃ c, exSessionD.open .exact exHeight = some (⟨.PASS_THROUGH, 4⟩, c)) ∧
    Possible exSessionD ⟨.PASS_THROUGH, 4⟩ := by
  have hv : ReadsVariable exSessionD "height".toList := by unfold ReadsVariable; decide +kernel
  have hfile : exHeight "height".toList = some (exFile, fun i => i) := if_pos rfl
  obtain ⟨sel, c, ho⟩ := C65_open_succeeds (fp := .exact) _ (by decide)
    (fun a ha => (exFile_regular.2 a ha).1) hv hfile rfl (by decide +kernel) rfl rfl
  have e : initContainers exSessionD.build exSessionD.params exSessionD.commSize exSessionD.domains =
    some ⟨.PASS_THROUGH, 4⟩ := by decide +kernel
  have h1 : sel = ⟨.PASS_THROUGH, 4⟩ :=
    Option.some.inj ((session_open hv hfile ho).1.symm.trans e)
  subst h1
  exact ⟨hv, ⟨c, ho⟩, by decide, by decide, nofun, nofun, fun h => absurd h (by decide +kernel),
    by decide +kernel, fun t => Nat.mod_lt _ (by decide)⟩

def exVar : LevelVar (List Nat) := ⟨.exact, exHeight, "height".toList, exFile, fun i => i⟩

/-- The three grids meet the hypotheses of all theorems: after any history, threads 2 and 3 of process 1 can call a getter
of the third grid, and thread 5 one of the second grid at position (3.6, 8.9); each returns the value of sample (1, 4). -/
theorem exProgram_three : ∃ Q : Program (List Nat), Q.n = 3 ∧ ProperProgram Q (fun _ => exVar) ∧
    (Q.V 0).sel.type = .FULL_MPIWIN_NUMA ∧ (Q.V 1).sel.type = .CACHE_MPIWIN_NUMA ∧
    (Q.V 2).sel.type = .PASS_THROUGH ∧ (∃ G, Q.Runs G ∧ ∃ s, ManyReach G s ∧ ∀ t, ¬ ManyBusy G s t) ∧
    ∀ G, Q.Runs G → ∀ s, ManyReach G s → ∀ i t, (i, t) ∈ [(2, 2), (2, 3), (1, 5), (0, 0)] → ¬ ManyBusy G s t →
      (∃ s1, ManyStep G s s1 ∧ (G.L i).called t [.fin 3.6, .fin 8.9] (s i) (s1 i)) ∧
      ∀ s1, ManyStep G s s1 → (G.L i).called t [.fin 3.6, .fin 8.9] (s i) (s1 i) → ∀ v,
        (∃ s2, ManyDuring G i t s1 s2 ∧ (G.L i).returns t (s2 i) v) ↔ v = [1, 4] := by
  obtain ⟨a1, ⟨cA, a2⟩, a3⟩ := exSessionA_ok
  obtain ⟨b1, ⟨cB, b2⟩, b3⟩ := exSessionC_ok
  obtain ⟨d1, ⟨cD, d2⟩, d3⟩ := exSessionD_ok
  have hfile : exHeight "height".toList = some (exFile, fun i => i) := if_pos rfl
  have hx : SizesExact .exact (exFile.map NcAxis.size) := sizesExact_exact (by
    intro s hs
    obtain ⟨a, ha, rfl⟩ := List.mem_map.1 hs
    exact (exFile_regular.2 a ha).2.1)
  have htid : ∀ t, t < 8 → exNumbers.tid t < exNumbers.total := by
    intro t ht
    show (if t < 8 then t % 2 else t) < 2
    rw [if_pos ht]; omega
  let V : Nat → OpenLevel (List Nat) := fun i => match i with
    | 0 => ⟨exSessionA, exNumbers, ⟨.FULL_MPIWIN_NUMA, 4⟩, cA, fun t => t < 8, .all⟩
    | 1 => ⟨exSessionC, exNumbers, ⟨.CACHE_MPIWIN_NUMA, 4⟩, cB, fun t => t < 8, .all⟩
    | _ => ⟨exSessionD, exNumbers, ⟨.PASS_THROUGH, 4⟩, cD, fun t => t = 2 ∨ t = 3, .all⟩
  let Q : Program (List Nat) := ⟨3, fun t => t % 8 / 2, V⟩
  have hQ : ProperProgram Q (fun _ => exVar) := by
    refine ⟨fun i hi => ?_, fun i hi => ?_, fun _ _ => exFile_regular.1, fun _ _ => hx⟩
    case refine_2 =>
      match i with
      | 0 => exact nofun
      | 1 => exact nofun
      | i + 2 => exact nofun
    match i with
    | 0 => exact ⟨a3, exNumbers_proper _ _ _, a1, hfile, a2, htid, all_proper, fun _ _ _ => rfl, nofun⟩
    | 1 => exact ⟨b3, exNumbers_proper _ _ _, b1, hfile, b2, htid, all_proper, fun _ _ _ => rfl, nofun⟩
    | i + 2 =>
      refine ⟨d3, exNumbers_proper _ _ _, d1, hfile, d2, fun t ht => htid t ?_, all_proper, fun _ _ _ => rfl, fun _ t u ht hu => ?_⟩
      · change t = 2 ∨ t = 3 at ht; omega
      · change t = 2 ∨ t = 3 at ht
        change u = 2 ∨ u = 3 at hu
        show t % 8 / 2 = u % 8 / 2
        omega
  refine ⟨Q, rfl, hQ, rfl, rfl, rfl, C87_starts hQ, fun G hG s hs i t hit hb => ?_⟩
  have hi : i < 3 ∧ (Q.V i).team t := by
    simp only [List.mem_cons, Prod.mk.injEq, List.not_mem_nil, or_false] at hit
    rcases hit with ⟨rfl, rfl⟩ | ⟨rfl, rfl⟩ | ⟨rfl, rfl⟩ | ⟨rfl, rfl⟩
    · exact ⟨by decide, .inl rfl⟩
    · exact ⟨by decide, .inr rfl⟩
    · exact ⟨by decide, by show 5 < 8; decide⟩
    · exact ⟨by decide, by show 0 < 8; decide⟩
  obtain ⟨j, j1, j2, j3⟩ := C87_getter_returns hQ hG hs i t hi.1 hi.2 hb rfl exFile_regular [3.6, 8.9] rfl
  obtain ⟨k, k1, k2, -⟩ := C01_nearest_sample false exFile exFile_regular [3.6, 8.9] rfl
  have hk : k = [1, 4] := Option.some.inj (k1.symm.trans (by decide +kernel))
  subst hk
  rw [selected_unique k2 j1]
  exact ⟨j2, j3⟩

end Asagi.Props
