import Verif.Proofs.ManyLevelsOther
import Verif.Proofs.InLibrary
import Verif.Proofs.WinCacheRun
import Verif.Props.SharedValues
import Verif.Props.FullMsg
/-
C85: getters of several levels, of one or of several grids, are used at the same time.
-/
namespace Asagi.Props
open Asagi Asagi.Spec
variable {α : Type} {G : Many α} {f : Nat → OpenedFile α}

/-- **C85** No level disturbs another one: whatever the threads do in the other levels, the states of a level are
those it can reach when it is used alone. All properties of the states of one level (C81, C35, C83, C76, ...) hold. -/
theorem C85_level {s : G.St} (h : ManyReach G s) (i : Nat) :
    _root_.Asagi.Reachable (G.L i).start (G.L i).step (s i) := many_level h i

/-- **C85** The value that a getter of a level returns is the value of the file of this level at the index of the
position, after any interleaving with the steps of all threads in all levels. -/
theorem C85_value (hG : ∀ i, i < G.n → ProperLevel G.rank (f i) (G.L i)) {s s1 s2 : G.St}
    (h : ManyReach G s) (i t : Nat) (hi : i < G.n) (pos : List Dbl) (idx : List Nat)
    (hp : pos2index (f i).fp (openAxes (f i).fp (f i).cc (f i).nc) pos = some idx)
    (hs : ManyStep G s s1) (hc : (G.L i).called t pos (s i) (s1 i)) (hd : ManyDuring G i t s1 s2) (v : α)
    (hv : (G.L i).returns t (s2 i) v) : v = (f i).val idx := by
  have hg := good_proper (hG i hi)
  have hst : (G.L i).step (s i) (s1 i) ∨ s1 i = s i := by
    cases hs with
    | level j x hj hst =>
      by_cases e : i = j
      · subst e; rw [Function.update_self]; exact .inl hst
      · rw [Function.update_of_ne e]; exact .inr rfl
  rcases hst with hst | e
  · exact hg.value _ _ _ t pos idx v (many_level h i) hst hc (many_during hd) hv hp
  · exact (not_called (hG i hi) (e ▸ hc)).elim
where
  not_called {rank : Nat → Nat} {g : OpenedFile α} {L : LevelSys α} (h : ProperLevel rank g L) {t : Nat}
      {pos : List Dbl} {x : L.S} (hc : L.called t pos x x) : False := by
    have key : ∀ st : DistState α, ∀ b off, st.pc (.user t) = .idle →
        st = { st with pc := upd st.pc (.user t) (.wantCm b off) } → False := by
      intro st b off h1 h2
      have h3 := congrArg (fun y => DistState.pc y (.user t)) h2
      dsimp only at h3
      rw [upd_self, h1] at h3; cases h3
    induction h with
    | cacheWindow c S C => obtain ⟨idx, -, h1, h2⟩ := hc; exact key _ _ _ h1 h2
    | cache c S => obtain ⟨idx, -, h1, h2⟩ := hc; exact key _ _ _ h1 h2
    | full c X s0 lib =>
      obtain ⟨st', ⟨idx, -, -, h1, h2⟩, h3⟩ := hc
      have h4 : x.st = st' := congrArg XferSt.st h3
      rw [← h4] at h2
      exact key _ _ _ h1 h2
    | passThrough c slot r team buf0 =>
      obtain ⟨h1, h2⟩ := hc
      have h3 := congrArg (fun y => PassState.pc y t) h2
      dsimp only at h3
      rw [upd_self, h1] at h3; cases h3
    | some L R rank' team _ _ _ ih => exact ih hc

/-- **C85** A thread is inside of one getter at a time, and of the threads of a process one at most is inside of the
MPI library (with THREADSAFE_MPI) and one inside of the netCDF library, over all levels. -/
theorem C85_one_user (hG : ∀ i, i < G.n → ProperLevel G.rank (f i) (G.L i)) {s : G.St}
    (h : ManyReach G s) :
    (∀ t i j, i < G.n → j < G.n → (G.L i).busy (s i) t → (G.L j).busy (s j) t → i = j) ∧
    ∀ k t u i j, i < G.n → j < G.n → InLibrary k (G.L i) (s i) t → InLibrary k (G.L j) (s j) u →
      G.rank t = G.rank u → t = u ∧ i = j := by
  have := many_excl (fun i hi => (good_proper (hG i hi)).toSafe) h
  exact ⟨this.1, fun k t u i j hi hj h1 h2 => this.2 k t u i j hi hj (inLibrary_uses h1 (many_level h i))
    (inLibrary_uses h2 (many_level h j))⟩

/-- **C85** The shared locks cannot deadlock: as long as a thread is inside of a getter of any level, some thread can
continue without a new call. -/
theorem C85_no_deadlock (hG : ∀ i, i < G.n → ProperLevel G.rank (f i) (G.L i)) {s : G.St}
    (h : ManyReach G s) (t : Nat) (ht : ManyBusy G s t) : ∃ s', ManyQuiet G s s' :=
  many_progress (fun i hi => good_proper (hG i hi)) h ht

/-- **C85** Every access returns: from each state, every execution without new calls has at most `N` steps, and when
it cannot be continued, no thread is inside of a getter. -/
theorem C85_every_access_returns (hG : ∀ i, i < G.n → ProperLevel G.rank (f i) (G.L i)) {s : G.St}
    (h : ManyReach G s) :
    ∃ N, ∀ n s', ManyQuietRun G n s s' → n ≤ N ∧
      ((∀ s'', ¬ ManyQuiet G s' s'') → ∀ t, ¬ ManyBusy G s' t) := by
  have hg : ∀ i, i < G.n → (G.L i).Good (f i) := fun i hi => good_proper (hG i hi)
  obtain ⟨N, hN⟩ := many_bound hg h
  refine ⟨N, fun n s' hr => ⟨hN n s' hr, fun hend t ht => ?_⟩⟩
  obtain ⟨s'', hq⟩ := many_progress hg (many_quiet_reach h hr) ht
  exact hend s'' hq

/-! ### Three levels

Two CACHE levels with MPI windows and a PASS_THROUGH level of the example file; two processes with two domains;
thread `t` belongs to process `t % 4 / 2`. -/

def exManyShared : SharedCfg (List Nat) :=
  { domains := 2, cacheSize := 2, handDiff := 1, zero := [], dom := fun t => t % 4, home := fun b => b % 2,
    mode := .window, numa := false, noop := false }

def exManyWin : WinParams (List Nat) :=
  { P := exLevel.shared exManyShared, total := 8, tagOffset := 3, lib := true, tid := fun t => t / 4 * 2 + t % 2 }

def exMany : Many (List Nat) :=
  { n := 3, rank := fun t => t % 4 / 2
    L := fun i => match i with
      | 0 | 1 => exManyWin.sys exLevel
      | _ => passSys exLevel (fun t => t / 4 * 2 + t % 2) (fun t => t < 8 ∧ t % 4 < 2) [[], [], [], []] }

def exManyFile : OpenedFile (List Nat) := ⟨.exact, false, exFile, fun i => i⟩

theorem exManyWin_legal : LegalWin exManyWin := by
  refine ⟨⟨by show 0 < 2; decide, by show 0 < 2; decide, by show (1 : Int) < (2 : Nat); decide⟩, rfl, fun t u _ h1 h2 => ?_⟩
  have h1 : t % 4 / 2 = u % 4 / 2 := h1
  have h2 : t / 4 * 2 + t % 2 = u / 4 * 2 + u % 2 := h2
  omega

theorem exMany_proper : ∀ i, i < exMany.n → ProperLevel exMany.rank exManyFile (exMany.L i) := by
  intro i hi
  have hw : ProperLevel exMany.rank exManyFile (exManyWin.sys exLevel) :=
    .cacheWindow exLevel _ exManyWin exLevel_opened rfl exManyWin_legal fun _ => rfl
  match i with
  | 0 => exact hw
  | 1 => exact hw
  | 2 =>
    refine .passThrough exLevel _ 0 _ _ exLevel_opened (fun t ht => ?_) (fun t ht => ?_) fun t u ht hu e => ?_
    · show t % 4 / 2 = 0
      omega
    · show t / 4 * 2 + t % 2 < 4
      omega
    · omega
  | i + 3 => have : i + 3 < 3 := hi; omega

/-- Also a FULL level of two processes, and a CACHE level without communication. -/
example : (∃ (s0 : FullDist (List Nat)) (lib : Bool), ProperLevel exMany.rank exManyFile ((exXfer true).sys exLevel s0.data lib)) ∧
    ProperLevel exMany.rank exManyFile ((exLevel.shared { exManyShared with mode := .none }).sys exLevel) := by
  constructor
  · obtain ⟨s0, h, -⟩ := exXfer_state (win := true) [] (fun _ => true) (by decide +kernel)
    exact ⟨s0, true, .full exLevel (exXfer true) s0 true exLevel_opened h rfl fun _ => rfl⟩
  · exact .cache exLevel _ exLevel_opened
      ⟨by show 0 < 2; decide, by show 0 < 2; decide, by show (1 : Int) < (2 : Nat); decide⟩ rfl fun _ => rfl

/-- A thread that is alone in a level, and uses only locks `k` with `free k`. -/
inductive Solo (L : LevelSys α) (t : Nat) (free : LibLock → Prop) : L.S → L.S → Prop
  | refl (s) : Solo L t free s s
  | tail {s y z} : Solo L t free s y → L.step y z → (∀ u, L.busy z u → u = t) → L.busy z t →
      (∀ k, L.uses k z t → free k) → Solo L t free s z

/-- Steps of one thread in a level, while nothing happens in the others. -/
theorem many_solo (hG : ∀ i, i < G.n → ProperLevel G.rank (f i) (G.L i)) {s : G.St} (h : ManyReach G s)
    {i t : Nat} (hi : i < G.n) {free : LibLock → Prop} (hb : ∀ u, (G.L i).busy (s i) u → u = t)
    (ho : ∀ j, j < G.n → j ≠ i → ¬ (G.L j).busy (s j) t)
    (hf : ∀ k, free k → ∀ j u, j < G.n → j ≠ i → ¬ (G.L j).uses k (s j) u) {x : (G.L i).S}
    (hr : Solo (G.L i) t free (s i) x) :
    ManyReach G (Function.update s i x) ∧ (∀ i' t', (i' = i → t' = t) → (G.L i').busy (s i') t' →
      ManyDuring G i' t' s (Function.update s i x)) ∧ ∀ u, (G.L i).busy x u → u = t := by
  have hg := good_proper (hG i hi)
  generalize hs0 : s i = s0 at hr
  induction hr with
  | refl =>
    subst hs0
    rw [Function.update_eq_self]
    exact ⟨h, fun _ _ _ _ => .refl _, hb⟩
  | @tail y z hr hst h1 h2 h3 ih =>
    obtain ⟨i1, i2, i3⟩ := ih
    have hy : (G.L i).Reach y := by have := many_level i1 i; rwa [Function.update_self] at this
    have hstep : ManyStep G (Function.update s i y) (Function.update (Function.update s i y) i z) := by
      refine .level _ i z hi (by rw [Function.update_self]; exact hst) (fun u hu hn j hj => ?_)
        (fun k u hu hn j v hj hr => ?_)
      · obtain rfl := h1 u hu
        by_cases e : j = i
        · subst e; exact hn
        · rw [Function.update_of_ne e]; exact ho j hj e
      · obtain rfl := h1 u (hg.usesBusy _ k u (.step hy hst) hu)
        by_cases e : j = i
        · subst e
          rw [Function.update_self] at hn ⊢
          intro hv
          obtain rfl := i3 v (hg.usesBusy _ k v hy hv)
          exact hn hv
        · rw [Function.update_of_ne e]; exact hf k (h3 k hu) j v hj e
    rw [Function.update_idem] at hstep
    refine ⟨.step i1 hstep, fun i' t' e hb' => .tail (i2 i' t' e hb') hstep ?_, h1⟩
    by_cases e' : i' = i
    · subst e'; rw [Function.update_self, e rfl]; exact h2
    · rw [Function.update_of_ne e']; exact hb'

/-- The steps of the interpreter change one thread only. -/
theorem winStep_other {C : WinParams α} {ws ws' : WinState α} {t rnd u : Nat}
    (h : (WinCmd.step t rnd u).exec C ws = some ws') :
    ∀ v, v ≠ t → ws'.st.pc (.user v) = ws.st.pc (.user v) := by
  intro v hv
  have plain : winPlain C ws t rnd = some ws' → ws'.st.pc (.user v) = ws.st.pc (.user v) := by
    intro h
    unfold winPlain at h
    split at h
    · simp only [Option.map_eq_some_iff] at h
      obtain ⟨st', h1, rfl⟩ := h
      exact user_other (execUser_sound h1) (user_ne hv)
    · cases h
  simp only [WinCmd.exec] at h
  split at h
  · split at h
    · split at h <;> cases h; rfl
    · exact plain h
  · unfold winWrite at h
    split at h
    · split at h <;> cases h; exact upd_ne _ _ (user_ne hv)
    · split at h <;> cases h; exact upd_ne _ _ (user_ne hv)
    · split at h <;> cases h; exact upd_ne _ _ (user_ne hv)
    · cases h
  · split at h
    · cases h; rfl
    · exact plain h
  · split at h
    · simp only [Option.map_eq_some_iff] at h
      obtain ⟨st', h1, rfl⟩ := h
      exact user_other (execUser_sound h1) (user_ne hv)
    · cases h
  · simp only [Option.map_eq_some_iff] at h
    obtain ⟨m', -, rfl⟩ := h
    rfl

/-- Is the thread inside of a getter, without locks of the libraries (`quiet`) or with? -/
def winCheck (C : WinParams α) (quiet : Bool) (t : Nat) (ws : WinState α) : Bool :=
  (match ws.st.pc (.user t) with
    | .idle => false
    | .own _ _ _ (.load k) => !quiet || decide (k = 0)
    | _ => true) &&
  (!quiet || decide (ws.mtx.proc (C.P.rankT t) ≠ some (C.thr t)))

/-- `n` steps of a thread with the check after each. -/
def soloExec (C : WinParams α) (quiet : Bool) (t : Nat) : Nat → WinState α → Option (WinState α)
  | 0, ws => some ws
  | n + 1, ws => (soloExec C quiet t n ws).bind fun w => ((WinCmd.step t 0 0).exec C w).bind fun w' =>
      if winCheck C quiet t w' = true then some w' else none

theorem winCheck_sound {C : WinParams α} {c : LevelCfg α} {quiet : Bool} {t : Nat} {ws : WinState α}
    (h : winCheck C quiet t ws = true) :
    (C.sys c).busy ws t ∧ ∀ k, (C.sys c).uses k ws t → quiet = false := by
  unfold winCheck at h
  rw [Bool.and_eq_true] at h
  obtain ⟨h1, h2⟩ := h
  refine ⟨fun e => ?_, fun k hk => ?_⟩
  · rw [e] at h1; cases h1
  · cases k with
    | mpi =>
      cases quiet with
      | false => rfl
      | true => exact absurd hk.2 (of_decide_eq_true (by simpa using h2))
    | netcdf =>
      obtain ⟨b, off, s, k, hp, hk⟩ := reading_load hk
      rw [hp] at h1
      cases quiet with
      | false => rfl
      | true => simp at h1; omega

theorem soloExec_sound {C : WinParams α} {c : LevelCfg α} {quiet : Bool} {t : Nat} {n : Nat} {ws ws' : WinState α}
    (hb : ∀ u, (C.sys c).busy ws u → u = t) (h : soloExec C quiet t n ws = some ws') :
    Solo (C.sys c) t (fun _ => quiet = false) ws ws' ∧ ∀ u, (C.sys c).busy ws' u → u = t := by
  induction n generalizing ws' with
  | zero => cases h; exact ⟨.refl _, hb⟩
  | succ n ih =>
    simp only [soloExec, Option.bind_eq_some_iff] at h
    obtain ⟨w, h1, w', h2, h3⟩ := h
    split at h3
    · next hc =>
      cases h3
      obtain ⟨i1, i2⟩ := ih h1
      obtain ⟨c1, c2⟩ := winCheck_sound (c := c) hc
      have hb' : ∀ u, (C.sys c).busy ws' u → u = t := by
        intro u hu
        by_contra e
        refine e (i2 u ?_)
        change w.st.pc (.user u) ≠ .idle
        rw [← winStep_other h2 u e]; exact hu
      exact ⟨.tail i1 (WinCmd.step_sound h2) hb' c1 c2, hb'⟩
    · cases h3

/-- The first call of a getter, and `n` steps. -/
def exSolo (quiet : Bool) (t n : Nat) : Option (WinState (List Nat)) :=
  (CacheList.init 2 1).bind fun l =>
    ((WinCmd.call t 2 2).exec exManyWin (WinState.start exManyWin l)).bind (soloExec exManyWin quiet t n)

def exManyPos : List Dbl := [.fin 4, .fin 7.5]

theorem exMany_index : pos2index .exact (openAxes .exact false exFile) exManyPos = some [1, 4] := by
  decide +kernel

theorem exMany_inside : exManyWin.P.inside 2 2 :=
  ⟨[1, 4], rfl, by
    intro n i x h1 h2
    match n with
    | 0 => cases h1; cases h2; decide
    | 1 => cases h1; cases h2; decide
    | n + 2 => simp [exLevel] at h1, by decide, by decide⟩

theorem exSolo_sound {quiet : Bool} {t n : Nat} {w : WinState (List Nat)} (h : exSolo quiet t n = some w) :
    ∃ w0 : WinState (List Nat), (exManyWin.sys exLevel).start w0 ∧ (∀ u, ¬ (exManyWin.sys exLevel).busy w0 u) ∧
      Solo (exManyWin.sys exLevel) t (fun _ => quiet = false) w0 w := by
  simp only [exSolo, Option.bind_eq_some_iff] at h
  obtain ⟨l, hl, w1, h1, h2⟩ := h
  simp only [WinCmd.exec] at h1
  split at h1
  next ht =>
    split at h1
    next hp =>
      split at h1
      next ho =>
        cases h1
        have hst : WinStep exManyWin (WinState.start exManyWin l) _ :=
          .plain _ t _ ht (by rw [hp]; rfl) (by rw [hp]; rfl) (.call _ t 2 2 hp ⟨ho, exMany_inside⟩)
        have hb : ∀ u, ¬ (exManyWin.sys exLevel).busy (WinState.start exManyWin l) u := fun u hu => hu rfl
        have hb1 : ∀ u, u ≠ t → ¬ (exManyWin.sys exLevel).busy { WinState.start exManyWin l with
            st := { (WinState.start exManyWin l).st with
              pc := upd (WinState.start exManyWin l).st.pc (.user t) (.wantCm 2 2) } } u := by
          intro u hu h
          exact h (upd_ne (WinState.start exManyWin l).st.pc _ (user_ne hu))
        have e1 : ∀ u, (exManyWin.sys exLevel).busy _ u → u = t := fun u hu => by
          by_contra e; exact hb1 u e hu
        refine ⟨_, ⟨l, hl, rfl⟩, hb, ?_⟩
        have first : Solo (exManyWin.sys exLevel) t (fun _ => quiet = false) (WinState.start exManyWin l) _ :=
          .tail (.refl _) hst e1 (by
            change upd _ _ _ _ ≠ _
            rw [upd_self]; nofun) (by
            intro k hk
            cases k with
            | mpi => cases hk.2
            | netcdf =>
              change Pc.reading (upd _ _ _ _) at hk
              rw [upd_self] at hk; exact hk.elim)
        exact solo_trans first (soloExec_sound (c := exLevel) e1 h2).1
      next => cases h1
    next => cases h1
  next => cases h1
where
  solo_trans {L : LevelSys (List Nat)} {t : Nat} {free : LibLock → Prop} {x y z : L.S} (h1 : Solo L t free x y)
      (h2 : Solo L t free y z) : Solo L t free x z := by
    induction h2 with
    | refl => exact h1
    | tail _ a b c d ih => exact .tail ih a b c d

theorem exMany_unused {s : exMany.St} (h : ManyReach exMany s) {j : Nat} (hj : j < exMany.n) {k : LibLock} {u : Nat}
    (hu : ¬ (exMany.L j).busy (s j) u) : ¬ (exMany.L j).uses k (s j) u :=
  fun hk => hu ((good_proper (exMany_proper j hj)).usesBusy _ k u (many_level h j) hk)

/-- The states of the three levels. -/
def exManySt (x y : WinState (List Nat)) (z : PassState (List Nat)) : exMany.St := fun i => match i with
  | 0 => x
  | 1 => y
  | 2 => z
  | _ + 3 => PassState.start [[], [], [], []]

theorem exMany_cases {j : Nat} (hj : j < exMany.n) : j = 0 ∨ j = 1 ∨ j = 2 := by
  have : j < 3 := hj
  omega

theorem exManySt_0 (x x' y z) : (Function.update (exManySt x y z) 0 x' : exMany.St) = exManySt x' y z := by
  funext i
  match i with
  | 0 => rfl
  | 1 => rfl
  | 2 => rfl
  | i + 3 => rfl

theorem exManySt_1 (x y y' z) : (Function.update (exManySt x y z) 1 y' : exMany.St) = exManySt x y' z := by
  funext i
  match i with
  | 0 => rfl
  | 1 => rfl
  | 2 => rfl
  | i + 3 => rfl

theorem exManySt_2 (x y z z') : (Function.update (exManySt x y z) 2 z' : exMany.St) = exManySt x y z' := by
  funext i
  match i with
  | 0 => rfl
  | 1 => rfl
  | 2 => rfl
  | i + 3 => rfl

/-- Process 0: thread 0 reads a block from the file for a getter of the first CACHE level, with both locks; thread 1
waits for `mpiLock` in a getter of the second CACHE level; thread 4 waits for `netcdfLock` in a getter of the
PASS_THROUGH level. Then thread 0 ends the reading, thread 4 reads its value and returns it. -/
theorem exMany_three : ∃ s s1 s2 : exMany.St, ManyReach exMany s ∧ ManyStep exMany s s1 ∧
    InLibrary .mpi (exMany.L 0) (s1 0) 0 ∧ InLibrary .netcdf (exMany.L 0) (s1 0) 0 ∧
    (exMany.L 1).busy (s1 1) 1 ∧ (WinState.mtx (s1 1)).pc (exManyWin.thr 1) = .wantProc 2 ∧
    (exMany.L 2).called 4 exManyPos (s 2) (s1 2) ∧ ManyDuring exMany 2 4 s1 s2 ∧
    (exMany.L 2).returns 4 (s2 2) [1, 4] := by
  have hA : ((exSolo false 0 12).bind fun w => (soloExec exManyWin false 0 5 w).map fun w' => (w, w')).any
      (fun p => (match p.1.st.pc (.user 0) with
        | .own _ _ _ (.load k) => decide (0 < k)
        | _ => false) && decide (p.1.mtx.pc (exManyWin.thr 0) = .held 2) &&
        (match p.2.st.pc (.user 0) with
        | .own _ _ _ .fin => true
        | _ => false)) = true := by decide +kernel
  have hB : (exSolo true 1 5).any (fun w => winCheck exManyWin true 1 w &&
      decide (w.mtx.pc (exManyWin.thr 1) = .wantProc 2)) = true := by decide +kernel
  obtain ⟨⟨p1, p2⟩, hx, hA⟩ := Option.any_eq_true _ _ |>.mp hA
  obtain ⟨v, hy, hB⟩ := Option.any_eq_true _ _ |>.mp hB
  simp only [Option.bind_eq_some_iff, Option.map_eq_some_iff, Prod.mk.injEq] at hx
  obtain ⟨w, hw, w', hw', e1, e2⟩ := hx
  subst e1 e2
  rw [Bool.and_eq_true, Bool.and_eq_true] at hA
  obtain ⟨⟨hA1, hA2⟩, hA3⟩ := hA
  replace hA2 := of_decide_eq_true hA2
  rw [Bool.and_eq_true] at hB
  obtain ⟨hB1, hB2⟩ := hB
  replace hB2 := of_decide_eq_true hB2
  obtain ⟨hB1, hB3⟩ := winCheck_sound (c := exLevel) hB1
  obtain ⟨w0, hw0, hi0, hsw⟩ := exSolo_sound hw
  obtain ⟨v0, hv0, hj0, hsv⟩ := exSolo_sound hy
  let z0 : PassState (List Nat) := PassState.start [[], [], [], []]
  have hr0 : ManyReach exMany (exManySt w0 v0 z0) := .init fun i => match i with
    | 0 => hw0
    | 1 => hv0
    | 2 => rfl
    | _ + 3 => rfl
  have hz0 : ∀ u, ¬ z0.pc u ≠ .idle := fun u hu => hu rfl
  -- thread 0
  obtain ⟨hr1, -, hb1⟩ := many_solo exMany_proper hr0 (i := 0) (t := 0) (by decide) (fun u hu => (hi0 u hu).elim)
    (fun j hj hne => by
      rcases exMany_cases hj with rfl | rfl | rfl
      · exact (hne rfl).elim
      · exact hj0 0
      · exact hz0 0)
    (fun k _ j u hj hne => exMany_unused hr0 hj (by
      rcases exMany_cases hj with rfl | rfl | rfl
      · exact (hne rfl).elim
      · exact hj0 u
      · exact hz0 u)) hsw
  replace hr1 := Eq.mp (congrArg (ManyReach exMany) (exManySt_0 w0 w v0 z0)) hr1
  -- thread 1
  obtain ⟨hr2, -, hb2⟩ := many_solo exMany_proper hr1 (i := 1) (t := 1) (by decide) (fun u hu => (hj0 u hu).elim)
    (fun j hj hne => by
      rcases exMany_cases hj with rfl | rfl | rfl
      · intro h; cases hb1 1 h
      · exact (hne rfl).elim
      · exact hz0 1)
    (fun k hk => by cases hk) hsv
  replace hr2 := Eq.mp (congrArg (ManyReach exMany) (exManySt_1 w v0 v z0)) hr2
  -- thread 4 calls
  let z1 : PassState (List Nat) := { z0 with pc := upd z0.pc 4 (.want exManyPos) }
  have hp : pos2index exLevel.fp exLevel.axes exManyPos = some [1, 4] := exMany_index
  have hz1 : ∀ u, u ≠ 4 → z1.pc u = .idle := fun u hu => upd_ne z0.pc _ hu
  have hz1' : z1.pc 4 = .want exManyPos := upd_self z0.pc 4 (.want exManyPos)
  have hc : (exMany.L 2).step z0 z1 := by
    refine ⟨.call 4 exManyPos ⟨by decide, by decide⟩ rfl, fun e => ?_, fun t pos h => ?_⟩
    · have := congrFun e 4
      rw [hz1'] at this; cases this
    · by_cases e : t = 4
      · subst e; rw [hz1'] at h; cases h; rw [hp]; rfl
      · rw [hz1 t e] at h; cases h
  have hstep : ManyStep exMany (exManySt w v z0) (Function.update (exManySt w v z0) 2 z1) := by
    refine ManyStep.level (G := exMany) _ 2 z1 (by decide) hc (fun t ht hn j hj => ?_) (fun k t hk => ?_)
    · obtain rfl : t = 4 := by by_contra e; exact ht (hz1 t e)
      rcases exMany_cases hj with rfl | rfl | rfl
      · intro h; cases hb1 4 h
      · intro h; cases hb2 4 h
      · exact hz0 4
    · cases k with
      | mpi => exact hk.elim
      | netcdf => cases hk
  replace hstep := Eq.mp (congrArg (ManyStep exMany (exManySt w v z0)) (exManySt_2 w v z0 z1)) hstep
  have hr3 : ManyReach exMany (exManySt w v z1) := .step hr2 hstep
  -- thread 0 continues
  obtain ⟨hs4, hb4⟩ := soloExec_sound (c := exLevel) (quiet := false) hb1 hw'
  obtain ⟨hr4, hd4, -⟩ := many_solo exMany_proper hr3 (i := 0) (t := 0) (by decide) hb1
    (fun j hj hne => by
      rcases exMany_cases hj with rfl | rfl | rfl
      · exact (hne rfl).elim
      · intro h; cases hb2 0 h
      · exact fun h => h (hz1 0 (by decide)))
    (fun k _ j u hj hne => by
      rcases exMany_cases hj with rfl | rfl | rfl
      · exact (hne rfl).elim
      · intro h
        by_cases e : u = 1
        · subst e; cases hB3 k h
        · exact exMany_unused hr3 (j := 1) (by decide) (fun h => e (hb2 u h)) h
      · cases k with
        | mpi => exact fun h => h.elim
        | netcdf => exact fun h => by cases h) hs4
  replace hr4 := Eq.mp (congrArg (ManyReach exMany) (exManySt_0 w w' v z1)) hr4
  replace hd4 := Eq.mp (congrArg (ManyDuring exMany 2 4 (exManySt w v z1)) (exManySt_0 w w' v z1))
    (hd4 2 4 nofun (fun h => by rw [show PassState.pc (exManySt w v z1 2) 4 = _ from hz1'] at h; cases h))
  -- thread 4 continues
  let z2 : PassState (List Nat) := { z1 with pc := upd z1.pc 4 (.loading exManyPos), lock := some 4 }
  let z3 : PassState (List Nat) :=
    { z2 with buf := [[], [], [1, 4], []], lock := none, pc := upd z2.pc 4 (.loaded exManyPos) }
  let z4 : PassState (List Nat) := { z3 with pc := upd z3.pc 4 (.ret exManyPos [1, 4]) }
  have h2 : z2.pc 4 = .loading exManyPos := upd_self z1.pc 4 _
  have h3 : z3.pc 4 = .loaded exManyPos := upd_self z2.pc 4 _
  have h4 : z4.pc 4 = .ret exManyPos [1, 4] := upd_self z3.pc 4 _
  have o2 : ∀ u, u ≠ 4 → z2.pc u = .idle := fun u hu => (upd_ne z1.pc _ hu).trans (hz1 u hu)
  have o3 : ∀ u, u ≠ 4 → z3.pc u = .idle := fun u hu => (upd_ne z2.pc _ hu).trans (o2 u hu)
  have o4 : ∀ u, u ≠ 4 → z4.pc u = .idle := fun u hu => (upd_ne z3.pc _ hu).trans (o3 u hu)
  have nowant : ∀ z : PassState (List Nat), (∀ u, u ≠ 4 → z.pc u = .idle) → (∀ pos, z.pc 4 ≠ .want pos) →
      ∀ t pos, z.pc t = .want pos → (pos2index exLevel.fp exLevel.axes pos).isSome := by
    intro z ho hn t pos h
    by_cases e : t = 4
    · subst e; exact (hn pos h).elim
    · rw [ho t e] at h; cases h
  have only : ∀ z : PassState (List Nat), (∀ u, u ≠ 4 → z.pc u = .idle) → ∀ u, z.pc u ≠ .idle → u = 4 :=
    fun z ho u hu => by by_contra e; exact hu (ho u e)
  have hs5 : Solo (exMany.L 2) 4 (· = .netcdf) z1 z4 := by
    have tail {y z : PassState (List Nat)} (h1 : Solo (exMany.L 2) 4 (· = .netcdf) z1 y)
        (h2 : (exMany.L 2).step y z) (h3 : ∀ u, z.pc u ≠ .idle → u = 4) (h4 : z.pc 4 ≠ .idle)
        (h5 : ∀ k, (exMany.L 2).uses k z 4 → k = .netcdf) : Solo (exMany.L 2) 4 (· = .netcdf) z1 z :=
      .tail h1 h2 h3 h4 h5
    refine tail (y := z3) (z := z4) (tail (y := z2) (z := z3) (tail (y := z1) (z := z2) (.refl _) ?_ (only z2 o2)
      ?_ ?_) ?_ (only z3 o3) ?_ ?_) ?_ (only z4 o4) ?_ ?_
    · refine ⟨.acquire 4 exManyPos hz1' rfl, fun e => ?_, nowant z2 o2 fun pos h => ?_⟩
      · have := congrFun e 4
        rw [hz1', h2] at this; cases this
      · rw [h2] at h; cases h
    · exact fun h => by rw [h2] at h; cases h
    · exact fun k hk => by cases k with
        | mpi => exact hk.elim
        | netcdf => rfl
    · refine ⟨.load 4 exManyPos [1, 4] _ h2 hp (by decide +kernel), fun e => ?_, nowant z3 o3 fun pos h => ?_⟩
      · have := congrFun e 4
        rw [h2, h3] at this; cases this
      · rw [h3] at h; cases h
    · exact fun h => by rw [h3] at h; cases h
    · exact fun k hk => by cases k with
        | mpi => exact hk.elim
        | netcdf => rfl
    · refine ⟨.convert 4 exManyPos [1, 4] h3 rfl, fun e => ?_, nowant z4 o4 fun pos h => ?_⟩
      · have := congrFun e 4
        rw [h3, h4] at this; cases this
      · rw [h4] at h; cases h
    · exact fun h => by rw [h4] at h; cases h
    · exact fun k hk => by cases k with
        | mpi => exact hk.elim
        | netcdf => rfl
  obtain ⟨-, hd5, -⟩ := many_solo exMany_proper hr4 (i := 2) (t := 4) (by decide) (only z1 hz1)
    (fun j hj hne => by
      rcases exMany_cases hj with rfl | rfl | rfl
      · intro h; cases hb4 4 h
      · intro h; cases hb2 4 h
      · exact (hne rfl).elim)
    (fun k hk j u hj hne => by
      subst hk
      rcases exMany_cases hj with rfl | rfl | rfl
      · intro h
        by_cases e : u = 0
        · subst e
          obtain ⟨b, off, s, k, hp, -⟩ := reading_load h
          rw [show w'.st.pc (.user 0) = _ from hp] at hA3
          cases hA3
        · exact exMany_unused hr4 (j := 0) (by decide) (fun h => e (hb4 u h)) h
      · intro h
        by_cases e : u = 1
        · subst e; cases hB3 .netcdf h
        · exact exMany_unused hr4 (j := 1) (by decide) (fun h => e (hb2 u h)) h
      · exact (hne rfl).elim) hs5
  replace hd5 := Eq.mp (congrArg (ManyDuring exMany 2 4 (exManySt w' v z1)) (exManySt_2 w' v z1 z4))
    (hd5 2 4 (fun _ => rfl) (fun h => by rw [show PassState.pc (exManySt w' v z1 2) 4 = _ from hz1'] at h; cases h))
  refine ⟨_, _, _, hr2, hstep, .window exLevel exManyWin w 0 rfl (by rw [hA2]; nofun) (by rw [hA2]; nofun), ?_, hB1, hB2, ⟨rfl, rfl⟩, during_trans hd4 hd5, ⟨exManyPos, h4⟩⟩
  revert hA1
  split
  · next h => intro hk; exact .readWindow exLevel exManyWin w 0 _ _ _ _ h (of_decide_eq_true hk)
  · intro hk; cases hk
where
  during_trans {i t : Nat} {x y z : exMany.St} (h1 : ManyDuring exMany i t x y) (h2 : ManyDuring exMany i t y z) :
      ManyDuring exMany i t x z := by
    induction h2 with
    | refl => exact h1
    | tail _ a b ih => exact .tail ih a b

end Asagi.Props
