import Verif.Model.PassConc
import Verif.Props.SharedValues
/-
C76: PASS_THROUGH grids that are read by several threads at the same time.
-/
namespace Asagi.Props
open Asagi Asagi.Spec
variable {α : Type} {c : LevelCfg α} {slot : Nat → Nat} {may : Nat → Prop} {buf0 : Mem α}

/-- The invariant: the buffer of a thread that has loaded its value contains this value until the thread
has copied it. -/
structure PassInv (c : LevelCfg α) (slot : Nat → Nat) (may : Nat → Prop) (n : Nat) (s : PassState α) :
    Prop where
  len : s.buf.length = n
  busy : ∀ t, s.pc t ≠ .idle → may t
  owner : ∀ t pos, s.pc t = .loading pos → s.lock = some t
  loaded : ∀ t pos, s.pc t = .loaded pos → ∃ idx, pos2index c.fp c.axes pos = some idx ∧
    s.buf[slot t]? = some (c.file.val idx)
  ret : ∀ t pos v, s.pc t = .ret pos v → ∃ idx, pos2index c.fp c.axes pos = some idx ∧ v = c.file.val idx
  fault : ∀ t pos, s.pc t = .fault pos → pos2index c.fp c.axes pos = none

theorem pass_getBlock (wf : c.WF) (hx : SizesExact c.fp c.file.size) (buf : Mem α) (k : Nat)
    (hk : k < buf.length) {pos : List Dbl} {idx : List Nat} (hp : pos2index c.fp c.axes pos = some idx) :
    ∃ buf', getBlock c.file c.basic idx (c.file.size.map fun _ => 1) buf k = some buf' ∧
      buf'.length = buf.length ∧ buf'[k]? = some (c.file.val idx) ∧
      ∀ i, i ≠ k → buf'[i]? = buf[i]? := by
  obtain ⟨b, e, e2, e3⟩ := passThroughGetAt_spec wf hx buf {} k hk hp
  simp only [passThroughGetAt, hp, Option.bind_eq_bind, Option.bind_some, Option.bind_eq_some_iff,
    Option.pure_def, Option.some.injEq, Prod.mk.injEq, Mem.read] at e
  obtain ⟨b', f1, v, f2, rfl, -, rfl⟩ := e
  exact ⟨b', f1, e2, f2, e3⟩

theorem PassInv.step (wf : c.WF) (hx : SizesExact c.fp c.file.size) {n : Nat}
    (hs : ∀ t, may t → slot t < n) (hinj : ∀ t u, may t → may u → slot t = slot u → t = u)
    {s s' : PassState α} (h : PassInv c slot may n s) (st : PassStep c slot may s s') :
    PassInv c slot may n s' := by
  obtain ⟨h1, h2, h3, h4, h5, h6⟩ := h
  cases st with
  | call t pos ht hp =>
    refine ⟨h1, ?_, ?_, ?_, ?_, ?_⟩ <;> grind [upd]
  | acquire t pos hp hl =>
    refine ⟨h1, ?_, ?_, ?_, ?_, ?_⟩ <;> grind [upd]
  | scribble t pos v hp =>
    refine ⟨by simpa using h1, h2, h3, ?_, h5, h6⟩
    intro u q hu
    obtain ⟨idx, e1, e2⟩ := h4 u q hu
    refine ⟨idx, e1, ?_⟩
    have : slot t ≠ slot u := fun e => by
      have := hinj t u (h2 t (by rw [hp]; nofun)) (h2 u (by rw [hu]; nofun)) e
      rw [this, hu] at hp
      cases hp
    rw [List.getElem?_set_ne this]
    exact e2
  | load t pos idx buf' hp hi hb =>
    have hmt := h2 t (by rw [hp]; nofun)
    obtain ⟨b, g1, g2, g3, g4⟩ := pass_getBlock wf hx s.buf (slot t) (by rw [h1]; exact hs t hmt) hi
    rw [hb] at g1
    injection g1 with g1; subst g1
    refine ⟨by rw [g2]; exact h1, ?_, ?_, ?_, ?_, ?_⟩
    · grind [upd]
    · intro u q hu
      dsimp only at hu
      by_cases hut : u = t
      · subst hut; rw [upd_self] at hu; cases hu
      · rw [upd_ne _ _ hut] at hu
        have a1 := h3 u q hu
        have a2 := h3 t pos hp
        rw [a1] at a2
        injection a2 with a2
        exact absurd a2 hut
    · intro u q hu
      dsimp only at hu
      by_cases hut : u = t
      · subst hut
        rw [upd_self] at hu
        injection hu with hu; subst hu
        exact ⟨idx, hi, g3⟩
      · rw [upd_ne _ _ hut] at hu
        obtain ⟨i', e1, e2⟩ := h4 u q hu
        refine ⟨i', e1, ?_⟩
        rw [g4 _ fun e => hut (hinj u t (h2 u (by rw [hu]; nofun)) hmt e)]
        exact e2
    · grind [upd]
    · grind [upd]
  | loadFault t pos hp hb =>
    refine ⟨h1, ?_, ?_, ?_, ?_, ?_⟩
    · grind [upd]
    · grind [upd]
    · grind [upd]
    · grind [upd]
    · intro u q hu
      dsimp only at hu
      by_cases hut : u = t
      · subst hut
        rw [upd_self] at hu
        injection hu with hu; subst hu
        cases hi : pos2index c.fp c.axes pos with
        | none => rfl
        | some idx =>
          obtain ⟨b, g1, -⟩ := pass_getBlock wf hx s.buf (slot u)
            (by rw [h1]; exact hs u (h2 u (by rw [hp]; nofun))) hi
          rw [hb idx hi] at g1
          cases g1
      · rw [upd_ne _ _ hut] at hu
        exact h6 u q hu
  | convert t pos v hp hv =>
    refine ⟨h1, ?_, ?_, ?_, ?_, ?_⟩
    · grind [upd]
    · grind [upd]
    · grind [upd]
    · intro u q w hu
      dsimp only at hu
      by_cases hut : u = t
      · subst hut
        rw [upd_self] at hu
        injection hu with hu hw; subst hu; subst hw
        obtain ⟨idx, e1, e2⟩ := h4 u pos hp
        simp only [Mem.read] at hv
        rw [e2] at hv
        injection hv with hv
        exact ⟨idx, e1, hv.symm⟩
      · rw [upd_ne _ _ hut] at hu
        exact h5 u q w hu
    · grind [upd]
  | leave t pos v hp =>
    refine ⟨h1, ?_, ?_, ?_, ?_, ?_⟩ <;> grind [upd]

theorem PassInv.reach (wf : c.WF) (hx : SizesExact c.fp c.file.size)
    (hs : ∀ t, may t → slot t < buf0.length) (hinj : ∀ t u, may t → may u → slot t = slot u → t = u)
    {s : PassState α} (h : PassReach c slot may buf0 s) : PassInv c slot may buf0.length s := by
  induction h with
  | init h =>
    subst h
    exact ⟨rfl, fun t h => absurd rfl h, nofun, nofun, nofun, nofun⟩
  | step _ st ih => exact ih.step wf hx hs hinj st

variable {fp : Fp} {cc : Bool} {nc : List NcAxis} {val : List Nat → α}

theorem pass_inv (ho : Opened fp cc nc val c) {n : Nat} (hb : buf0.length = n) {s : PassState α}
    (h : PassReach c (passSlot n) (· < n) buf0 s) : PassInv c (passSlot n) (· < n) buf0.length s := by
  obtain ⟨wf, hx, -⟩ := ho.spec
  refine .reach wf hx (fun t ht => ?_) (fun t u ht hu e => ?_) h
  · simp only [passSlot, ht, if_true]; omega
  · simpa only [passSlot, ht, hu, if_true] using e

/-- **C76.** A PASS_THROUGH level of an application with `n` threads, which all took part in `open`, is
read by all of them at the same time, in any interleaving and with any previous content of the buffer:
each getter returns the value of the file at the index of its own position, and no access leaves the
buffer (a fault needs an undefined position, see C04). -/
theorem C76_value (ho : Opened fp cc nc val c) {n : Nat} (hb : buf0.length = n) {s : PassState α}
    (h : PassReach c (passSlot n) (· < n) buf0 s) (t : Nat) (pos : List Dbl) :
    (∀ v, s.pc t = .ret pos v → ∃ idx, pos2index fp (openAxes fp cc nc) pos = some idx ∧ v = val idx) ∧
    (s.pc t = .fault pos → pos2index fp (openAxes fp cc nc) pos = none) := by
  have inv := pass_inv ho hb h
  obtain ⟨-, -, h1, h2, h3⟩ := ho.spec
  rw [← h2, ← h3, ← h1]
  exact ⟨fun v hv => inv.ret t pos v hv, fun hf => inv.fault t pos hf⟩

/-- **C76.** No getter waits for ever: in each state each thread inside of a getter with a defined position
can take a step, or the thread that is reading the file can. -/
theorem C76_no_deadlock (ho : Opened fp cc nc val c) {n : Nat} (hb : buf0.length = n) {s : PassState α}
    (h : PassReach c (passSlot n) (· < n) buf0 s) (t : Nat) (hbusy : s.pc t ≠ .idle)
    (hok : ∀ u pos, s.pc u ≠ .fault pos) :
    ∃ u s', (u = t ∨ s.lock = some u) ∧ PassStep c (passSlot n) (· < n) s s' ∧ s'.pc u ≠ s.pc u := by
  have inv := pass_inv ho hb h
  obtain ⟨wf, hx, -⟩ := ho.spec
  -- the lock belongs to a thread that is loading
  have hlock : ∀ {s : PassState α}, PassReach c (passSlot n) (· < n) buf0 s →
      (∀ u pos, s.pc u ≠ .fault pos) → ∀ u, s.lock = some u → ∃ pos, s.pc u = .loading pos := by
    intro s hr hok
    have key : ∀ u, s.lock = some u → (∃ pos, s.pc u = .loading pos) ∨ ∃ pos, s.pc u = .fault pos := by
      clear hok
      induction hr with
      | init h => subst h; nofun
      | step hr st ih =>
        have inv := pass_inv ho hb hr
        have ow := inv.owner
        intro u
        have ihu := ih u
        cases st with
        | scribble => exact ihu
        | load => nofun
        | _ =>
          intro hu
          dsimp only at hu ⊢
          simp only [upd_apply]
          split_ifs <;> grind
    intro u hu
    rcases key u hu with h | ⟨pos, h⟩
    · exact h
    · exact absurd h (hok u pos)
  -- a thread that is loading can finish
  have hload : ∀ u pos, s.pc u = .loading pos →
      ∃ s', PassStep c (passSlot n) (· < n) s s' ∧ s'.pc u ≠ s.pc u := by
    intro u pos hu
    have hmu := inv.busy u (by rw [hu]; nofun)
    cases hi : pos2index c.fp c.axes pos with
    | none =>
      exact ⟨_, .loadFault u pos hu (fun idx he => by rw [hi] at he; cases he), by simp [hu]⟩
    | some idx =>
      obtain ⟨b, g1, -⟩ := pass_getBlock wf hx s.buf (passSlot n u)
        (by rw [inv.len]; simp only [passSlot, hmu, if_true]; omega) hi
      exact ⟨_, .load u pos idx b hu hi g1, by simp [hu]⟩
  cases hp : s.pc t with
  | idle => exact absurd hp hbusy
  | fault pos => exact absurd hp (hok t pos)
  | want pos =>
    cases hl : s.lock with
    | none => exact ⟨t, _, .inl rfl, .acquire t pos hp hl, by simp [hp]⟩
    | some u =>
      obtain ⟨q, hq⟩ := hlock h hok u hl
      obtain ⟨s', g1, g2⟩ := hload u q hq
      exact ⟨u, s', .inr rfl, g1, g2⟩
  | loading pos =>
    obtain ⟨s', g1, g2⟩ := hload t pos hp
    rw [hp] at g2
    exact ⟨t, s', .inl rfl, g1, by rw [hp]; exact g2⟩
  | loaded pos =>
    obtain ⟨idx, -, e⟩ := inv.loaded t pos hp
    exact ⟨t, _, .inl rfl, .convert t pos _ hp e, by simp [hp]⟩
  | ret pos v => exact ⟨t, _, .inl rfl, .leave t pos v hp, by simp [hp]⟩

/-- Two threads of the example file read different values at the same time. -/
example : ∃ s, PassReach exLevel (passSlot 2) (· < 2) [[], []] s ∧
    s.pc 0 = .ret [.fin 3.6, .fin 8.9] [1, 4] ∧ s.pc 1 = .ret [.fin 0, .fin 6] [2, 0] := by
  have h0 : PassReach exLevel (passSlot 2) (· < 2) [[], []] (PassState.start [[], []]) := .init rfl
  have h1 := Reachable.step h0 (.call 0 [.fin 3.6, .fin 8.9] (by omega) rfl)
  have h2 := Reachable.step h1 (.call 1 [.fin 0, .fin 6] (by omega) rfl)
  have h3 := Reachable.step h2 (.acquire 0 [.fin 3.6, .fin 8.9] rfl rfl)
  have h4 := Reachable.step h3 (.load 0 _ [1, 4] [[1, 4], []] rfl (by decide +kernel) (by decide +kernel))
  have h5 := Reachable.step h4 (.acquire 1 [.fin 0, .fin 6] rfl rfl)
  have h6 := Reachable.step h5 (.scribble 1 [.fin 0, .fin 6] [7] rfl)
  have h7 := Reachable.step h6 (.convert 0 [.fin 3.6, .fin 8.9] [1, 4] rfl rfl)
  have h8 := Reachable.step h7 (.load 1 _ [2, 0] [[1, 4], [2, 0]] rfl (by decide +kernel) (by decide +kernel))
  have h9 := Reachable.step h8 (.convert 1 [.fin 0, .fin 6] [2, 0] rfl rfl)
  exact ⟨_, h9, rfl, rfl⟩

/-- **C76**, all threads must take part in `open`: a thread that did not (the number of threads was set to 1)
shares the buffer of thread 0, and thread 0 returns the value at the position of the other thread. -/
theorem C76_other_threads_needed : ∃ s, PassReach exLevel (passSlot 1) (fun _ => True) [[]] s ∧
    s.pc 0 = .ret [.fin 3.6, .fin 8.9] [2, 0] ∧
    pos2index .exact (openAxes .exact false exFile) [.fin 3.6, .fin 8.9] = some [1, 4] := by
  have h0 : PassReach exLevel (passSlot 1) (fun _ => True) [[]] (PassState.start [[]]) := .init rfl
  have h1 := Reachable.step h0 (.call 0 [.fin 3.6, .fin 8.9] trivial rfl)
  have h2 := Reachable.step h1 (.call 1 [.fin 0, .fin 6] trivial rfl)
  have h3 := Reachable.step h2 (.acquire 0 [.fin 3.6, .fin 8.9] rfl rfl)
  have h4 := Reachable.step h3 (.load 0 _ [1, 4] [[1, 4]] rfl (by decide +kernel) (by decide +kernel))
  have h5 := Reachable.step h4 (.acquire 1 [.fin 0, .fin 6] rfl rfl)
  have h6 := Reachable.step h5 (.load 1 _ [2, 0] [[2, 0]] rfl (by decide +kernel) (by decide +kernel))
  have h7 := Reachable.step h6 (.convert 0 [.fin 3.6, .fin 8.9] [2, 0] rfl rfl)
  exact ⟨_, h7, rfl, by decide +kernel⟩

end Asagi.Props
