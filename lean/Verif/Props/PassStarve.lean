import Verif.Proofs.Starve
import Verif.Props.PassConc
/-
C102: no thread starves in the getters of PASS_THROUGH grids.
-/
namespace Asagi.Props
open Asagi Asagi.Spec
variable {α : Type} {fp : Fp} {cc : Bool} {nc : List NcAxis} {val : List Nat → α} {c : LevelCfg α}
  {buf0 : Mem α}

/-- Steps until a getter returns. -/
def passLeft : PassPc α → Nat
  | .want _ => 4
  | .loading _ => 3
  | .loaded _ => 2
  | .ret _ _ => 1
  | _ => 0

/-- A step moves at most one thread, which comes closer to the end of its call. -/
theorem pass_cases {slot : Nat → Nat} {may : Nat → Prop} {s s' : PassState α}
    (h : PassStep c slot may s s') : ∃ t, (∀ u, u ≠ t → s'.pc u = s.pc u) ∧
      (s'.pc t = s.pc t ∨ s.pc t = .idle ∧ (∃ pos, s'.pc t = .want pos) ∨
        s.pc t ≠ .idle ∧ passLeft (s'.pc t) < passLeft (s.pc t)) := by
  cases h with
  | scribble t pos v hp => exact ⟨t, fun _ _ => rfl, .inl rfl⟩
  | call t pos ht hp => exact ⟨t, fun u hu => upd_ne _ _ hu, .inr (.inl ⟨hp, pos, upd_self _ _ _⟩)⟩
  | acquire t pos hp | load t pos idx buf' hp | loadFault t pos hp | convert t pos v hp
  | leave t pos v hp =>
    refine ⟨t, fun u hu => upd_ne _ _ hu, .inr (.inr ⟨by rw [hp]; nofun, ?_⟩)⟩
    simp only [hp, upd_self, passLeft]; omega

theorem pass_lock (ho : Opened fp cc nc val c) {n : Nat} (hb : buf0.length = n) {s : PassState α}
    (h : PassReach c (passSlot n) (· < n) buf0 s) (u : Nat) (hu : s.lock = some u) :
    (∃ pos, s.pc u = .loading pos) ∨ ∃ pos, s.pc u = .fault pos := by
  induction h with
  | init h => subst h; cases hu
  | step hr st ih =>
    have ow := (pass_inv ho hb hr).owner
    revert hu
    cases st with
    | scribble => exact ih
    | load => nofun
    | _ =>
      intro hu
      dsimp only at hu ⊢
      simp only [upd_apply]
      split_ifs <;> grind

/-- **C102** for PASS_THROUGH grids. If the lock of netCDF is granted fairly and getters are called for defined positions only
(see C04), every getter of a PASS_THROUGH grid returns, although other threads make new calls all the
time. -/
theorem C102_pass_through (ho : Opened fp cc nc val c) {n : Nat} (hb : buf0.length = n)
    {σ : Nat → PassState α} (h0 : PassReach c (passSlot n) (· < n) buf0 (σ 0))
    (hc : CourseOf (PassStep c (passSlot n) (· < n)) σ)
    (hf : FairLocksOf (PassMoves c (passSlot n) (· < n)) (fun t s => s.pc t = .idle) σ)
    (hdef : ∀ k t pos, (σ k).pc t = .want pos → pos2index fp (openAxes fp cc nc) pos ≠ none)
    (hok : ∀ t, (σ 0).pc t = .idle) (t k : Nat) : ∃ m, k ≤ m ∧ (σ m).pc t = .idle := by
  obtain ⟨wf, hx, hfp, hax, -⟩ := ho.spec
  rw [← hax, ← hfp] at hdef
  have hr : ∀ k, PassReach c (passSlot n) (· < n) buf0 (σ k) := by
    intro k
    induction k with
    | zero => exact h0
    | succ k ih =>
      rcases hc k with h | h
      · exact .step ih h
      · rw [h]; exact ih
  have inv := fun k => pass_inv ho hb (hr k)
  have hload : ∀ k t pos, (σ k).pc t = .loading pos → pos2index c.fp c.axes pos ≠ none := by
    intro k
    induction k with
    | zero => intro t pos h; rw [hok] at h; cases h
    | succ k ih =>
      intro t pos
      rcases hc k with h | h
      · revert h
        generalize σ (k + 1) = s'
        intro h
        cases h with
        | scribble => exact ih t pos
        | acquire u q hp hl =>
          dsimp only
          simp only [upd_apply]
          split_ifs with e
          · intro e1; injection e1 with e1; subst e1 e; exact hdef k _ _ hp
          · exact ih t pos
        | _ =>
          dsimp only
          simp only [upd_apply]
          split_ifs
          · nofun
          · exact ih t pos
      · rw [h]; exact ih t pos
  have hnf : ∀ k t pos, (σ k).pc t ≠ .fault pos := by
    intro k
    induction k with
    | zero => intro t pos h; rw [hok] at h; cases h
    | succ k ih =>
      intro t pos
      rcases hc k with h | h
      · have hld := hload k
        have hiv := inv k
        revert h
        generalize σ (k + 1) = s'
        intro h
        cases h with
        | scribble => exact ih t pos
        | loadFault u q hp hb' =>
          exfalso
          have hmu := hiv.busy u (by rw [hp]; nofun)
          cases hi : pos2index c.fp c.axes q with
          | none => exact hld u q hp hi
          | some idx =>
            obtain ⟨b, g1, -⟩ := pass_getBlock wf hx (σ k).buf (passSlot n u)
              (by rw [hiv.len]; simp only [passSlot, hmu, if_true]; omega) hi
            rw [hb' idx hi] at g1
            cases g1
        | _ =>
          dsimp only
          simp only [upd_apply]
          split_ifs
          · nofun
          · exact ih t pos
      · rw [h]; exact ih t pos
  have sys : LockSys (L := Unit) σ (fun s t => s.pc t) (PassMoves c (passSlot n) (· < n))
      (fun p => p = .idle) :=
    { step := fun k => by
        rcases hc k with h | h
        · by_cases e : ∀ a, (σ (k + 1)).pc a = (σ k).pc a
          · exact .inr e
          · push Not at e
            obtain ⟨a, ha⟩ := e
            exact .inl ⟨a, h, ha⟩
        · exact .inr (fun a => by rw [h])
      fair := hf
      other := fun k a h b hb => by
        obtain ⟨u, h1, -⟩ := pass_cases h.1
        by_cases e : a = u
        · exact h1 b (e ▸ hb)
        · exact absurd (h1 a e) h.2
      left := passLeft
      dec := fun k a h hn => by
        obtain ⟨u, h1, h2⟩ := pass_cases h.1
        by_cases e : a = u
        · subst e
          rcases h2 with h2 | h2 | h2
          · exact absurd h2 h.2
          · exact absurd h2.1 hn
          · exact h2.2
        · exact absurd (h1 a e) h.2
      own := fun s _ => s.lock
      Of := fun _ p _ => ∃ pos, p = .loading pos
      hown := fun k _ a => by
        constructor
        · intro h
          rcases pass_lock ho hb (hr k) a h with h | ⟨pos, h⟩
          · exact h
          · exact absurd h (hnf k a pos)
        · rintro ⟨pos, h⟩
          exact (inv k).owner a pos h
      busy := fun _ p _ h e => by obtain ⟨pos, h⟩ := h; rw [h] at e; cases e
      need := fun _ p => match p with
        | .want _ => some ()
        | _ => none
      can := fun k a hn => by
        cases hp : (σ k).pc a with
        | idle => exact absurd hp hn
        | fault pos => exact absurd hp (hnf k a pos)
        | want pos =>
          by_cases hl : (σ k).lock = none
          · exact .inl ⟨_, .acquire a pos hp hl, by simp [hp]⟩
          · exact .inr ⟨(), rfl, hl⟩
        | loading pos =>
          have hmu := (inv k).busy a (by rw [hp]; nofun)
          cases hi : pos2index c.fp c.axes pos with
          | none => exact absurd hi (hload k a pos hp)
          | some idx =>
            obtain ⟨b, g1, -⟩ := pass_getBlock wf hx (σ k).buf (passSlot n a)
              (by rw [(inv k).len]; simp only [passSlot, hmu, if_true]; omega) hi
            exact .inl ⟨_, .load a pos idx b hp hi g1, by simp [hp]⟩
        | loaded pos =>
          obtain ⟨idx, -, e⟩ := (inv k).loaded a pos hp
          exact .inl ⟨_, .convert a pos _ hp e, by simp [hp]⟩
        | ret pos v => exact .inl ⟨_, .leave a pos v hp, by simp [hp]⟩
      rank := fun _ => 0
      order := fun k a _ _ hof hn => by
        obtain ⟨pos, h⟩ := hof
        have h : (σ k).pc a = .loading pos := h
        simp only [h] at hn
        cases hn }
  exact sys.returns t k

/-! An execution of this kind: two threads of the example file read different values, again and again. -/

/-- The state with the positions `a` and `b` of the threads. -/
def exPassSt (l : Option Nat) (a b : PassPc (List Nat)) : PassState (List Nat) :=
  ⟨[[1, 4], [2, 0]], l, fun t => if t = 0 then a else if t = 1 then b else .idle⟩

theorem exPass_0 (l a b x) : upd (exPassSt l a b).pc 0 x = (exPassSt l x b).pc := by
  funext t; simp only [upd_apply, exPassSt]; split <;> simp_all
theorem exPass_1 (l a b x) : upd (exPassSt l a b).pc 1 x = (exPassSt l a x).pc := by
  funext t; simp only [upd_apply, exPassSt]; split <;> simp_all

def exPassA : List Dbl := [.fin 3.6, .fin 8.9]
def exPassB : List Dbl := [.fin 0, .fin 6]

/-- One round: both threads call getters, thread 0 reads first, thread 1 waits for the lock. -/
def exPassRound : Nat → PassState (List Nat)
  | 0 => exPassSt none .idle .idle
  | 1 => exPassSt none (.want exPassA) .idle
  | 2 => exPassSt none (.want exPassA) (.want exPassB)
  | 3 => exPassSt (some 0) (.loading exPassA) (.want exPassB)
  | 4 => exPassSt none (.loaded exPassA) (.want exPassB)
  | 5 => exPassSt (some 1) (.loaded exPassA) (.loading exPassB)
  | 6 => exPassSt (some 1) (.ret exPassA [1, 4]) (.loading exPassB)
  | 7 => exPassSt none (.ret exPassA [1, 4]) (.loaded exPassB)
  | 8 => exPassSt none (.ret exPassA [1, 4]) (.ret exPassB [2, 0])
  | 9 => exPassSt none .idle (.ret exPassB [2, 0])
  | _ => exPassSt none .idle .idle

theorem exPass_step0 {l l' a b x buf'} (h : PassStep exLevel (passSlot 2) (· < 2) (exPassSt l a b)
    ⟨buf', l', upd (exPassSt l a b).pc 0 x⟩) (hb : buf' = [[1, 4], [2, 0]]) :
    PassStep exLevel (passSlot 2) (· < 2) (exPassSt l a b) (exPassSt l' x b) := by
  rw [exPass_0, hb] at h; exact h
theorem exPass_step1 {l l' a b x buf'} (h : PassStep exLevel (passSlot 2) (· < 2) (exPassSt l a b)
    ⟨buf', l', upd (exPassSt l a b).pc 1 x⟩) (hb : buf' = [[1, 4], [2, 0]]) :
    PassStep exLevel (passSlot 2) (· < 2) (exPassSt l a b) (exPassSt l' a x) := by
  rw [exPass_1, hb] at h; exact h

theorem exPassRound_step (i : Nat) (hi : i < 10) :
    PassStep exLevel (passSlot 2) (· < 2) (exPassRound i) (exPassRound (i + 1)) := by
  match i, hi with
  | 0, _ => exact exPass_step0 (.call 0 exPassA (by omega) rfl) rfl
  | 1, _ => exact exPass_step1 (.call 1 exPassB (by omega) rfl) rfl
  | 2, _ => exact exPass_step0 (.acquire 0 exPassA rfl rfl) rfl
  | 3, _ => exact exPass_step0 (.load 0 exPassA [1, 4] [[1, 4], [2, 0]] rfl (by decide +kernel)
      (by decide +kernel)) rfl
  | 4, _ => exact exPass_step1 (.acquire 1 exPassB rfl rfl) rfl
  | 5, _ => exact exPass_step0 (.convert 0 exPassA [1, 4] rfl rfl) rfl
  | 6, _ => exact exPass_step1 (.load 1 exPassB [2, 0] [[1, 4], [2, 0]] rfl (by decide +kernel)
      (by decide +kernel)) rfl
  | 7, _ => exact exPass_step1 (.convert 1 exPassB [2, 0] rfl rfl) rfl
  | 8, _ => exact exPass_step0 (.leave 0 exPassA [1, 4] rfl) rfl
  | 9, _ => exact exPass_step1 (.leave 1 exPassB [2, 0] rfl) rfl

example : ∃ σ : Nat → PassState (List Nat), Opened .exact false exFile (fun i => i) exLevel ∧
    PassReach exLevel (passSlot 2) (· < 2) [[1, 4], [2, 0]] (σ 0) ∧
    CourseOf (PassStep exLevel (passSlot 2) (· < 2)) σ ∧
    FairLocksOf (PassMoves exLevel (passSlot 2) (· < 2)) (fun t s => s.pc t = .idle) σ ∧
    (∀ k t pos, (σ k).pc t = .want pos →
      pos2index .exact (openAxes .exact false exFile) pos ≠ none) ∧ (∀ t, (σ 0).pc t = .idle) ∧
    ∀ n, ∃ m, n ≤ m ∧ (σ m).pc 1 = .want exPassB ∧ (σ m).lock = some 0 := by
  have h0 : exPassRound 0 = PassState.start [[1, 4], [2, 0]] := by
    simp only [exPassRound, exPassSt, PassState.start, ite_self]
  refine ⟨fun n => exPassRound (n % 10), exLevel_opened, .init h0, fun n => .inl ?_, fun t n => ?_,
    fun k t pos => ?_, fun t => ?_, fun n => ?_⟩
  · have := exPassRound_step (n % 10) (Nat.mod_lt _ (by omega))
    show PassStep exLevel (passSlot 2) (· < 2) (exPassRound (n % 10)) (exPassRound ((n + 1) % 10))
    by_cases h : n % 10 = 9
    · rw [show (n + 1) % 10 = 0 by omega]
      rw [h] at this ⊢
      exact this
    · rw [show (n + 1) % 10 = n % 10 + 1 by omega]; exact this
  · refine ⟨10 * n, by omega, .inl ?_⟩
    show (exPassRound (10 * n % 10)).pc t = .idle
    rw [show 10 * n % 10 = 0 by omega, h0]; rfl
  · have hlt : k % 10 < 10 := Nat.mod_lt _ (by omega)
    show (exPassRound (k % 10)).pc t = .want pos → _
    have key : pos = exPassA ∨ pos = exPassB →
        pos2index .exact (openAxes .exact false exFile) pos ≠ none := by
      rintro (rfl | rfl) <;> decide +kernel
    intro hp
    refine key ?_
    revert hp
    generalize k % 10 = i at hlt
    match i, hlt with
    | 0, _ | 1, _ | 2, _ | 3, _ | 4, _ | 5, _ | 6, _ | 7, _ | 8, _ | 9, _ =>
      simp only [exPassRound, exPassSt]
      split_ifs <;> intro hp <;> first | (cases hp; done) | (injection hp with hp; simp [← hp])
  · show (exPassRound (0 % 10)).pc t = .idle
    rw [show 0 % 10 = 0 by omega, h0]; rfl
  · refine ⟨10 * n + 3, by omega, ?_⟩
    show (exPassRound ((10 * n + 3) % 10)).pc 1 = .want exPassB ∧ (exPassRound ((10 * n + 3) % 10)).lock = some 0
    rw [show (10 * n + 3) % 10 = 3 by omega]
    exact ⟨rfl, rfl⟩

/-- One round of thread 0 while thread 1 waits for the lock. -/
def exPassUnfair : Nat → PassState (List Nat)
  | 0 => exPassSt none .idle (.want exPassB)
  | 1 => exPassSt none (.want exPassA) (.want exPassB)
  | 2 => exPassSt (some 0) (.loading exPassA) (.want exPassB)
  | 3 => exPassSt none (.loaded exPassA) (.want exPassB)
  | 4 => exPassSt none (.ret exPassA [1, 4]) (.want exPassB)
  | _ => exPassSt none .idle (.want exPassB)

/-- **C102**: that locks are granted fairly is needed. A thread can wait for ever if the scheduler only
lets every thread continue that can continue all the time: another thread always takes the lock of
netCDF first. -/
theorem C102_unfair_lock_violated : ∃ σ : Nat → PassState (List Nat),
    Opened .exact false exFile (fun i => i) exLevel ∧
    PassReach exLevel (passSlot 2) (· < 2) [[1, 4], [2, 0]] (σ 0) ∧
    CourseOf (PassStep exLevel (passSlot 2) (· < 2)) σ ∧
    FairStepsOf (PassMoves exLevel (passSlot 2) (· < 2)) (fun t s => s.pc t = .idle) σ ∧
    ∀ n, (σ n).pc 1 = .want [.fin 0, .fin 6] := by
  have h0 : exPassRound 0 = PassState.start [[1, 4], [2, 0]] := by
    simp only [exPassRound, exPassSt, PassState.start, ite_self]
  have step : ∀ i, i < 5 →
      PassStep exLevel (passSlot 2) (· < 2) (exPassUnfair i) (exPassUnfair (i + 1)) := by
    intro i hi
    match i, hi with
    | 0, _ => exact exPass_step0 (.call 0 exPassA (by omega) rfl) rfl
    | 1, _ => exact exPass_step0 (.acquire 0 exPassA rfl rfl) rfl
    | 2, _ => exact exPass_step0 (.load 0 exPassA [1, 4] [[1, 4], [2, 0]] rfl (by decide +kernel)
        (by decide +kernel)) rfl
    | 3, _ => exact exPass_step0 (.convert 0 exPassA [1, 4] rfl rfl) rfl
    | 4, _ => exact exPass_step0 (.leave 0 exPassA [1, 4] rfl) rfl
  refine ⟨fun n => exPassUnfair (n % 5), exLevel_opened, ?_, fun n => .inl ?_, fun t n => ?_,
    fun n => ?_⟩
  · exact .step (.init h0) (exPass_step1 (.call 1 exPassB (by omega) rfl) rfl)
  · have := step (n % 5) (Nat.mod_lt _ (by omega))
    show PassStep exLevel (passSlot 2) (· < 2) (exPassUnfair (n % 5)) (exPassUnfair ((n + 1) % 5))
    by_cases h : n % 5 = 4
    · rw [show (n + 1) % 5 = 0 by omega]
      rw [h] at this ⊢
      exact this
    · rw [show (n + 1) % 5 = n % 5 + 1 by omega]; exact this
  · by_cases ht : t = 1
    · subst ht
      refine ⟨5 * n + 2, by omega, .inr (.inr fun s' hs => ?_)⟩
      replace hs : PassMoves exLevel (passSlot 2) (· < 2) 1 (exPassUnfair ((5 * n + 2) % 5)) s' := hs
      rw [show (5 * n + 2) % 5 = 2 by omega] at hs
      obtain ⟨hs, hne⟩ := hs
      have key : ∀ u x, (u = 1 → False) →
          (upd (exPassUnfair 2).pc u x) 1 = (exPassUnfair 2).pc 1 :=
        fun u x hu => upd_ne _ _ fun h => hu h.symm
      cases hs with
      | scribble u => exact hne rfl
      | acquire u pos hp hl => cases hl
      | call u pos _ hp | load u pos _ _ hp | loadFault u pos hp | convert u pos _ hp
      | leave u pos _ hp => exact hne (key _ _ fun h => by subst h; cases hp)
    · refine ⟨5 * n, by omega, .inl ?_⟩
      show (exPassUnfair (5 * n % 5)).pc t = .idle
      rw [show 5 * n % 5 = 0 by omega]
      simp [exPassUnfair, exPassSt, ht]
  · have hlt : n % 5 < 5 := Nat.mod_lt _ (by omega)
    show (exPassUnfair (n % 5)).pc 1 = .want exPassB
    generalize n % 5 = i at hlt
    match i, hlt with
    | 0, _ | 1, _ | 2, _ | 3, _ | 4, _ => rfl

end Asagi.Props
