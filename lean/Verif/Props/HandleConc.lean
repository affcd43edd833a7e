import Verif.Model.HandleConc
/-
C73: the Fortran handles with several threads.
-/
namespace Asagi.Props
open Asagi

def _root_.Asagi.HPc.inLock : HPc → Bool
  | .locked _ | .put _ | .grown _ _ | .freed _ _ => true
  | _ => false

/-- The entries of the table belong to the handles given out. -/
def HState.good (s : HState) (f : Nat → Option Nat) : Prop :=
  ∀ h g, (h, g) ∈ s.made → f h = if s.st h = .closed then none else some g

structure HInv (newCap : Nat → Nat) (s : HState) : Prop where
  cap : s.size ≤ s.cap ∧ s.len s.cur = s.cap
  room : ∀ t p, s.pc t = .put p → s.size < s.cap
  newLen : ∀ t p b, (s.pc t = .grown p b ∨ s.pc t = .freed p b) → s.len b = newCap s.cap
  mx : ∀ t, (s.pc t).inLock = true → s.lock = some t
  sz : ∀ h, s.st h ≠ .unborn → h < s.size
  all : ∀ h, h < s.size → ∃ g, (h, g) ∈ s.made
  made : ∀ h g, (h, g) ∈ s.made → h < s.size
  nodup : (s.made.map Prod.fst).Nodup
  buf : (∀ t p b, s.pc t ≠ .freed p b) → ∃ f, s.bufs s.cur = some f ∧ HState.good s f
  put : ∀ t p, s.pc t = .put p → ∀ f, s.bufs s.cur = some f → f s.size = some p
  gr : ∀ t p b, (s.pc t = .grown p b ∨ s.pc t = .freed p b) →
    b ≠ s.cur ∧ ∃ f, s.bufs b = some f ∧ HState.good s f ∧ f s.size = some p
  quiet : ∀ t, (s.pc t).grows = true → ∀ u, (s.pc u).uses = none
  ptr : ∀ t h c b, (s.pc t = .reading h c b ∨ s.pc t = .clearing h b) → b = s.cur
  get : ∀ t h b, (s.pc t = .getting h false ∨ s.pc t = .reading h false b) → s.st h = .open
  cls : ∀ t h b, (s.pc t = .getting h true ∨ s.pc t = .reading h true b ∨ s.pc t = .removing h ∨
    s.pc t = .clearing h b) → s.st h = .closing t
  log : ∀ h v, (h, v) ∈ s.log → ∃ g, (h, g) ∈ s.made ∧ v = some g
  ok : s.fault = false

/-- Another thread is exchanging the array exactly if it was before the step of a thread that is not. -/
theorem notFreed {pc : Nat → HPc} {t : Nat} {q : HPc} (hq : ∀ p b, pc t ≠ .freed p b)
    (h : ∀ u p b, upd pc t q u ≠ .freed p b) : ∀ u p b, pc u ≠ .freed p b := by
  intro u p b
  by_cases hu : u = t
  · subst hu; exact hq p b
  · have := h u p b; rwa [upd_ne _ _ hu] at this

set_option maxHeartbeats 1000000 in
theorem hinv {newCap : Nat → Nat} (hn : ∀ c, c < newCap c) {s : HState}
    (h : Reachable HState.init (HStep true newCap) s) : HInv newCap s := by
  induction h with
  | init h =>
    subst h
    constructor <;> simp [HPc.inLock, HPc.grows, HPc.uses, HState.good, upd]
  | @step s s' _ hs I =>
    obtain ⟨cap, room, newLen, mx, sz, all, made, nodup, buf, put, gr, quiet, ptr, get, cls, log, ok⟩ := I
    cases hs with
    | create t p hp =>
      constructor
      case cap => grind [upd, HPc.inLock, HPc.grows, HPc.uses, HState.good]
      case room => grind [upd, HPc.inLock, HPc.grows, HPc.uses, HState.good]
      case newLen => grind [upd, HPc.inLock, HPc.grows, HPc.uses, HState.good]
      case mx => grind [upd, HPc.inLock, HPc.grows, HPc.uses, HState.good]
      case sz => grind [upd, HPc.inLock, HPc.grows, HPc.uses, HState.good]
      case all => grind [upd, HPc.inLock, HPc.grows, HPc.uses, HState.good]
      case made => grind [upd, HPc.inLock, HPc.grows, HPc.uses, HState.good]
      case nodup => grind [upd, HPc.inLock, HPc.grows, HPc.uses, HState.good]
      case buf => exact fun hnf => buf (notFreed (by simp [hp]) hnf)
      case put => grind [upd, HPc.inLock, HPc.grows, HPc.uses, HState.good]
      case gr => grind [upd, HPc.inLock, HPc.grows, HPc.uses, HState.good]
      case quiet => grind [upd, HPc.inLock, HPc.grows, HPc.uses, HState.good]
      case ptr => grind [upd, HPc.inLock, HPc.grows, HPc.uses, HState.good]
      case get => grind [upd, HPc.inLock, HPc.grows, HPc.uses, HState.good]
      case cls => grind [upd, HPc.inLock, HPc.grows, HPc.uses, HState.good]
      case log => grind [upd, HPc.inLock, HPc.grows, HPc.uses, HState.good]
      case ok => grind [upd, HPc.inLock, HPc.grows, HPc.uses, HState.good]
    | lock t p hp hl =>
      constructor
      case cap => grind [upd, HPc.inLock, HPc.grows, HPc.uses, HState.good]
      case room => grind [upd, HPc.inLock, HPc.grows, HPc.uses, HState.good]
      case newLen => grind [upd, HPc.inLock, HPc.grows, HPc.uses, HState.good]
      case mx => grind [upd, HPc.inLock, HPc.grows, HPc.uses, HState.good]
      case sz => grind [upd, HPc.inLock, HPc.grows, HPc.uses, HState.good]
      case all => grind [upd, HPc.inLock, HPc.grows, HPc.uses, HState.good]
      case made => grind [upd, HPc.inLock, HPc.grows, HPc.uses, HState.good]
      case nodup => grind [upd, HPc.inLock, HPc.grows, HPc.uses, HState.good]
      case buf => exact fun hnf => buf (notFreed (by simp [hp]) hnf)
      case put => grind [upd, HPc.inLock, HPc.grows, HPc.uses, HState.good]
      case gr => grind [upd, HPc.inLock, HPc.grows, HPc.uses, HState.good]
      case quiet => grind [upd, HPc.inLock, HPc.grows, HPc.uses, HState.good]
      case ptr => grind [upd, HPc.inLock, HPc.grows, HPc.uses, HState.good]
      case get => grind [upd, HPc.inLock, HPc.grows, HPc.uses, HState.good]
      case cls => grind [upd, HPc.inLock, HPc.grows, HPc.uses, HState.good]
      case log => grind [upd, HPc.inLock, HPc.grows, HPc.uses, HState.good]
      case ok => grind [upd, HPc.inLock, HPc.grows, HPc.uses, HState.good]
    | put t p f hp hlt hf =>
      constructor
      case cap => grind [upd, HPc.inLock, HPc.grows, HPc.uses, HState.good]
      case room => grind [upd, HPc.inLock, HPc.grows, HPc.uses, HState.good]
      case newLen => grind [upd, HPc.inLock, HPc.grows, HPc.uses, HState.good]
      case mx => grind [upd, HPc.inLock, HPc.grows, HPc.uses, HState.good]
      case sz => grind [upd, HPc.inLock, HPc.grows, HPc.uses, HState.good]
      case all => grind [upd, HPc.inLock, HPc.grows, HPc.uses, HState.good]
      case made => grind [upd, HPc.inLock, HPc.grows, HPc.uses, HState.good]
      case nodup => grind [upd, HPc.inLock, HPc.grows, HPc.uses, HState.good]
      case buf => have := @notFreed s.pc t; grind [upd, HPc.inLock, HPc.grows, HPc.uses, HState.good]
      case put =>
        intro u q hu g hg
        by_cases h' : u = t
        · subst h'
          simp only [upd_self, HPc.put.injEq, Option.some.injEq] at hu hg
          subst hu hg
          exact upd_self ..
        · have h1 := mx t (by simp [hp, HPc.inLock])
          have h2 := mx u
          grind [upd, HPc.inLock, HPc.grows, HPc.uses, HState.good]
      case gr => grind [upd, HPc.inLock, HPc.grows, HPc.uses, HState.good]
      case quiet => grind [upd, HPc.inLock, HPc.grows, HPc.uses, HState.good]
      case ptr => grind [upd, HPc.inLock, HPc.grows, HPc.uses, HState.good]
      case get => grind [upd, HPc.inLock, HPc.grows, HPc.uses, HState.good]
      case cls => grind [upd, HPc.inLock, HPc.grows, HPc.uses, HState.good]
      case log => grind [upd, HPc.inLock, HPc.grows, HPc.uses, HState.good]
      case ok => grind [upd, HPc.inLock, HPc.grows, HPc.uses, HState.good]
    | bump t p hp =>
      constructor
      case cap => grind [upd, HPc.inLock, HPc.grows, HPc.uses, HState.good]
      case room => grind [upd, HPc.inLock, HPc.grows, HPc.uses, HState.good]
      case newLen => grind [upd, HPc.inLock, HPc.grows, HPc.uses, HState.good]
      case mx => grind [upd, HPc.inLock, HPc.grows, HPc.uses, HState.good]
      case sz => grind [upd, HPc.inLock, HPc.grows, HPc.uses, HState.good]
      case all =>
        intro h hh
        by_cases h' : h = s.size
        · subst h'; exact ⟨p, by simp⟩
        · obtain ⟨g, hg⟩ := all h (by dsimp only at hh; omega)
          exact ⟨g, by simp [hg]⟩
      case made => grind [upd, HPc.inLock, HPc.grows, HPc.uses, HState.good]
      case nodup => grind [upd, HPc.inLock, HPc.grows, HPc.uses, HState.good]
      case buf => have := @notFreed s.pc t; grind [upd, HPc.inLock, HPc.grows, HPc.uses, HState.good]
      case put => grind [upd, HPc.inLock, HPc.grows, HPc.uses, HState.good]
      case gr => grind [upd, HPc.inLock, HPc.grows, HPc.uses, HState.good]
      case quiet => grind [upd, HPc.inLock, HPc.grows, HPc.uses, HState.good]
      case ptr => grind [upd, HPc.inLock, HPc.grows, HPc.uses, HState.good]
      case get => grind [upd, HPc.inLock, HPc.grows, HPc.uses, HState.good]
      case cls => grind [upd, HPc.inLock, HPc.grows, HPc.uses, HState.good]
      case log => grind [upd, HPc.inLock, HPc.grows, HPc.uses, HState.good]
      case ok => grind [upd, HPc.inLock, HPc.grows, HPc.uses, HState.good]
    | grow t p b f hp hlt hf hb hr =>
      constructor
      case cap => grind [upd, HPc.inLock, HPc.grows, HPc.uses, HState.good]
      case room => grind [upd, HPc.inLock, HPc.grows, HPc.uses, HState.good]
      case newLen => grind [upd, HPc.inLock, HPc.grows, HPc.uses, HState.good]
      case mx => grind [upd, HPc.inLock, HPc.grows, HPc.uses, HState.good]
      case sz => grind [upd, HPc.inLock, HPc.grows, HPc.uses, HState.good]
      case all => grind [upd, HPc.inLock, HPc.grows, HPc.uses, HState.good]
      case made => grind [upd, HPc.inLock, HPc.grows, HPc.uses, HState.good]
      case nodup => grind [upd, HPc.inLock, HPc.grows, HPc.uses, HState.good]
      case buf => have := @notFreed s.pc t; grind [upd, HPc.inLock, HPc.grows, HPc.uses, HState.good]
      case put => grind [upd, HPc.inLock, HPc.grows, HPc.uses, HState.good]
      case gr => grind [upd, HPc.inLock, HPc.grows, HPc.uses, HState.good]
      case quiet => grind [upd, HPc.inLock, HPc.grows, HPc.uses, HState.good]
      case ptr => grind [upd, HPc.inLock, HPc.grows, HPc.uses, HState.good]
      case get => grind [upd, HPc.inLock, HPc.grows, HPc.uses, HState.good]
      case cls => grind [upd, HPc.inLock, HPc.grows, HPc.uses, HState.good]
      case log => grind [upd, HPc.inLock, HPc.grows, HPc.uses, HState.good]
      case ok => grind [upd, HPc.inLock, HPc.grows, HPc.uses, HState.good]
    | free t p b hp =>
      constructor
      case cap => grind [upd, HPc.inLock, HPc.grows, HPc.uses, HState.good]
      case room => grind [upd, HPc.inLock, HPc.grows, HPc.uses, HState.good]
      case newLen => grind [upd, HPc.inLock, HPc.grows, HPc.uses, HState.good]
      case mx => grind [upd, HPc.inLock, HPc.grows, HPc.uses, HState.good]
      case sz => grind [upd, HPc.inLock, HPc.grows, HPc.uses, HState.good]
      case all => grind [upd, HPc.inLock, HPc.grows, HPc.uses, HState.good]
      case made => grind [upd, HPc.inLock, HPc.grows, HPc.uses, HState.good]
      case nodup => grind [upd, HPc.inLock, HPc.grows, HPc.uses, HState.good]
      case buf => exact fun hnf => absurd (upd_self ..) (hnf t p b)
      case put => grind [upd, HPc.inLock, HPc.grows, HPc.uses, HState.good]
      case gr => grind [upd, HPc.inLock, HPc.grows, HPc.uses, HState.good]
      case quiet => grind [upd, HPc.inLock, HPc.grows, HPc.uses, HState.good]
      case ptr => grind [upd, HPc.inLock, HPc.grows, HPc.uses, HState.good]
      case get => grind [upd, HPc.inLock, HPc.grows, HPc.uses, HState.good]
      case cls => grind [upd, HPc.inLock, HPc.grows, HPc.uses, HState.good]
      case log => grind [upd, HPc.inLock, HPc.grows, HPc.uses, HState.good]
      case ok => grind [upd, HPc.inLock, HPc.grows, HPc.uses, HState.good]
    | exchange t p b hp =>
      constructor
      case cap => exact ⟨by have := hn s.cap; have := cap.1; dsimp only; omega, newLen t p b (Or.inr hp)⟩
      case room => grind [upd, HPc.inLock, HPc.grows, HPc.uses, HState.good]
      case newLen => grind [upd, HPc.inLock, HPc.grows, HPc.uses, HState.good]
      case mx => grind [upd, HPc.inLock, HPc.grows, HPc.uses, HState.good]
      case sz => grind [upd, HPc.inLock, HPc.grows, HPc.uses, HState.good]
      case all =>
        intro h hh
        by_cases h' : h = s.size
        · subst h'; exact ⟨p, by simp⟩
        · obtain ⟨g, hg⟩ := all h (by dsimp only at hh; omega)
          exact ⟨g, by simp [hg]⟩
      case made => grind [upd, HPc.inLock, HPc.grows, HPc.uses, HState.good]
      case nodup => grind [upd, HPc.inLock, HPc.grows, HPc.uses, HState.good]
      case buf =>
        intro _
        obtain ⟨_, f, h1, h2, h3⟩ := gr t p b (Or.inr hp)
        refine ⟨f, h1, ?_⟩
        grind [upd, HPc.inLock, HPc.grows, HPc.uses, HState.good]
      case put => grind [upd, HPc.inLock, HPc.grows, HPc.uses, HState.good]
      case gr => grind [upd, HPc.inLock, HPc.grows, HPc.uses, HState.good]
      case quiet => grind [upd, HPc.inLock, HPc.grows, HPc.uses, HState.good]
      case ptr => grind [upd, HPc.inLock, HPc.grows, HPc.uses, HState.good]
      case get => grind [upd, HPc.inLock, HPc.grows, HPc.uses, HState.good]
      case cls => grind [upd, HPc.inLock, HPc.grows, HPc.uses, HState.good]
      case log => grind [upd, HPc.inLock, HPc.grows, HPc.uses, HState.good]
      case ok => grind [upd, HPc.inLock, HPc.grows, HPc.uses, HState.good]
    | use t h hp ho hr =>
      constructor
      case cap => grind [upd, HPc.inLock, HPc.grows, HPc.uses, HState.good]
      case room => grind [upd, HPc.inLock, HPc.grows, HPc.uses, HState.good]
      case newLen => grind [upd, HPc.inLock, HPc.grows, HPc.uses, HState.good]
      case mx => grind [upd, HPc.inLock, HPc.grows, HPc.uses, HState.good]
      case sz => grind [upd, HPc.inLock, HPc.grows, HPc.uses, HState.good]
      case all => grind [upd, HPc.inLock, HPc.grows, HPc.uses, HState.good]
      case made => grind [upd, HPc.inLock, HPc.grows, HPc.uses, HState.good]
      case nodup => grind [upd, HPc.inLock, HPc.grows, HPc.uses, HState.good]
      case buf => exact fun hnf => buf (notFreed (by simp [hp]) hnf)
      case put => grind [upd, HPc.inLock, HPc.grows, HPc.uses, HState.good]
      case gr => grind [upd, HPc.inLock, HPc.grows, HPc.uses, HState.good]
      case quiet => grind [upd, HPc.inLock, HPc.grows, HPc.uses, HState.good]
      case ptr => grind [upd, HPc.inLock, HPc.grows, HPc.uses, HState.good]
      case get => grind [upd, HPc.inLock, HPc.grows, HPc.uses, HState.good]
      case cls => grind [upd, HPc.inLock, HPc.grows, HPc.uses, HState.good]
      case log => grind [upd, HPc.inLock, HPc.grows, HPc.uses, HState.good]
      case ok => grind [upd, HPc.inLock, HPc.grows, HPc.uses, HState.good]
    | close t h hp ho hu hr =>
      constructor
      case cap => grind [upd, HPc.inLock, HPc.grows, HPc.uses, HState.good]
      case room => grind [upd, HPc.inLock, HPc.grows, HPc.uses, HState.good]
      case newLen => grind [upd, HPc.inLock, HPc.grows, HPc.uses, HState.good]
      case mx => grind [upd, HPc.inLock, HPc.grows, HPc.uses, HState.good]
      case sz => grind [upd, HPc.inLock, HPc.grows, HPc.uses, HState.good]
      case all => grind [upd, HPc.inLock, HPc.grows, HPc.uses, HState.good]
      case made => grind [upd, HPc.inLock, HPc.grows, HPc.uses, HState.good]
      case nodup => grind [upd, HPc.inLock, HPc.grows, HPc.uses, HState.good]
      case buf => have := @notFreed s.pc t; grind [upd, HPc.inLock, HPc.grows, HPc.uses, HState.good]
      case put => grind [upd, HPc.inLock, HPc.grows, HPc.uses, HState.good]
      case gr => grind [upd, HPc.inLock, HPc.grows, HPc.uses, HState.good]
      case quiet => grind [upd, HPc.inLock, HPc.grows, HPc.uses, HState.good]
      case ptr => grind [upd, HPc.inLock, HPc.grows, HPc.uses, HState.good]
      case get => grind [upd, HPc.inLock, HPc.grows, HPc.uses, HState.good]
      case cls => grind [upd, HPc.inLock, HPc.grows, HPc.uses, HState.good]
      case log => grind [upd, HPc.inLock, HPc.grows, HPc.uses, HState.good]
      case ok => grind [upd, HPc.inLock, HPc.grows, HPc.uses, HState.good]
    | readPtr t h c hp =>
      constructor
      case cap => grind [upd, HPc.inLock, HPc.grows, HPc.uses, HState.good]
      case room => grind [upd, HPc.inLock, HPc.grows, HPc.uses, HState.good]
      case newLen => grind [upd, HPc.inLock, HPc.grows, HPc.uses, HState.good]
      case mx => grind [upd, HPc.inLock, HPc.grows, HPc.uses, HState.good]
      case sz => grind [upd, HPc.inLock, HPc.grows, HPc.uses, HState.good]
      case all => grind [upd, HPc.inLock, HPc.grows, HPc.uses, HState.good]
      case made => grind [upd, HPc.inLock, HPc.grows, HPc.uses, HState.good]
      case nodup => grind [upd, HPc.inLock, HPc.grows, HPc.uses, HState.good]
      case buf => exact fun hnf => buf (notFreed (by simp [hp]) hnf)
      case put => grind [upd, HPc.inLock, HPc.grows, HPc.uses, HState.good]
      case gr => grind [upd, HPc.inLock, HPc.grows, HPc.uses, HState.good]
      case quiet => grind [upd, HPc.inLock, HPc.grows, HPc.uses, HState.good]
      case ptr => grind [upd, HPc.inLock, HPc.grows, HPc.uses, HState.good]
      case get => grind [upd, HPc.inLock, HPc.grows, HPc.uses, HState.good]
      case cls => grind [upd, HPc.inLock, HPc.grows, HPc.uses, HState.good]
      case log => grind [upd, HPc.inLock, HPc.grows, HPc.uses, HState.good]
      case ok => grind [upd, HPc.inLock, HPc.grows, HPc.uses, HState.good]
    | readEntry t h b c f hp hf =>
      have nf : ∀ u p b, s.pc u ≠ .freed p b := by
        intro u p b' e
        have := quiet u (by simp [e, HPc.grows]) t
        simp [hp, HPc.uses] at this
      obtain ⟨f0, hf0, hgood⟩ := buf nf
      obtain rfl : b = s.cur := ptr t h c b (Or.inl hp)
      have hst : s.st h ≠ .unborn ∧ s.st h ≠ .closed := by
        cases c
        · rw [get t h s.cur (Or.inr hp)]; simp
        · rw [cls t h s.cur (Or.inr (Or.inl hp))]; simp
      obtain ⟨g, hg⟩ := all h (sz h hst.1)
      constructor
      case cap => grind [upd, HPc.inLock, HPc.grows, HPc.uses, HState.good]
      case room => grind [upd, HPc.inLock, HPc.grows, HPc.uses, HState.good]
      case newLen => grind [upd, HPc.inLock, HPc.grows, HPc.uses, HState.good]
      case mx => grind [upd, HPc.inLock, HPc.grows, HPc.uses, HState.good]
      case sz => grind [upd, HPc.inLock, HPc.grows, HPc.uses, HState.good]
      case all => grind [upd, HPc.inLock, HPc.grows, HPc.uses, HState.good]
      case made => grind [upd, HPc.inLock, HPc.grows, HPc.uses, HState.good]
      case nodup => grind [upd, HPc.inLock, HPc.grows, HPc.uses, HState.good]
      case buf => exact fun hnf => buf (notFreed (by simp [hp]) hnf)
      case put => grind [upd, HPc.inLock, HPc.grows, HPc.uses, HState.good]
      case gr => grind [upd, HPc.inLock, HPc.grows, HPc.uses, HState.good]
      case quiet => grind [upd, HPc.inLock, HPc.grows, HPc.uses, HState.good]
      case ptr => grind [upd, HPc.inLock, HPc.grows, HPc.uses, HState.good]
      case get => grind [upd, HPc.inLock, HPc.grows, HPc.uses, HState.good]
      case cls => grind [upd, HPc.inLock, HPc.grows, HPc.uses, HState.good]
      case log =>
        intro h' v hv
        rcases List.mem_cons.1 hv with e | e
        · cases e
          refine ⟨g, hg, ?_⟩
          obtain rfl : f0 = f := by rw [hf0] at hf; exact Option.some.inj hf
          rw [hgood h g hg, if_neg hst.2]
        · exact log h' v e
      case ok => grind [upd, HPc.inLock, HPc.grows, HPc.uses, HState.good]
    | readFreed t h b c hp hf =>
      have nf : ∀ u p b, s.pc u ≠ .freed p b := by
        intro u p b' e
        have := quiet u (by simp [e, HPc.grows]) t
        simp [hp, HPc.uses] at this
      obtain ⟨f0, hf0, hgood⟩ := buf nf
      obtain rfl : b = s.cur := ptr t h c b (Or.inl hp)
      rw [hf0] at hf; cases hf
    | removePtr t h hp =>
      constructor
      case cap => grind [upd, HPc.inLock, HPc.grows, HPc.uses, HState.good]
      case room => grind [upd, HPc.inLock, HPc.grows, HPc.uses, HState.good]
      case newLen => grind [upd, HPc.inLock, HPc.grows, HPc.uses, HState.good]
      case mx => grind [upd, HPc.inLock, HPc.grows, HPc.uses, HState.good]
      case sz => grind [upd, HPc.inLock, HPc.grows, HPc.uses, HState.good]
      case all => grind [upd, HPc.inLock, HPc.grows, HPc.uses, HState.good]
      case made => grind [upd, HPc.inLock, HPc.grows, HPc.uses, HState.good]
      case nodup => grind [upd, HPc.inLock, HPc.grows, HPc.uses, HState.good]
      case buf => exact fun hnf => buf (notFreed (by simp [hp]) hnf)
      case put => grind [upd, HPc.inLock, HPc.grows, HPc.uses, HState.good]
      case gr => grind [upd, HPc.inLock, HPc.grows, HPc.uses, HState.good]
      case quiet => grind [upd, HPc.inLock, HPc.grows, HPc.uses, HState.good]
      case ptr => grind [upd, HPc.inLock, HPc.grows, HPc.uses, HState.good]
      case get => grind [upd, HPc.inLock, HPc.grows, HPc.uses, HState.good]
      case cls => grind [upd, HPc.inLock, HPc.grows, HPc.uses, HState.good]
      case log => grind [upd, HPc.inLock, HPc.grows, HPc.uses, HState.good]
      case ok => grind [upd, HPc.inLock, HPc.grows, HPc.uses, HState.good]
    | clear t h b f hp hf =>
      have nf : ∀ u p b, s.pc u ≠ .freed p b := by
        intro u p b' e
        have := quiet u (by simp [e, HPc.grows]) t
        simp [hp, HPc.uses] at this
      obtain ⟨f0, hf0, hgood⟩ := buf nf
      obtain rfl : b = s.cur := ptr t h false b (Or.inr hp)
      have hst : s.st h = .closing t := cls t h s.cur (Or.inr (Or.inr (Or.inr hp)))
      have hsz : h < s.size := sz h (by rw [hst]; simp)
      obtain rfl : f0 = f := by rw [hf0] at hf; exact Option.some.inj hf
      constructor
      case cap => grind [upd, HPc.inLock, HPc.grows, HPc.uses, HState.good]
      case room => grind [upd, HPc.inLock, HPc.grows, HPc.uses, HState.good]
      case newLen => grind [upd, HPc.inLock, HPc.grows, HPc.uses, HState.good]
      case mx => grind [upd, HPc.inLock, HPc.grows, HPc.uses, HState.good]
      case sz =>
        intro k hk
        by_cases e : k = h
        · subst e; exact hsz
        · dsimp only at hk; rw [upd_ne _ _ e] at hk; exact sz k hk
      case all => grind [upd, HPc.inLock, HPc.grows, HPc.uses, HState.good]
      case made => grind [upd, HPc.inLock, HPc.grows, HPc.uses, HState.good]
      case nodup => grind [upd, HPc.inLock, HPc.grows, HPc.uses, HState.good]
      case buf =>
        refine fun _ => ⟨upd f0 h none, upd_self .., ?_⟩
        intro k g hk
        show upd f0 h none k = if upd s.st h .closed k = .closed then none else some g
        by_cases e : k = h
        · subst e; rw [upd_self, upd_self, if_pos rfl]
        · rw [upd_ne _ _ e, upd_ne _ _ e]; exact hgood k g hk
      case put =>
        intro u q hu f' hf'
        dsimp only at hu hf' ⊢
        have hut : u ≠ t := by rintro rfl; rw [upd_self] at hu; cases hu
        rw [upd_ne _ _ hut] at hu
        rw [upd_self] at hf'
        cases hf'
        rw [upd_ne _ _ (by omega : s.size ≠ h)]
        exact put u q hu f0 hf0
      case gr => grind [upd, HPc.inLock, HPc.grows, HPc.uses, HState.good]
      case quiet => grind [upd, HPc.inLock, HPc.grows, HPc.uses, HState.good]
      case ptr => grind [upd, HPc.inLock, HPc.grows, HPc.uses, HState.good]
      case get =>
        intro u k b' hu
        dsimp only at hu ⊢
        have hut : u ≠ t := by rintro rfl; rw [upd_self] at hu; rcases hu with e | e <;> cases e
        rw [upd_ne _ _ hut] at hu
        have := get u k b' hu
        rwa [upd_ne _ _ (by rintro rfl; rw [hst] at this; cases this)]
      case cls =>
        intro u k b' hu
        dsimp only at hu ⊢
        have hut : u ≠ t := by
          rintro rfl; rw [upd_self] at hu; rcases hu with e | e | e | e <;> cases e
        rw [upd_ne _ _ hut] at hu
        have := cls u k b' hu
        rwa [upd_ne _ _ (by rintro rfl; rw [hst] at this; cases this; exact hut rfl)]
      case log => grind [upd, HPc.inLock, HPc.grows, HPc.uses, HState.good]
      case ok => grind [upd, HPc.inLock, HPc.grows, HPc.uses, HState.good]
    | clearFreed t h b hp hf =>
      have nf : ∀ u p b, s.pc u ≠ .freed p b := by
        intro u p b' e
        have := quiet u (by simp [e, HPc.grows]) t
        simp [hp, HPc.uses] at this
      obtain ⟨f0, hf0, hgood⟩ := buf nf
      obtain rfl : b = s.cur := ptr t h false b (Or.inr hp)
      rw [hf0] at hf; cases hf

/-- **C73 (handles are not used while the table grows).** For any number of threads, in all executions in
which no thread is between the beginning and the end of a call through a handle while `create` exchanges
the array of the table: memory that is freed or lies behind an array is never used, no handle is given
out twice, every call through a handle gets the grid for which the handle was given out, and when all calls
have returned exactly the closed handles refer to no grid. `hn`: a vector without room gets a larger array.
Missing: calls while the table grows, see `C73_freed_violated` and `C73_lost_close_violated`. -/
theorem C73_handles_partial {newCap : Nat → Nat} (hn : ∀ c, c < newCap c) {s : HState}
    (h : Reachable HState.init (HStep true newCap) s) :
    s.fault = false ∧ (s.made.map Prod.fst).Nodup ∧
    (∀ hd v, (hd, v) ∈ s.log → ∃ g, (hd, g) ∈ s.made ∧ v = some g) ∧
    ((∀ t, s.pc t = .idle) → ∃ f, s.bufs s.cur = some f ∧
      ∀ hd g, (hd, g) ∈ s.made → f hd = if s.st hd = .closed then none else some g) := by
  have I := hinv hn h
  exact ⟨I.ok, I.nodup, I.log, fun hq => I.buf (fun t p b => by simp [hq t])⟩

/-- The array of the empty vector. -/
def h0 : HState :=
  ⟨upd (fun _ => none) 0 (some fun _ => none), fun _ => 0, 0, 0, 0, none, fun _ => .idle, fun _ => .unborn, [], [], false⟩

/-- **C73, violated: freed memory is used.** Thread 0 has created a grid and uses it, thread 1 creates
another grid. The growth is that of libstdc++ (the capacity is doubled). -/
theorem C73_freed_violated : ∃ s, Reachable HState.init (HStep false fun c => max 1 (2 * c)) s ∧
    s.fault = true := by
  have s0 : Reachable HState.init (HStep false fun c => max 1 (2 * c)) h0 := .init rfl
  have s1 := s0.step (.create 0 70 rfl)
  have s2 := s1.step (.lock 0 70 rfl rfl)
  have s3 := s2.step (.grow 0 70 1 _ rfl rfl rfl rfl nofun)
  have s4 := s3.step (.free 0 70 1 rfl)
  have s5 := s4.step (.exchange 0 70 1 rfl)
  have s6 := s5.step (.use 0 0 rfl rfl nofun)
  have s7 := s6.step (.readPtr 0 0 false rfl)
  have s8 := s7.step (.create 1 71 rfl)
  have s9 := s8.step (.lock 1 71 rfl rfl)
  have s10 := s9.step (.grow 1 71 2 _ rfl rfl rfl rfl nofun)
  have s11 := s10.step (.free 1 71 2 rfl)
  have s12 := s11.step (.readFreed 0 0 1 false rfl rfl)
  exact ⟨_, s12, rfl⟩

/-- **C73, violated: a close is lost.** Thread 0 closes its grid while thread 1 creates another one;
afterwards the closed handle still refers to the closed grid (closing it again would free it twice, compare
`C72_close_twice`). -/
theorem C73_lost_close_violated : ∃ s, Reachable HState.init (HStep false fun c => max 1 (2 * c)) s ∧
    (s.pc 0 = .idle ∧ s.pc 1 = .idle) ∧ s.fault = false ∧ s.made = [(1, 71), (0, 70)] ∧
    s.st 0 = .closed ∧ ∃ f, s.bufs s.cur = some f ∧ f 0 = some 70 := by
  have s0 : Reachable HState.init (HStep false fun c => max 1 (2 * c)) h0 := .init rfl
  have s1 := s0.step (.create 0 70 rfl)
  have s2 := s1.step (.lock 0 70 rfl rfl)
  have s3 := s2.step (.grow 0 70 1 _ rfl rfl rfl rfl nofun)
  have s4 := s3.step (.free 0 70 1 rfl)
  have s5 := s4.step (.exchange 0 70 1 rfl)
  have s6 := s5.step (.create 1 71 rfl)
  have s7 := s6.step (.lock 1 71 rfl rfl)
  have s8 := s7.step (.close 0 0 rfl rfl (by
    intro u
    by_cases h0 : u = 0
    · subst h0; exact nofun
    · by_cases h1 : u = 1
      · subst h1; exact nofun
      · simp [upd, h0, h1, Asagi.Props.h0, HPc.uses]) nofun)
  have s9 := s8.step (.readPtr 0 0 true rfl)
  have s10 := s9.step (.readEntry 0 0 1 true _ rfl rfl)
  have s11 := s10.step (.removePtr 0 0 rfl)
  have s12 := s11.step (.grow 1 71 2 _ rfl rfl rfl rfl nofun)
  have s13 := s12.step (.clear 0 0 1 _ rfl rfl)
  have s14 := s13.step (.free 1 71 2 rfl)
  have s15 := s14.step (.exchange 1 71 2 rfl)
  exact ⟨_, s15, ⟨rfl, rfl⟩, rfl, rfl, rfl, _, rfl, rfl⟩

/-- The hypotheses of `C73_handles_partial`: with a capacity of 4 after the first grid, thread 1 creates a
grid while thread 0 uses and closes another one. -/
example : ∃ s, Reachable HState.init (HStep true fun c => max 4 (2 * c)) s ∧ (∀ t, s.pc t = .idle) ∧
    s.made = [(1, 71), (0, 70)] ∧ s.log = [(0, some 70), (0, some 70)] ∧ s.st 0 = .closed := by
  have idle : ∀ (f : Nat → HPc) (u : Nat), (∀ v, v ≠ 0 → v ≠ 1 → f v = .idle) →
      (f 0).uses = none → (f 1).uses = none → (f u).uses = none := by
    intro f u hf h0 h1
    by_cases e : u = 0
    · subst e; exact h0
    · by_cases e' : u = 1
      · subst e'; exact h1
      · rw [hf u e e']; rfl
  have quiet : ∀ (f : Nat → HPc) (u : Nat), (∀ v, v ≠ 0 → v ≠ 1 → f v = .idle) →
      (f 0).grows = false → (f 1).grows = false → (f u).grows = false := by
    intro f u hf h0 h1
    by_cases e : u = 0
    · subst e; exact h0
    · by_cases e' : u = 1
      · subst e'; exact h1
      · rw [hf u e e']; rfl
  have s0 : Reachable HState.init (HStep true fun c => max 4 (2 * c)) h0 := .init rfl
  have s1 := s0.step (.create 0 70 rfl)
  have s2 := s1.step (.lock 0 70 rfl rfl)
  have s3 := s2.step (.grow 0 70 1 _ rfl rfl rfl rfl
    (fun _ u => idle _ u (fun v h1 h2 => by simp [upd, h1, h0]) rfl rfl))
  have s4 := s3.step (.free 0 70 1 rfl)
  have s5 := s4.step (.exchange 0 70 1 rfl)
  have s6 := s5.step (.use 0 0 rfl rfl
    (fun _ u => quiet _ u (fun v h1 h2 => by simp [upd, h1, h0]) rfl rfl))
  have s7 := s6.step (.readPtr 0 0 false rfl)
  have s8 := s7.step (.create 1 71 rfl)
  have s9 := s8.step (.lock 1 71 rfl rfl)
  have s10 := s9.step (.put 1 71 _ rfl (by decide) rfl)
  have s11 := s10.step (.readEntry 0 0 1 false _ rfl rfl)
  have s12 := s11.step (.close 0 0 rfl rfl (fun u => by
      rw [idle _ u (fun v h1 h2 => by simp [upd, h1, h2, h0]) rfl rfl]; simp)
    (fun _ u => quiet _ u (fun v h1 h2 => by simp [upd, h1, h2, h0]) rfl rfl))
  have s13 := s12.step (.readPtr 0 0 true rfl)
  have s14 := s13.step (.bump 1 71 rfl)
  have s15 := s14.step (.readEntry 0 0 1 true _ rfl rfl)
  have s16 := s15.step (.removePtr 0 0 rfl)
  have s17 := s16.step (.clear 0 0 1 _ rfl rfl)
  refine ⟨_, s17, ?_, rfl, rfl, rfl⟩
  intro t
  by_cases e : t = 0
  · subst e; rfl
  · by_cases e' : t = 1
    · subst e'; rfl
    · simp [upd, e, e', h0]

end Asagi.Props
