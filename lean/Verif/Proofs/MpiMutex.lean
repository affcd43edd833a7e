import Verif.Model.MpiMutex
import Mathlib.Tactic.ByContra
/-
The invariant of the distributed lock: the threads of each lock form a queue.
-/
namespace Asagi

/-- The lock a thread owns: it is the head of the queue. -/
def MtxPc.owns : MtxPc → Option Nat
  | .reProc l | .reWin l | .update l | .held l | .relProc l | .relWin l | .cas l | .recv l => some l
  | _ => none

/-- The lock a thread waits for. -/
def MtxPc.waits : MtxPc → Option Nat
  | .swapped l _ | .sending l _ _ => some l
  | _ => none

/-- The thread waits behind the thread with number `n`. -/
def MtxPc.behind (P : MtxParams) (n : Int) : MtxPc → Prop
  | .swapped _ old => old = n
  | .sending _ dest tag => dest = n / P.total ∧ tag = P.tagOffset + n % P.total
  | _ => False

/-- The thread has the window of this lock. -/
def MtxPc.hasWin : MtxPc → Option Nat
  | .swap l | .swapped l _ | .update l | .cas l | .recv l | .released l => some l
  | _ => none

/-- The thread has the mutex of its process. -/
def MtxPc.hasProc (lib : Bool) : MtxPc → Bool
  | .wantWin _ | .swap _ | .swapped _ _ | .reWin _ | .update _ | .relWin _ | .cas _ | .recv _
  | .released _ => true
  | .sending _ _ _ | .held _ => lib
  | _ => false

/-- The states that only exist without the library lock. -/
def MtxPc.nonLib : MtxPc → Bool
  | .reProc _ | .relProc _ => true
  | _ => false

structure MtxInv (P : MtxParams) (Q : Nat → List Thr) (s : MtxState) : Prop where
  mem : ∀ l, s.mem l = match (Q l).getLast? with
    | none => -1
    | some t => P.lockId t
  nodup : ∀ l, (Q l).Nodup
  mem_iff : ∀ l t, t ∈ Q l ↔ (s.pc t).owns = some l ∨ (s.pc t).waits = some l
  head : ∀ l t, (Q l).head? = some t ↔ (s.pc t).owns = some l
  chain : ∀ l i a b, (Q l)[i]? = some a → (Q l)[i + 1]? = some b → (s.pc b).behind P (P.lockId a)
  recv : ∀ l t, s.pc t = .recv l → 2 ≤ (Q l).length
  win : ∀ r t, s.win r = some t ↔ ∃ l, (s.pc t).hasWin = some l ∧ P.home l = r
  proc : ∀ r t, s.proc r = some t ↔ (s.pc t).hasProc P.lib = true ∧ t.rank = r
  lib : ∀ t, P.lib = true → (s.pc t).nonLib = false
  wf : ∀ t, s.pc t ≠ .idle → t.tid < P.total

theorem lockId_nonneg (P : MtxParams) (t : Thr) : 0 ≤ P.lockId t := by
  unfold MtxParams.lockId; exact Int.natCast_nonneg _

theorem lockId_div {P : MtxParams} {t : Thr} (h : t.tid < P.total) : P.lockId t / P.total = t.rank := by
  unfold MtxParams.lockId
  rw [← Int.natCast_ediv, Nat.mul_comm, Nat.mul_add_div (by omega), Nat.div_eq_of_lt h, Nat.add_zero]

theorem lockId_mod {P : MtxParams} {t : Thr} (h : t.tid < P.total) : P.lockId t % P.total = t.tid := by
  unfold MtxParams.lockId
  rw [← Int.natCast_emod, Nat.mul_comm, Nat.mul_add_mod, Nat.mod_eq_of_lt h]

theorem lockId_inj {P : MtxParams} {t u : Thr} (ht : t.tid < P.total) (hu : u.tid < P.total)
    (h : P.lockId t = P.lockId u) : t = u := by
  have h1 := lockId_div ht
  have h2 := lockId_mod ht
  rw [h] at h1 h2
  rw [lockId_div hu] at h1
  rw [lockId_mod hu] at h2
  cases t; cases u; simp_all <;> omega

theorem MtxPc.owns_waits {p : MtxPc} {l l' : Nat} (h : p.owns = some l) (h' : p.waits = some l') :
    False := by cases p <;> simp [owns, waits] at h h'

theorem MtxInv.start (P : MtxParams) : MtxInv P (fun _ => []) .start := by
  constructor <;> intros <;>
    simp_all [MtxState.start, MtxPc.owns, MtxPc.waits, MtxPc.hasWin, MtxPc.hasProc, MtxPc.nonLib]

namespace MtxInv
variable {P : MtxParams} {Q : Nat → List Thr} {s : MtxState}

/-- A step that changes neither the queues nor the values of the locks. -/
theorem same (h : MtxInv P Q s) (t : Thr) (p : MtxPc) (win' proc' : Nat → Option Thr)
    (ho : p.owns = (s.pc t).owns) (hw : p.waits = (s.pc t).waits)
    (hb : ∀ n, (s.pc t).behind P n → p.behind P n)
    (hr : ∀ l, p = .recv l → 2 ≤ (Q l).length)
    (hwin : ∀ r u, win' r = some u ↔ ∃ l, (upd s.pc t p u).hasWin = some l ∧ P.home l = r)
    (hproc : ∀ r u, proc' r = some u ↔ (upd s.pc t p u).hasProc P.lib = true ∧ u.rank = r)
    (hlib : P.lib = true → p.nonLib = false) (hwf : p ≠ .idle → t.tid < P.total) :
    MtxInv P Q { s with win := win', proc := proc', pc := upd s.pc t p } := by
  have eo : ∀ u, (upd s.pc t p u).owns = (s.pc u).owns := by
    intro u; by_cases hu : u = t
    · subst hu; rw [upd_self, ho]
    · rw [upd_ne _ _ hu]
  have ew : ∀ u, (upd s.pc t p u).waits = (s.pc u).waits := by
    intro u; by_cases hu : u = t
    · subst hu; rw [upd_self, hw]
    · rw [upd_ne _ _ hu]
  refine ⟨h.mem, h.nodup, ?_, ?_, ?_, ?_, hwin, hproc, ?_, ?_⟩
  · intro l u; show u ∈ Q l ↔ (upd s.pc t p u).owns = _ ∨ (upd s.pc t p u).waits = _
    rw [eo, ew]; exact h.mem_iff l u
  · intro l u; show _ ↔ (upd s.pc t p u).owns = _; rw [eo]; exact h.head l u
  · intro l i a b ha hb'
    show (upd s.pc t p b).behind P _
    by_cases hu : b = t
    · subst hu; rw [upd_self]; exact hb _ (h.chain l i a b ha hb')
    · rw [upd_ne _ _ hu]; exact h.chain l i a b ha hb'
  · intro l u hu'
    by_cases hu : u = t
    · subst hu; exact hr l ((upd_self _ _ _).symm.trans hu')
    · exact h.recv l u ((upd_ne _ _ hu).symm.trans hu')
  · intro u hl
    show (upd s.pc t p u).nonLib = false
    by_cases hu : u = t
    · subst hu; rw [upd_self]; exact hlib hl
    · rw [upd_ne _ _ hu]; exact h.lib u hl
  · intro u hne
    by_cases hu : u = t
    · subst hu; exact hwf (fun h2 => hne ((upd_self _ _ _).trans h2))
    · exact h.wf u (fun h2 => hne ((upd_ne _ _ hu).trans h2))

theorem win_keep (h : MtxInv P Q s) (t : Thr) (p : MtxPc) (e : p.hasWin = (s.pc t).hasWin) :
    ∀ r u, s.win r = some u ↔ ∃ l, (upd s.pc t p u).hasWin = some l ∧ P.home l = r := by
  intro r u
  by_cases hu : u = t
  · subst hu; rw [upd_self, e]; exact h.win r u
  · rw [upd_ne _ _ hu]; exact h.win r u

theorem win_take (h : MtxInv P Q s) (t : Thr) (p : MtxPc) (l : Nat) (e : p.hasWin = some l)
    (hno : (s.pc t).hasWin = none) (hf : s.win (P.home l) = none) :
    ∀ r u, upd s.win (P.home l) (some t) r = some u ↔
      ∃ l, (upd s.pc t p u).hasWin = some l ∧ P.home l = r := by
  intro r u
  by_cases hr : r = P.home l
  · subst hr
    rw [upd_self]
    by_cases hu : u = t
    · subst hu; rw [upd_self]; exact ⟨fun _ => ⟨l, e, rfl⟩, fun _ => rfl⟩
    · rw [upd_ne _ _ hu]
      refine ⟨fun h1 => absurd (Option.some.inj h1).symm hu, fun h1 => ?_⟩
      have := (h.win _ u).2 h1
      rw [hf] at this; cases this
  · rw [upd_ne _ _ hr]
    by_cases hu : u = t
    · subst hu; rw [upd_self, e]
      refine ⟨fun h1 => ?_, fun ⟨l', h1, h2⟩ => ?_⟩
      · obtain ⟨_, h3, _⟩ := (h.win _ _).1 h1; rw [hno] at h3; cases h3
      · rw [← Option.some.inj h1] at h2; exact absurd h2.symm hr
    · rw [upd_ne _ _ hu]; exact h.win r u

theorem win_drop (h : MtxInv P Q s) (t : Thr) (p : MtxPc) (l : Nat) (e : p.hasWin = none)
    (hhas : (s.pc t).hasWin = some l) :
    ∀ r u, upd s.win (P.home l) none r = some u ↔
      ∃ l, (upd s.pc t p u).hasWin = some l ∧ P.home l = r := by
  intro r u
  have hst := (h.win (P.home l) t).2 ⟨l, hhas, rfl⟩
  by_cases hu : u = t
  · subst hu
    rw [upd_self, e]
    refine ⟨fun h1 => ?_, fun ⟨_, h1, _⟩ => by cases h1⟩
    by_cases hr : r = P.home l
    · subst hr; rw [upd_self] at h1; cases h1
    · rw [upd_ne _ _ hr] at h1
      obtain ⟨l', h2, h3⟩ := (h.win _ _).1 h1
      rw [hhas] at h2
      rw [← Option.some.inj h2] at h3; exact absurd h3.symm hr
  · rw [upd_ne s.pc _ hu]
    by_cases hr : r = P.home l
    · subst hr; rw [upd_self]
      refine ⟨fun h1 => (by cases h1), fun h1 => ?_⟩
      have := (h.win _ u).2 h1
      rw [hst] at this; exact absurd (Option.some.inj this).symm hu
    · rw [upd_ne _ _ hr]; exact h.win r u

theorem proc_keep (h : MtxInv P Q s) (t : Thr) (p : MtxPc)
    (e : p.hasProc P.lib = (s.pc t).hasProc P.lib) :
    ∀ r u, s.proc r = some u ↔ (upd s.pc t p u).hasProc P.lib = true ∧ u.rank = r := by
  intro r u
  by_cases hu : u = t
  · subst hu; rw [upd_self, e]; exact h.proc r u
  · rw [upd_ne _ _ hu]; exact h.proc r u

theorem proc_take (h : MtxInv P Q s) (t : Thr) (p : MtxPc) (e : p.hasProc P.lib = true)
    (hno : (s.pc t).hasProc P.lib = false) (hf : s.proc t.rank = none) :
    ∀ r u, upd s.proc t.rank (some t) r = some u ↔
      (upd s.pc t p u).hasProc P.lib = true ∧ u.rank = r := by
  intro r u
  by_cases hr : r = t.rank
  · subst hr
    rw [upd_self]
    by_cases hu : u = t
    · subst hu; rw [upd_self]; exact ⟨fun _ => ⟨e, rfl⟩, fun _ => rfl⟩
    · rw [upd_ne _ _ hu]
      refine ⟨fun h1 => absurd (Option.some.inj h1).symm hu, fun h1 => ?_⟩
      have := (h.proc _ u).2 h1
      rw [hf] at this; cases this
  · rw [upd_ne _ _ hr]
    by_cases hu : u = t
    · subst hu
      refine ⟨fun h1 => ?_, fun ⟨_, h2⟩ => absurd h2.symm hr⟩
      have := ((h.proc _ _).1 h1).1; rw [hno] at this; cases this
    · rw [upd_ne _ _ hu]; exact h.proc r u

theorem proc_drop (h : MtxInv P Q s) (t : Thr) (p : MtxPc) (e : p.hasProc P.lib = false)
    (hhas : (s.pc t).hasProc P.lib = true) :
    ∀ r u, upd s.proc t.rank none r = some u ↔
      (upd s.pc t p u).hasProc P.lib = true ∧ u.rank = r := by
  intro r u
  have hst := (h.proc t.rank t).2 ⟨hhas, rfl⟩
  by_cases hu : u = t
  · subst hu
    rw [upd_self, e]
    refine ⟨fun h1 => ?_, fun ⟨h1, _⟩ => by cases h1⟩
    by_cases hr : r = u.rank
    · subst hr; rw [upd_self] at h1; cases h1
    · rw [upd_ne _ _ hr] at h1
      exact absurd ((h.proc _ _).1 h1).2.symm hr
  · rw [upd_ne s.pc _ hu]
    by_cases hr : r = t.rank
    · subst hr; rw [upd_self]
      refine ⟨fun h1 => (by cases h1), fun h1 => ?_⟩
      have := (h.proc _ u).2 h1
      rw [hst] at this; exact absurd (Option.some.inj this).symm hu
    · rw [upd_ne _ _ hr]; exact h.proc r u

/-- A thread appends itself to the queue of a lock. -/
theorem push (h : MtxInv P Q s) (t : Thr) (l : Nat) (p : MtxPc) (hpc : s.pc t = .swap l)
    (hp : (s.mem l < 0 ∧ p = .update l) ∨ (0 ≤ s.mem l ∧ p = .swapped l (s.mem l))) :
    MtxInv P (upd Q l (Q l ++ [t])) { s with mem := upd s.mem l (P.lockId t), pc := upd s.pc t p } := by
  have hwf := h.wf t (by rw [hpc]; simp)
  have hnot : ∀ l', t ∉ Q l' := by
    intro l' hin
    have := (h.mem_iff l' t).1 hin
    rw [hpc] at this; simp [MtxPc.owns, MtxPc.waits] at this
  have hempty : s.mem l < 0 ↔ Q l = [] := by
    rw [h.mem l]
    cases hq : (Q l).getLast? with
    | none => simp [List.getLast?_eq_none_iff.1 hq]
    | some u =>
      have := lockId_nonneg P u
      constructor
      · intro h2; simp only at h2; omega
      · intro h2; rw [h2] at hq; cases hq
  refine ⟨?_, ?_, ?_, ?_, ?_, ?_, ?_, ?_, ?_, ?_⟩
  · intro l'
    by_cases hl : l' = l
    · subst hl; simp [upd_self]
    · simp only [upd_ne _ _ hl]; exact h.mem l'
  · intro l'
    by_cases hl : l' = l
    · subst hl; rw [upd_self, List.nodup_append]
      exact ⟨h.nodup _, by simp, by intro a ha b hb; simp only [List.mem_singleton] at hb; subst hb; intro e; subst e; exact hnot _ ha⟩
    · rw [upd_ne _ _ hl]; exact h.nodup l'
  · intro l' u
    show u ∈ upd Q l _ l' ↔ (upd s.pc t p u).owns = _ ∨ (upd s.pc t p u).waits = _
    by_cases hu : u = t
    · subst hu
      rw [upd_self]
      by_cases hl : l' = l
      · subst hl; rw [upd_self]
        rcases hp with ⟨_, rfl⟩ | ⟨_, rfl⟩ <;> simp [MtxPc.owns, MtxPc.waits]
      · rw [upd_ne _ _ hl]
        refine ⟨fun h2 => absurd h2 (hnot l'), fun h2 => ?_⟩
        have hne : ¬ l = l' := fun e => hl e.symm
        rcases hp with ⟨_, rfl⟩ | ⟨_, rfl⟩ <;> simp [MtxPc.owns, MtxPc.waits, hne] at h2
    · rw [upd_ne s.pc _ hu]
      by_cases hl : l' = l
      · subst hl; rw [upd_self, ← h.mem_iff]; simp [hu]
      · rw [upd_ne _ _ hl]; exact h.mem_iff l' u
  · intro l' u
    show (upd Q l _ l').head? = some u ↔ (upd s.pc t p u).owns = some l'
    by_cases hl : l' = l
    · subst hl
      rw [upd_self]
      by_cases hu : u = t
      · subst hu
        rw [upd_self]
        rcases hp with ⟨hm, rfl⟩ | ⟨hm, rfl⟩
        · rw [hempty.1 hm]; simp [MtxPc.owns]
        · have hne : Q l' ≠ [] := fun e => by have := hempty.2 e; omega
          have hh : (Q l' ++ [u]).head? = (Q l').head? := by
            cases hq : Q l' with
            | nil => exact absurd hq hne
            | cons a r => rfl
          rw [hh, h.head, hpc]; simp [MtxPc.owns]
      · rw [upd_ne _ _ hu, ← h.head]
        cases hq : Q l' with
        | nil => simp; exact fun e => hu e.symm
        | cons a r => simp
    · rw [upd_ne _ _ hl]
      by_cases hu : u = t
      · subst hu
        rw [upd_self, h.head, hpc]
        have hne : ¬ l = l' := fun e => hl e.symm
        rcases hp with ⟨_, rfl⟩ | ⟨_, rfl⟩ <;> simp [MtxPc.owns, hne]
      · rw [upd_ne _ _ hu]; exact h.head l' u
  · intro l' i a b ha hb
    show (upd s.pc t p b).behind P _
    by_cases hl : l' = l
    · subst hl
      rw [upd_self] at ha hb
      by_cases hlen : i + 1 < (Q l').length
      · rw [List.getElem?_append_left hlen] at hb
        rw [List.getElem?_append_left (by omega)] at ha
        have hbt : b ≠ t := fun e => by subst e; exact hnot _ (List.mem_of_getElem? hb)
        rw [upd_ne _ _ hbt]; exact h.chain l' i a b ha hb
      · have hi : i + 1 = (Q l').length := by
          obtain ⟨hx, _⟩ := List.getElem?_eq_some_iff.1 hb
          simp at hx; omega
        rw [List.getElem?_append_left (by omega)] at ha
        have hbt : b = t := by
          rw [List.getElem?_append_right (by omega), hi] at hb; simpa using hb.symm
        subst hbt
        rw [upd_self]
        have hlast : (Q l').getLast? = some a := by
          rw [List.getLast?_eq_getElem?, ← hi]; exact ha
        rcases hp with ⟨hm, _⟩ | ⟨_, rfl⟩
        · rw [hempty.1 hm] at hlast; cases hlast
        · show s.mem l' = _; rw [h.mem, hlast]
    · rw [upd_ne _ _ hl] at ha hb
      have hbt : b ≠ t := fun e => by subst e; exact hnot _ (List.mem_of_getElem? hb)
      rw [upd_ne _ _ hbt]; exact h.chain l' i a b ha hb
  · intro l' u hu'
    have hut : u ≠ t := by
      intro e; subst e
      have hu' : upd s.pc u p u = .recv l' := hu'
      rw [upd_self] at hu'
      rcases hp with ⟨_, rfl⟩ | ⟨_, rfl⟩ <;> cases hu'
    have := h.recv l' u ((upd_ne _ _ hut).symm.trans hu')
    show 2 ≤ (upd Q l _ l').length
    by_cases hl : l' = l
    · subst hl; rw [upd_self, List.length_append]; omega
    · rw [upd_ne _ _ hl]; exact this
  · exact h.win_keep t p (by rw [hpc]; rcases hp with ⟨_, rfl⟩ | ⟨_, rfl⟩ <;> rfl)
  · exact h.proc_keep t p (by rw [hpc]; rcases hp with ⟨_, rfl⟩ | ⟨_, rfl⟩ <;> rfl)
  · intro u hl
    show (upd s.pc t p u).nonLib = false
    by_cases hu : u = t
    · subst hu; rw [upd_self]; rcases hp with ⟨_, rfl⟩ | ⟨_, rfl⟩ <;> rfl
    · rw [upd_ne _ _ hu]; exact h.lib u hl
  · intro u hne
    by_cases hu : u = t
    · subst hu; exact hwf
    · exact h.wf u (fun h2 => hne ((upd_ne _ _ hu).trans h2))

/-- The owner of a lock has a place in front of the others. -/
theorem cons_of_owns (h : MtxInv P Q s) {t : Thr} {l : Nat} (ho : (s.pc t).owns = some l) :
    ∃ rest, Q l = t :: rest := by
  have := (h.head l t).2 ho
  cases hq : Q l with
  | nil => rw [hq] at this; cases this
  | cons a r => rw [hq] at this; exact ⟨r, by rw [Option.some.inj this]⟩

/-- A release without a successor. -/
theorem popFree (h : MtxInv P Q s) (t : Thr) (l : Nat) (hpc : s.pc t = .cas l)
    (hm : s.mem l = P.lockId t) :
    Q l = [t] ∧ MtxInv P (upd Q l []) { s with mem := upd s.mem l (-1), pc := upd s.pc t (.released l) } := by
  have hwf := h.wf t (by rw [hpc]; simp)
  have hown : (s.pc t).owns = some l := by rw [hpc]; rfl
  obtain ⟨rest, hq⟩ := h.cons_of_owns hown
  have hrest : rest = [] := by
    by_contra hne
    have hm' := h.mem l
    rw [hm, hq] at hm'
    cases hl : rest.getLast? with
    | none => exact hne (List.getLast?_eq_none_iff.1 hl)
    | some u =>
      have hin : u ∈ rest := List.mem_of_getLast? hl
      rw [List.getLast?_cons, hl] at hm'
      simp only [Option.getD_some] at hm'
      have huq : u ∈ Q l := by rw [hq]; exact List.mem_cons_of_mem _ hin
      have hune : s.pc u ≠ .idle := by
        intro e; have := (h.mem_iff l u).1 huq; rw [e] at this; simp [MtxPc.owns, MtxPc.waits] at this
      have := lockId_inj hwf (h.wf u hune) hm'
      subst this
      have hnd := h.nodup l
      rw [hq] at hnd
      exact (List.nodup_cons.1 hnd).1 hin
  subst hrest
  have hother : ∀ u l', u ≠ t → (s.pc u).owns = some l' ∨ (s.pc u).waits = some l' → l' ≠ l := by
    intro u l' hu ho e
    subst e
    have := (h.mem_iff l' u).2 ho
    rw [hq] at this; simp at this; exact hu this
  refine ⟨hq, ?_, ?_, ?_, ?_, ?_, ?_, ?_, ?_, ?_, ?_⟩
  · intro l'
    by_cases hl : l' = l
    · subst hl; simp [upd_self]
    · simp only [upd_ne _ _ hl]; exact h.mem l'
  · intro l'
    by_cases hl : l' = l
    · subst hl; rw [upd_self]; exact List.nodup_nil
    · rw [upd_ne _ _ hl]; exact h.nodup l'
  · intro l' u
    show u ∈ upd Q l _ l' ↔ (upd s.pc t _ u).owns = _ ∨ (upd s.pc t _ u).waits = _
    by_cases hu : u = t
    · subst hu
      rw [upd_self]
      by_cases hl : l' = l
      · subst hl; rw [upd_self]; simp [MtxPc.owns, MtxPc.waits]
      · rw [upd_ne _ _ hl, h.mem_iff, hpc]
        have hne : ¬ l = l' := fun e => hl e.symm
        simp [MtxPc.owns, MtxPc.waits, hne]
    · rw [upd_ne s.pc _ hu]
      by_cases hl : l' = l
      · subst hl; rw [upd_self]
        exact ⟨fun h2 => (by cases h2), fun h2 => absurd rfl (hother u _ hu h2)⟩
      · rw [upd_ne _ _ hl]; exact h.mem_iff l' u
  · intro l' u
    show (upd Q l _ l').head? = some u ↔ (upd s.pc t _ u).owns = some l'
    by_cases hu : u = t
    · subst hu
      rw [upd_self]
      by_cases hl : l' = l
      · subst hl; rw [upd_self]; simp [MtxPc.owns]
      · rw [upd_ne _ _ hl, h.head, hpc]
        have hne : ¬ l = l' := fun e => hl e.symm
        simp [MtxPc.owns, hne]
    · rw [upd_ne s.pc _ hu]
      by_cases hl : l' = l
      · subst hl; rw [upd_self]
        exact ⟨fun h2 => (by cases h2), fun h2 => absurd rfl (hother u _ hu (.inl h2))⟩
      · rw [upd_ne _ _ hl]; exact h.head l' u
  · intro l' i a b ha hb
    show (upd s.pc t _ b).behind P _
    by_cases hl : l' = l
    · subst hl; rw [upd_self] at ha; cases ha
    · rw [upd_ne _ _ hl] at ha hb
      have hbt : b ≠ t := by
        intro e; subst e
        have := (h.mem_iff l' b).1 (List.mem_of_getElem? hb)
        rw [hpc] at this; simp [MtxPc.owns, MtxPc.waits] at this; exact hl this.symm
      rw [upd_ne _ _ hbt]; exact h.chain l' i a b ha hb
  · intro l' u hu'
    have hut : u ≠ t := by
      intro e; subst e; have hu' : upd s.pc u _ u = .recv l' := hu'; rw [upd_self] at hu'; cases hu'
    have h3 := (upd_ne s.pc _ hut).symm.trans hu'
    have := h.recv l' u h3
    have hl : l' ≠ l := hother u l' hut (.inl (by rw [h3]; rfl))
    show 2 ≤ (upd Q l _ l').length
    rw [upd_ne _ _ hl]; exact this
  · exact h.win_keep t _ (by rw [hpc]; rfl)
  · exact h.proc_keep t _ (by rw [hpc]; rfl)
  · intro u hl
    show (upd s.pc t _ u).nonLib = false
    by_cases hu : u = t
    · subst hu; rw [upd_self]; rfl
    · rw [upd_ne _ _ hu]; exact h.lib u hl
  · intro u hne
    by_cases hu : u = t
    · subst hu; exact hwf
    · exact h.wf u (fun h2 => hne ((upd_ne _ _ hu).trans h2))

/-- The thread that receives and the thread that sends are the first two of the same queue. -/
theorem match_unique (h : MtxInv P Q s) {t u : Thr} {l l' : Nat} {dest tag : Int}
    (ht : s.pc t = .recv l) (hu : s.pc u = .sending l' dest tag) (hd : dest = t.rank)
    (htag : tag = P.tagOffset + t.tid) : l' = l ∧ ∃ rest, Q l = t :: u :: rest := by
  have hwt := h.wf t (by rw [ht]; simp)
  have huq : u ∈ Q l' := (h.mem_iff l' u).2 (.inr (by rw [hu]; rfl))
  obtain ⟨i, hi⟩ := List.mem_iff_getElem?.1 huq
  cases i with
  | zero =>
    have : (Q l').head? = some u := by rw [List.head?_eq_getElem?]; exact hi
    have := (h.head l' u).1 this
    rw [hu] at this; cases this
  | succ i =>
    have hlt : i < (Q l').length := by
      obtain ⟨hx, _⟩ := List.getElem?_eq_some_iff.1 hi; omega
    have hpred : (Q l')[i]? = some (Q l')[i] := List.getElem?_eq_getElem hlt
    have hb := h.chain l' i _ u hpred hi
    rw [hu] at hb
    obtain ⟨hb1, hb2⟩ := hb
    have hpin : (Q l')[i] ∈ Q l' := List.getElem_mem hlt
    have hpne : s.pc (Q l')[i] ≠ .idle := by
      intro e
      have := (h.mem_iff l' _).1 hpin
      rw [e] at this; simp [MtxPc.owns, MtxPc.waits] at this
    have hwp := h.wf _ hpne
    rw [lockId_div hwp] at hb1
    rw [lockId_mod hwp] at hb2
    have heq : (Q l')[i] = t := by
      have e1 : (Q l')[i].rank = t.rank := by omega
      have e2 : (Q l')[i].tid = t.tid := by omega
      generalize (Q l')[i] = a at e1 e2
      cases a; cases t; simp_all
    rw [heq] at hpred hpin
    have ho : (s.pc t).owns = some l := by rw [ht]; rfl
    have hll : l' = l := by
      have := (h.mem_iff l' t).1 hpin
      rw [ht] at this; simp [MtxPc.owns, MtxPc.waits] at this; exact this.symm
    subst hll
    obtain ⟨rest, hq⟩ := h.cons_of_owns ho
    have hi0 : i = 0 := by
      have h0 : (Q l')[0]? = some t := by rw [hq]; rfl
      have hlen : 0 < (Q l').length := by omega
      exact (List.getElem?_inj hlt (h.nodup l')).1 (hpred.trans h0.symm)
    subst hi0
    refine ⟨rfl, ?_⟩
    rw [hq] at hi
    cases rest with
    | nil => cases hi
    | cons a r => exact ⟨r, by rw [hq]; simp at hi; rw [hi]⟩

/-- A release with a successor. -/
theorem popHand (h : MtxInv P Q s) {t u : Thr} {l : Nat} {dest tag : Int} {rest : List Thr}
    (ht : s.pc t = .recv l) (hu : s.pc u = .sending l dest tag) (hq : Q l = t :: u :: rest)
    (p : MtxPc) (hp : p = if P.lib then .reWin l else .reProc l) :
    MtxInv P (upd Q l (u :: rest)) { s with pc := upd (upd s.pc t (.released l)) u p } := by
  have hnd := h.nodup l
  rw [hq] at hnd
  have htn := (List.nodup_cons.1 hnd).1
  have hnd2 := (List.nodup_cons.1 hnd).2
  have hun := (List.nodup_cons.1 hnd2).1
  have htu : t ≠ u := fun e => htn (by rw [e]; exact List.mem_cons_self)
  have hpc' : ∀ v, v ≠ t → v ≠ u → upd (upd s.pc t (.released l)) u p v = s.pc v := by
    intro v h1 h2; rw [upd_ne _ _ h2, upd_ne _ _ h1]
  have hpt : upd (upd s.pc t (.released l)) u p t = .released l := by rw [upd_ne _ _ htu, upd_self]
  have hpu : upd (upd s.pc t (.released l)) u p u = p := upd_self _ _ _
  have hpo : p.owns = some l := by rw [hp]; split <;> rfl
  have hpw : p.waits = none := by rw [hp]; split <;> rfl
  have hpr : ∀ l', p ≠ .recv l' := by intro l'; rw [hp]; split <;> simp
  have huq : ∀ l', u ∈ Q l' → l' = l := by
    intro l' hin
    have := (h.mem_iff l' u).1 hin
    rw [hu] at this; simp [MtxPc.owns, MtxPc.waits] at this; exact this.symm
  have htq : ∀ l', t ∈ Q l' → l' = l := by
    intro l' hin
    have := (h.mem_iff l' t).1 hin
    rw [ht] at this; simp [MtxPc.owns, MtxPc.waits] at this; exact this.symm
  refine ⟨?_, ?_, ?_, ?_, ?_, ?_, ?_, ?_, ?_, ?_⟩
  · intro l'
    have := h.mem l'
    by_cases hl : l' = l
    · subst hl; rw [hq] at this; rw [upd_self]; rw [this]; simp [List.getLast?_cons]
    · simp only [upd_ne _ _ hl]; exact this
  · intro l'
    by_cases hl : l' = l
    · subst hl; rw [upd_self]; exact hnd2
    · rw [upd_ne _ _ hl]; exact h.nodup l'
  · intro l' v
    show v ∈ upd Q l _ l' ↔ (upd (upd s.pc t _) u p v).owns = _ ∨ (upd (upd s.pc t _) u p v).waits = _
    by_cases hvt : v = t
    · subst hvt
      rw [hpt]
      constructor
      · intro hin
        by_cases hl : l' = l
        · subst hl; rw [upd_self] at hin; exact absurd hin htn
        · rw [upd_ne _ _ hl] at hin; exact absurd (htq l' hin) hl
      · intro h2; simp [MtxPc.owns, MtxPc.waits] at h2
    · by_cases hvu : v = u
      · subst hvu
        rw [hpu, hpo, hpw]
        constructor
        · intro hin
          by_cases hl : l' = l
          · subst hl; exact .inl rfl
          · rw [upd_ne _ _ hl] at hin; exact absurd (huq l' hin) hl
        · intro h2
          rcases h2 with h2 | h2
          · rw [← Option.some.inj h2, upd_self]; exact List.mem_cons_self
          · cases h2
      · rw [hpc' v hvt hvu]
        by_cases hl : l' = l
        · subst hl; rw [upd_self, ← h.mem_iff, hq]; simp [hvt]
        · rw [upd_ne _ _ hl]; exact h.mem_iff l' v
  · intro l' v
    show (upd Q l _ l').head? = some v ↔ (upd (upd s.pc t _) u p v).owns = some l'
    by_cases hvt : v = t
    · subst hvt
      rw [hpt]
      constructor
      · intro hin
        have hin := List.mem_of_head? hin
        by_cases hl : l' = l
        · subst hl; rw [upd_self] at hin; exact absurd hin htn
        · rw [upd_ne _ _ hl] at hin; exact absurd (htq l' hin) hl
      · intro h2; cases h2
    · by_cases hvu : v = u
      · subst hvu
        rw [hpu, hpo]
        constructor
        · intro hin
          by_cases hl : l' = l
          · subst hl; rfl
          · rw [upd_ne _ _ hl] at hin; exact absurd (huq l' (List.mem_of_head? hin)) hl
        · intro h2; rw [← Option.some.inj h2, upd_self]; rfl
      · rw [hpc' v hvt hvu]
        by_cases hl : l' = l
        · subst hl; rw [upd_self, ← h.head, hq]
          simp only [List.head?_cons, Option.some.injEq]
          exact ⟨fun e => absurd e.symm hvu, fun e => absurd e.symm hvt⟩
        · rw [upd_ne _ _ hl]; exact h.head l' v
  · intro l' i a b ha hb
    show (upd (upd s.pc t _) u p b).behind P _
    by_cases hl : l' = l
    · subst hl
      rw [upd_self] at ha hb
      have ha' : (Q l')[i + 1]? = some a := by rw [hq]; simpa using ha
      have hb' : (Q l')[i + 1 + 1]? = some b := by rw [hq]; simpa using hb
      have hin : b ∈ rest := List.mem_of_getElem? (by simpa using hb)
      have hbt : b ≠ t := fun e => htn (by rw [← e]; exact List.mem_cons_of_mem _ hin)
      have hbu : b ≠ u := fun e => hun (by rw [← e]; exact hin)
      rw [hpc' b hbt hbu]; exact h.chain l' (i + 1) a b ha' hb'
    · rw [upd_ne _ _ hl] at ha hb
      have hin := List.mem_of_getElem? hb
      rw [hpc' b (fun e => hl (htq l' (e ▸ hin))) (fun e => hl (huq l' (e ▸ hin)))]
      exact h.chain l' i a b ha hb
  · intro l' v hv
    replace hv : upd (upd s.pc t _) u p v = .recv l' := hv
    have hvt : v ≠ t := by intro e; subst e; rw [hpt] at hv; cases hv
    have hvu : v ≠ u := by intro e; subst e; rw [hpu] at hv; exact hpr _ hv
    rw [hpc' v hvt hvu] at hv
    have h3 := h.recv l' v hv
    have hl : l' ≠ l := by
      intro e; subst e
      have := (h.head l' v).2 (by rw [hv]; rfl)
      rw [hq] at this; exact hvt (Option.some.inj this).symm
    show 2 ≤ (upd Q l _ l').length
    rw [upd_ne _ _ hl]; exact h3
  · intro r v
    show s.win r = some v ↔ ∃ l', (upd (upd s.pc t _) u p v).hasWin = some l' ∧ _
    by_cases hvt : v = t
    · subst hvt; rw [hpt]; have := h.win r v; rw [ht] at this; exact this
    · by_cases hvu : v = u
      · subst hvu; rw [hpu]
        have h3 := h.win r v
        rw [hu] at h3
        have : p.hasWin = none := by rw [hp]; split <;> rfl
        rw [this]; exact h3
      · rw [hpc' v hvt hvu]; exact h.win r v
  · intro r v
    show s.proc r = some v ↔ (upd (upd s.pc t _) u p v).hasProc P.lib = true ∧ _
    by_cases hvt : v = t
    · subst hvt; rw [hpt]; have := h.proc r v; rw [ht] at this; exact this
    · by_cases hvu : v = u
      · subst hvu; rw [hpu]
        have h3 := h.proc r v
        rw [hu] at h3
        have : p.hasProc P.lib = P.lib := by
          rw [hp]
          cases P.lib <;> rfl
        rw [this]; exact h3
      · rw [hpc' v hvt hvu]; exact h.proc r v
  · intro v hl
    show (upd (upd s.pc t _) u p v).nonLib = false
    by_cases hvt : v = t
    · subst hvt; rw [hpt]; rfl
    · by_cases hvu : v = u
      · subst hvu; rw [hpu, hp, if_pos hl]; rfl
      · rw [hpc' v hvt hvu]; exact h.lib v hl
  · intro v hne
    by_cases hvt : v = t
    · subst hvt; exact h.wf v (by rw [ht]; simp)
    · by_cases hvu : v = u
      · subst hvu; exact h.wf v (by rw [hu]; simp)
      · exact h.wf v (fun h2 => hne ((hpc' v hvt hvu).trans h2))

/-- One operation on the queues: none, a thread appended, or the first one removed. -/
def QueueStep (Q Q' : Nat → List Thr) : Prop :=
  Q' = Q ∨ (∃ l t, t ∉ Q l ∧ Q' = upd Q l (Q l ++ [t])) ∨ (∃ l t r, Q l = t :: r ∧ Q' = upd Q l r)

theorem step (h : MtxInv P Q s) {s' : MtxState} (hs : MtxStep P false s s') :
    ∃ Q', QueueStep Q Q' ∧ MtxInv P Q' s' := by
  have wfOf : ∀ t, s.pc t ≠ .idle → ∀ p : MtxPc, p ≠ .idle → t.tid < P.total := fun t ht _ _ => h.wf t ht
  cases hs with
  | call t l ht hpc =>
    exact ⟨Q, .inl rfl, h.same t _ s.win s.proc (by rw [hpc]; rfl) (by rw [hpc]; rfl)
      (by rw [hpc]; intro n hn; exact hn.elim) (by intro l h2; cases h2) (h.win_keep t _ (by rw [hpc]; rfl))
      (h.proc_keep t _ (by rw [hpc]; rfl)) (fun _ => rfl) (fun _ => ht)⟩
  | proc t l hpc hf =>
    exact ⟨Q, .inl rfl, h.same t _ s.win _ (by rw [hpc]; rfl) (by rw [hpc]; rfl)
      (by rw [hpc]; intro n hn; exact hn.elim) (by intro l h2; cases h2) (h.win_keep t _ (by rw [hpc]; rfl))
      (h.proc_take t _ rfl (by rw [hpc]; rfl) hf) (fun _ => rfl) (fun _ => h.wf t (by rw [hpc]; simp))⟩
  | win t l hpc hf =>
    exact ⟨Q, .inl rfl, h.same t _ _ s.proc (by rw [hpc]; rfl) (by rw [hpc]; rfl)
      (by rw [hpc]; intro n hn; exact hn.elim) (by intro l h2; cases h2)
      (h.win_take t _ l rfl (by rw [hpc]; rfl) hf)
      (h.proc_keep t _ (by rw [hpc]; rfl)) (fun _ => rfl) (fun _ => h.wf t (by rw [hpc]; simp))⟩
  | acquire t l hpc hm =>
    refine ⟨_, .inr (.inl ⟨l, t, ?_, rfl⟩), h.push t l _ hpc (.inl ⟨hm, rfl⟩)⟩
    intro hin
    have := (h.mem_iff l t).1 hin
    rw [hpc] at this; simp [MtxPc.owns, MtxPc.waits] at this
  | enqueue t l hpc hm =>
    refine ⟨_, .inr (.inl ⟨l, t, ?_, rfl⟩), h.push t l _ hpc (.inr ⟨hm, rfl⟩)⟩
    intro hin
    have := (h.mem_iff l t).1 hin
    rw [hpc] at this; simp [MtxPc.owns, MtxPc.waits] at this
  | wait t l old hpc =>
    refine ⟨Q, .inl rfl, h.same t _ _ _ (by rw [hpc]; rfl) (by rw [hpc]; rfl) ?_
      (by intro l h2; cases h2) (h.win_drop t _ l rfl (by rw [hpc]; rfl)) ?_ (fun _ => rfl)
      (fun _ => h.wf t (by rw [hpc]; simp))⟩
    · rw [hpc]; intro n hn
      have hn : old = n := hn
      subst hn; exact ⟨rfl, rfl⟩
    · by_cases hl : P.lib = true
      · rw [if_pos hl]; exact h.proc_keep t _ (by rw [hpc]; simp [MtxPc.hasProc, hl])
      · rw [if_neg hl]
        exact h.proc_drop t _ (by simpa [MtxPc.hasProc] using hl) (by rw [hpc]; rfl)
  | handOver t u l l' dest tag ht hu hd htag =>
    obtain ⟨rfl, rest, hq⟩ := h.match_unique ht hu hd htag
    exact ⟨_, .inr (.inr ⟨l', t, u :: rest, hq, rfl⟩), h.popHand ht hu hq _ rfl⟩
  | reProc t l hpc hf =>
    exact ⟨Q, .inl rfl, h.same t _ s.win _ (by rw [hpc]; rfl) (by rw [hpc]; rfl)
      (by rw [hpc]; intro n hn; exact hn.elim) (by intro l h2; cases h2) (h.win_keep t _ (by rw [hpc]; rfl))
      (h.proc_take t _ rfl (by rw [hpc]; rfl) hf) (fun _ => rfl) (fun _ => h.wf t (by rw [hpc]; simp))⟩
  | reWin t l hpc hf =>
    exact ⟨Q, .inl rfl, h.same t _ _ s.proc (by rw [hpc]; rfl) (by rw [hpc]; rfl)
      (by rw [hpc]; intro n hn; exact hn.elim) (by intro l h2; cases h2)
      (h.win_take t _ l rfl (by rw [hpc]; rfl) hf)
      (h.proc_keep t _ (by rw [hpc]; rfl)) (fun _ => rfl) (fun _ => h.wf t (by rw [hpc]; simp))⟩
  | hold t l hpc =>
    refine ⟨Q, .inl rfl, h.same t _ _ _ (by rw [hpc]; rfl) (by rw [hpc]; rfl)
      (by rw [hpc]; intro n hn; exact hn.elim)
      (by intro l h2; cases h2) (h.win_drop t _ l rfl (by rw [hpc]; rfl)) ?_ (fun _ => rfl)
      (fun _ => h.wf t (by rw [hpc]; simp))⟩
    by_cases hl : P.lib = true
    · rw [if_pos hl]; exact h.proc_keep t _ (by rw [hpc]; simp [MtxPc.hasProc, hl])
    · rw [if_neg hl]
      exact h.proc_drop t _ (by simpa [MtxPc.hasProc] using hl) (by rw [hpc]; rfl)
  | delete t l hpc =>
    exact ⟨Q, .inl rfl, h.same t _ s.win s.proc (by rw [hpc]; rfl) (by rw [hpc]; rfl)
      (by rw [hpc]; intro n hn; exact hn.elim) (by intro l h2; cases h2) (h.win_keep t _ (by rw [hpc]; rfl))
      (h.proc_keep t _ (by rw [hpc]; rfl)) (fun _ => rfl) (fun _ => h.wf t (by rw [hpc]; simp))⟩
  | endCall t l hpc =>
    refine ⟨Q, .inl rfl, h.same t _ s.win s.proc (by rw [hpc]; split <;> rfl) (by rw [hpc]; split <;> rfl)
      (by rw [hpc]; intro n hn; exact hn.elim) (by intro l; split <;> intro h2 <;> cases h2)
      (h.win_keep t _ (by rw [hpc]; split <;> rfl)) (h.proc_keep t _ ?_) ?_
      (fun _ => h.wf t (by rw [hpc]; simp))⟩
    · rw [hpc]; cases P.lib <;> rfl
    · intro hl; rw [if_pos hl]; rfl
  | relProc t l hpc hf =>
    exact ⟨Q, .inl rfl, h.same t _ s.win _ (by rw [hpc]; rfl) (by rw [hpc]; rfl)
      (by rw [hpc]; intro n hn; exact hn.elim) (by intro l h2; cases h2) (h.win_keep t _ (by rw [hpc]; rfl))
      (h.proc_take t _ rfl (by rw [hpc]; rfl) hf) (fun _ => rfl) (fun _ => h.wf t (by rw [hpc]; simp))⟩
  | relWin t l hpc hf =>
    exact ⟨Q, .inl rfl, h.same t _ _ s.proc (by rw [hpc]; rfl) (by rw [hpc]; rfl)
      (by rw [hpc]; intro n hn; exact hn.elim) (by intro l h2; cases h2)
      (h.win_take t _ l rfl (by rw [hpc]; rfl) hf)
      (h.proc_keep t _ (by rw [hpc]; rfl)) (fun _ => rfl) (fun _ => h.wf t (by rw [hpc]; simp))⟩
  | free t l hpc hm =>
    obtain ⟨hq, hI⟩ := h.popFree t l hpc hm
    exact ⟨_, .inr (.inr ⟨l, t, [], hq, rfl⟩), hI⟩
  | contended t l hpc hm =>
    refine ⟨Q, .inl rfl, h.same t _ s.win s.proc (by rw [hpc]; rfl) (by rw [hpc]; rfl)
      (by rw [hpc]; intro n hn; exact hn.elim) ?_ (h.win_keep t _ (by rw [hpc]; rfl))
      (h.proc_keep t _ (by rw [hpc]; rfl)) (fun _ => rfl) (fun _ => h.wf t (by rw [hpc]; simp))⟩
    intro l' e
    have e : l = l' := by injection e
    subst e
    obtain ⟨rest, hq⟩ := h.cons_of_owns (t := t) (l := l) (by rw [hpc]; rfl)
    cases rest with
    | nil =>
      have := h.mem l
      rw [hq] at this; exact absurd this hm
    | cons a r => rw [hq]; simp
  | leave t l hpc =>
    exact ⟨Q, .inl rfl, h.same t _ _ _ (by rw [hpc]; rfl) (by rw [hpc]; rfl)
      (by rw [hpc]; intro n hn; exact hn.elim) (by intro l h2; cases h2)
      (h.win_drop t _ l rfl (by rw [hpc]; rfl))
      (h.proc_drop t _ rfl (by rw [hpc]; rfl)) (fun _ => rfl) (fun h2 => absurd rfl h2)⟩
  | init l hm =>
    rcases hm with hm | hm
    · cases hm
    · refine ⟨Q, .inl rfl, ⟨?_, h.nodup, h.mem_iff, h.head, h.chain, h.recv, h.win, h.proc, h.lib, h.wf⟩⟩
      intro l'
      by_cases hl : l' = l
      · subst hl; exact (upd_self _ _ _).trans (hm.symm.trans (h.mem l'))
      · show upd s.mem l (-1) l' = _; rw [upd_ne _ _ hl]; exact h.mem l'

end MtxInv

theorem MtxInv.reachable {P : MtxParams} {s : MtxState} (h : MtxReach P false s) :
    ∃ Q, MtxInv P Q s :=
  Reachable.invariant (I := fun s : MtxState => ∃ Q, MtxInv P Q s)
    (fun s (h0 : s = .start) => ⟨fun _ => [], by subst h0; exact .start P⟩)
    (fun _ _ ⟨_, hI⟩ hs => by obtain ⟨Q', _, h2⟩ := hI.step hs; exact ⟨Q', h2⟩) h

end Asagi
