import Verif.Spec.SharedLib
import Verif.Proofs.CacheDistLive
/-
Shared caches with the lock of the library: it is held by the threads that hold the lock of a
directory entry, nobody waits in a circle.
-/
namespace Asagi
open Spec
variable {β : Type} {P : DistParams β} {ls ls' : LibState β} {st st' : DistState β}

/-- Positions with the lock of an entry (with MPI windows). -/
def Pc.inLib : Pc β → Bool
  | .own _ _ _ ph =>
    match ph with
    | .delLocked _ | .addLocked | .xfer _ | .copy _ _ | .load _ | .fin => true
    | _ => false
  | _ => false

theorem inLib_dl (hm : P.mode = .window) (h : DistInv P st) {t : Nat}
    (hd : (st.pc (.user t)).inLib = true) : ∃ b, st.dl b = some (.user t) := by
  cases hp : st.pc (.user t) with
  | own b off s ph =>
    rw [hp] at hd
    cases ph with
    | delLocked o => exact ⟨o, (h.dl _ _).2 (by rw [hp]; exact ⟨hm, rfl⟩)⟩
    | addLocked => exact ⟨b, (h.dl _ _).2 (by rw [hp]; exact ⟨hm, rfl⟩)⟩
    | xfer => exact ⟨b, (h.dl _ _).2 (by rw [hp]; exact ⟨hm, rfl⟩)⟩
    | copy => exact ⟨b, (h.dl _ _).2 (by rw [hp]; exact ⟨hm, rfl⟩)⟩
    | load => exact ⟨b, (h.dl _ _).2 (by rw [hp]; exact ⟨hm, rfl⟩)⟩
    | fin => exact ⟨b, (h.dl _ _).2 (by rw [hp]; exact ⟨hm, rfl⟩)⟩
    | _ => cases hd
  | _ => rw [hp] at hd; cases hd

theorem dl_inLib (h : DistInv P st) {t b : Nat} (hd : st.dl b = some (.user t)) :
    (st.pc (.user t)).inLib = true := by
  have := (h.dl b _).1 hd
  cases hp : st.pc (.user t) with
  | own b off s ph => rw [hp] at this; cases ph <;> first | rfl | cases this.2
  | _ => rw [hp] at this; exact this.elim

/-- The positions of a thread before and after one of its steps, with MPI windows. -/
theorem lib_step (hm : P.mode = .window) (h : DistInv P st) {t : Nat} (hs : UserStep P t st st') :
    ((st.pc (.user t)).entersLib = true → (st'.pc (.user t)).inLib = true) ∧
    ((st.pc (.user t)).leavesLib = true →
      (st'.pc (.user t)).inLib = false ∧ (st'.pc (.user t)).entersLib = false) ∧
    ((st.pc (.user t)).inLib = true → (st.pc (.user t)).leavesLib = false →
      (st'.pc (.user t)).inLib = true) ∧
    ((st.pc (.user t)).entersLib = false → (st.pc (.user t)).inLib = false →
      (st'.pc (.user t)).inLib = false) := by
  cases hs with
  | delThread _ _ b off s o hp h1 => rw [hm] at h1; cases h1
  | addThread _ _ b off s hp h1 => rw [hm] at h1; cases h1
  | finThread _ _ b off s hp h1 => rw [hm] at h1; cases h1
  | startThread _ _ b off s rnd hp h1 => rw [hm] at h1; cases h1
  | xferThread _ _ b off s e hp h1 => rw [hm] at h1; cases h1
  | startNone _ _ b off s hp h1 => rw [hm] at h1; cases h1
  | addNone _ _ b off s hp h1 => rw [hm] at h1; cases h1
  | finNone _ _ b off s hp h1 => rw [hm] at h1; cases h1
  | askFail _ _ b off s r hp =>
    have := h.phase t b off s _ hp
    rw [PhInv, hm] at this; cases this
  | askDone _ _ b off s r buf hp =>
    have := h.phase t b off s _ hp
    rw [PhInv, hm] at this; cases this
  | recvCell _ _ b1 off1 s k buf hp =>
    have := (h.phase t b1 off1 s _ hp).1
    rw [hm] at this; cases this
  | recvDone _ _ b1 off1 s k buf hp =>
    have := (h.phase t b1 off1 s _ hp).1
    rw [hm] at this; cases this
  | delSkip _ _ b1 off1 s o hp ho =>
    rw [hm] at ho
    rcases ho with rfl | ho
    · rw [hp]; simp [DistState.goto, upd_self, Pc.entersLib, Pc.leavesLib, Pc.inLib]
    · cases ho
  | lockSlot _ _ b off s old hp =>
    rw [hp]; simp only [upd_self]
    split <;> simp [Pc.entersLib, Pc.leavesLib, Pc.inLib]
  | call _ _ b1 off1 hp | lookup _ _ b1 off1 s c' old hp | unlock _ _ b1 off1 s v hp
  | delWin _ _ b1 off1 s o hp | delWinEnd _ _ b1 off1 s o hp
  | numaEnd _ _ b1 off1 s o hp | numaOwn _ _ b1 off1 s o hp | numaBusy _ _ b1 off1 s o hp
  | numaTry _ _ b1 off1 s o hp | numaMiss _ _ b1 off1 s o hp | numaHit _ _ b1 off1 s o o2 hp
  | numaCell _ _ b1 off1 s o o2 o3 hp | numaDone _ _ b1 off1 s o o2 o3 hp
  | addWin _ _ b1 off1 s hp | addWinEnd _ _ b1 off1 s hp
  | startWin _ _ b1 off1 s rnd hp
  | xferNone _ _ b1 off1 s e hp | xferWin _ _ b1 off1 s e hp | copyCell _ _ b1 off1 s e k hp
  | copyDone _ _ b1 off1 s e k hp | loadCell _ _ b1 off1 s k v hp | loadDone _ _ b1 off1 s k hp
  | finWin _ _ b1 off1 s hp | convert _ _ b1 off1 s hp =>
    rw [hp]; simp [DistState.goto, upd_self, Pc.entersLib, Pc.leavesLib, Pc.inLib]

/-- Every execution with the lock of the library is an execution without it. -/
theorem LibReach.dist (h : LibReach P ls) : DistReach P ls.st := by
  induction h with
  | init h => obtain ⟨c, hc, rfl⟩ := h; exact .init ⟨c, hc, rfl⟩
  | @step s1 s2 _ hs ih =>
    cases hs with
    | take => exact ih
    | enter t st' _ _ _ hu => exact .step ih (.user t hu)
    | leave t st' _ _ hu => exact .step ih (.user t hu)
    | other t st' _ hu => exact .step ih (.user t hu)
    | comm r st' hc => exact .step ih (.comm r hc)

/-- Who has the lock of the library. -/
structure LibInv (P : DistParams β) (ls : LibState β) : Prop where
  held : ∀ t, (ls.st.pc (.user t)).inLib = true → ls.mp (P.rankT t) = some t
  holder : ∀ r t, ls.mp r = some t → P.rankT t = r ∧
    ((ls.st.pc (.user t)).entersLib = true ∨ (ls.st.pc (.user t)).inLib = true)

theorem user_ne {t u : Nat} (h : t ≠ u) : Agent.user t ≠ Agent.user u := by
  intro e; injection e with e; exact h e

theorem leaves_inLib {p : Pc β} (h : p.leavesLib = true) : p.inLib = true := by
  unfold Pc.leavesLib at h
  split at h <;> first | rfl | cases h

theorem LibInv.step (hm : P.mode = .window) (hI : DistInv P ls.st) (h : LibInv P ls)
    (hs : LibStep P ls ls') : LibInv P ls' := by
  cases hs with
  | take t _ hp hn =>
    refine ⟨fun u hu => ?_, fun r u hu => ?_⟩
    · have e := h.held u hu
      by_cases hr : P.rankT u = P.rankT t
      · rw [hr, hn] at e; cases e
      · exact (upd_ne _ _ hr).trans e
    · by_cases hr : r = P.rankT t
      · subst hr
        simp only [upd_self] at hu
        injection hu with hu; subst hu
        exact ⟨rfl, .inl hp⟩
      · simp only [upd_ne _ _ hr] at hu
        exact h.holder r u hu
  | enter t st' _ hp ht hu =>
    have hl := (lib_step hm hI hu).1 hp
    refine ⟨fun u hin => ?_, fun r u hr => ?_⟩
    · by_cases e : u = t
      · subst e; exact ht
      · exact h.held u (by simpa only [user_other hu (user_ne e)] using hin)
    · obtain ⟨h1, h2⟩ := h.holder r u hr
      refine ⟨h1, ?_⟩
      by_cases e : u = t
      · subst e; exact .inr hl
      · simpa only [user_other hu (user_ne e)] using h2
  | leave t st' _ hp hu =>
    have hl := (lib_step hm hI hu).2.1 hp
    have ht := h.held t (leaves_inLib hp)
    refine ⟨fun u hin => ?_, fun r u hr => ?_⟩
    · by_cases e : u = t
      · subst e; rw [hl.1] at hin; cases hin
      · have e1 := h.held u (by simpa only [user_other hu (user_ne e)] using hin)
        by_cases hr : P.rankT u = P.rankT t
        · rw [hr, ht] at e1; injection e1 with e1; exact absurd e1.symm e
        · exact (upd_ne _ _ hr).trans e1
    · by_cases e1 : r = P.rankT t
      · subst e1; simp only [upd_self] at hr; cases hr
      · simp only [upd_ne _ _ e1] at hr
        obtain ⟨h1, h2⟩ := h.holder r u hr
        refine ⟨h1, ?_⟩
        have e : u ≠ t := by rintro rfl; exact e1 h1.symm
        simpa only [user_other hu (user_ne e)] using h2
  | other t st' hc hu =>
    rcases hc with hc | ⟨hc1, hc2⟩
    · exact absurd hm hc
    obtain ⟨-, -, k3, k4⟩ := lib_step hm hI hu
    refine ⟨fun u hin => ?_, fun r u hr => ?_⟩
    · by_cases e : u = t
      · subst e
        cases hx : (ls.st.pc (.user u)).inLib with
        | true => exact h.held u hx
        | false => rw [k4 hc1 hx] at hin; cases hin
      · exact h.held u (by simpa only [user_other hu (user_ne e)] using hin)
    · obtain ⟨h1, h2⟩ := h.holder r u hr
      refine ⟨h1, ?_⟩
      by_cases e : u = t
      · subst e
        rcases h2 with h2 | h2
        · rw [hc1] at h2; cases h2
        · exact .inr (k3 h2 hc2)
      · simpa only [user_other hu (user_ne e)] using h2
  | comm r st' hc =>
    have e : ∀ u, st'.pc (.user u) = ls.st.pc (.user u) := fun u => comm_other hc nofun
    exact ⟨fun u hin => h.held u (by simpa only [e] using hin), fun r u hr => by
      simpa only [e] using h.holder r u hr⟩

theorem LibReach.inv (hl : Legal P) (hm : P.mode = .window) (h : LibReach P ls) : LibInv P ls := by
  induction h with
  | init h => obtain ⟨c, hc, rfl⟩ := h; exact ⟨fun t (ht : false = true) => (by cases ht), fun r t (ht : none = some t) => (by cases ht)⟩
  | @step s1 s2 h1 hs ih =>
    exact ih.step hm (DistInv.reach hl.domains hl.size hl.hand (LibReach.dist h1)) hs

/-! ### Progress -/

/-- A thread with the lock of an entry can continue. -/
theorem inLib_enabled (hm : P.mode = .window) {t : Nat}
    (hi : (st.pc (.user t)).inLib = true) : ∃ st', UserStep P t st st' := by
  cases hp : st.pc (.user t) with
  | own b off s ph =>
    rw [hp] at hi
    have hx : ∃ st', execOwn P st t 0 b off s ph = some st' := by
      cases ph with
      | delLocked o => exact ⟨_, rfl⟩
      | addLocked => exact ⟨_, rfl⟩
      | xfer e =>
        cases e with
        | negSucc n => exact ⟨_, rfl⟩
        | ofNat e => simp only [execOwn, hm]; exact ⟨_, rfl⟩
      | copy e k => simp only [execOwn]; split <;> exact ⟨_, rfl⟩
      | load k => simp only [execOwn]; split <;> exact ⟨_, rfl⟩
      | fin => simp only [execOwn, hm]; exact ⟨_, rfl⟩
      | _ => cases hi
    obtain ⟨st', hx⟩ := hx
    exact ⟨st', execOwn_sound hp hx⟩
  | _ => rw [hp] at hi; cases hi

/-- If no entry is locked, everybody can lock an entry. -/
theorem enters_enabled (hm : P.mode = .window) {t : Nat} (hd : ∀ b, st.dl b = none)
    (hi : (st.pc (.user t)).entersLib = true) : ∃ st', UserStep P t st st' := by
  cases hp : st.pc (.user t) with
  | own b off s ph =>
    rw [hp] at hi
    have hx : ∃ st', execOwn P st t 0 b off s ph = some st' := by
      cases ph with
      | del old =>
        cases old with
        | none => cases hi
        | some o => simp only [execOwn, hm, hd]; exact ⟨_, rfl⟩
      | add => simp only [execOwn, hm, hd]; exact ⟨_, rfl⟩
      | start => simp only [execOwn, hm, hd]; exact ⟨_, rfl⟩
      | _ => cases hi
    obtain ⟨st', hx⟩ := hx
    exact ⟨st', execOwn_sound hp hx⟩
  | _ => rw [hp] at hi; cases hi

theorem inLib_idle {p : Pc β} (h : p.inLib = true) : p ≠ .idle := by rintro rfl; cases h
theorem enters_idle {p : Pc β} (h : p.entersLib = true) : p ≠ .idle := by rintro rfl; cases h
theorem enters_inLib {p : Pc β} (h : p.inLib = true) : p.entersLib = false := by
  cases p with
  | own b off s ph => cases ph <;> first | rfl | cases h
  | _ => cases h

/-- The step of a thread with the lock of an entry is a step with the lock of the library. -/
theorem libQuiet_in {t : Nat} (hi : (ls.st.pc (.user t)).inLib = true)
    (hu : UserStep P t ls.st st') : ∃ ls', LibQuiet P ls ls' := by
  have hq := (quiet_user hu (inLib_idle hi)).2
  by_cases hm : P.mode = .window
  · cases hx : (ls.st.pc (.user t)).leavesLib with
    | true => exact ⟨_, .leave ls t st' hm hx hu, hq⟩
    | false => exact ⟨_, .other ls t st' (.inr ⟨enters_inLib hi, hx⟩) hu, hq⟩
  · exact ⟨_, .other ls t st' (.inl hm) hu, hq⟩

theorem LibInv.progress (hI : DistInv P ls.st) (h : P.mode = .window → LibInv P ls) {t : Nat}
    (hn : ls.st.pc (.user t) ≠ .idle) : ∃ ls', LibQuiet P ls ls' := by
  obtain ⟨st', hq⟩ := hI.progress hn
  by_cases hm : P.mode = .window
  · have hL := h hm
    by_cases hd : ∃ b a, ls.st.dl b = some a
    · obtain ⟨b, a, hd⟩ := hd
      have hdl := (hI.dl b a).1 hd
      cases a with
      | comm r => cases hp : ls.st.pc (.comm r) <;> rw [hp] at hdl <;> exact hdl.elim
      | user u =>
        have hin := dl_inLib hI hd
        obtain ⟨st'', hu⟩ := inLib_enabled hm hin
        exact libQuiet_in hin hu
    have hd' : ∀ b, ls.st.dl b = none := by
      intro b
      cases hx : ls.st.dl b with
      | none => rfl
      | some a => exact absurd ⟨b, a, hx⟩ hd
    rcases quiet_cases hq with ⟨u, hu, hne⟩ | ⟨r, hc⟩
    · cases he : (ls.st.pc (.user u)).entersLib with
      | true =>
        cases hmp : ls.mp (P.rankT u) with
        | none =>
          exact ⟨_, .take ls u hm he hmp, fun _ h => h⟩
        | some v =>
          obtain ⟨-, hv⟩ := hL.holder _ _ hmp
          rcases hv with hv | hv
          · obtain ⟨st'', hu'⟩ := enters_enabled hm hd' hv
            have hr := (hL.holder _ _ hmp).1
            exact ⟨_, .enter ls v st'' hm hv (by rw [hr]; exact hmp) hu',
              (quiet_user hu' (enters_idle hv)).2⟩
          · obtain ⟨st'', hu'⟩ := inLib_enabled hm hv
            exact libQuiet_in hv hu'
      | false =>
        cases hx : (ls.st.pc (.user u)).leavesLib with
        | true => exact ⟨_, .leave ls u st' hm hx hu, hq.2⟩
        | false => exact ⟨_, .other ls u st' (.inr ⟨he, hx⟩) hu, hq.2⟩
    · exact ⟨_, .comm ls r st' hc, hq.2⟩
  · rcases quiet_cases hq with ⟨u, hu, hne⟩ | ⟨r, hc⟩
    · exact ⟨_, .other ls u st' (.inl hm) hu, hq.2⟩
    · exact ⟨_, .comm ls r st' hc, hq.2⟩

/-! ### Termination -/

/-- Does the thread still have to take the lock of the library? -/
def waitsLib (P : DistParams β) (ls : LibState β) (t : Nat) : Nat :=
  if (ls.st.pc (.user t)).entersLib = true ∧ ls.mp (P.rankT t) ≠ some t then 1 else 0

def libLeft (P : DistParams β) (L : List Nat) (ls : LibState β) : Nat :=
  (L.map fun t => 2 * stepsLeft P (ls.st.pc (.user t)) + waitsLib P ls t).sum

theorem waitsLib_le (P : DistParams β) (ls : LibState β) (t : Nat) : waitsLib P ls t ≤ 1 := by
  unfold waitsLib; split <;> omega

/-- A user step of thread `t`, by which only `t` can lose the lock of the library. -/
theorem libLeft_user (hI : DistInv P ls.st) (hm : P.mode ≠ .thread) {L : List Nat}
    (hL : ∀ t, ls.st.pc (.user t) ≠ .idle → t ∈ L) {t : Nat} (hn : ls.st.pc (.user t) ≠ .idle)
    (hu : UserStep P t ls.st ls'.st)
    (hmp : ∀ u, u ≠ t → ls.mp (P.rankT u) = some u → ls'.mp (P.rankT u) = some u) :
    libLeft P L ls' < libLeft P L ls := by
  have hlt := stepsLeft_lt hI hm hu hn
  have h1 : 2 * stepsLeft P (ls'.st.pc (.user t)) + waitsLib P ls' t <
      2 * stepsLeft P (ls.st.pc (.user t)) + waitsLib P ls t := by
    have := waitsLib_le P ls' t
    omega
  refine sum_lt (u := t) (fun u => ?_) (hL t hn) h1
  by_cases e : u = t
  · subst e; exact Nat.le_of_lt h1
  · have hp := user_other hu (user_ne e)
    rw [hp]
    refine Nat.add_le_add_left ?_ _
    unfold waitsLib
    rw [hp]
    split
    · next hx =>
      rw [if_pos ⟨hx.1, fun e1 => hx.2 (hmp u e e1)⟩]; exact Nat.le_refl _
    · exact Nat.zero_le _

theorem libQuiet_lt (hl : Legal P) (hm : P.mode ≠ .thread) (h : LibReach P ls) {L : List Nat}
    (hL : ∀ t, ls.st.pc (.user t) ≠ .idle → t ∈ L) (hq : LibQuiet P ls ls') :
    libLeft P L ls' < libLeft P L ls := by
  have hI := DistInv.reach hl.domains hl.size hl.hand h.dist
  obtain ⟨hs, hi⟩ := hq
  have hne : ∀ {t st'}, UserStep P t ls.st st' → (∀ t, ls.st.pc (.user t) = .idle → st'.pc (.user t) = .idle) →
      ls.st.pc (.user t) ≠ .idle := by
    intro t st' hu hi e
    have := hi t e
    cases hu with
    | call => simp only [upd_self] at this; cases this
    | _ => simp_all
  cases hs with
  | take t hw hp hn =>
    have hpn := enters_idle hp
    refine sum_lt (u := t) (fun u => ?_) (hL t hpn) ?_
    · refine Nat.add_le_add_left ?_ _
      unfold waitsLib
      split
      · next hx =>
        have hy : ls.mp (P.rankT u) ≠ some u := fun e => by
          refine hx.2 ?_
          by_cases hr : P.rankT u = P.rankT t
          · rw [hr, hn] at e; cases e
          · exact (upd_ne _ _ hr).trans e
        rw [if_pos ⟨hx.1, hy⟩]; exact Nat.le_refl _
      · exact Nat.zero_le _
    · refine Nat.add_lt_add_left ?_ _
      unfold waitsLib
      rw [if_neg (by simp [upd_self]), if_pos ⟨hp, by rw [hn]; nofun⟩]
      exact Nat.one_pos
  | enter t st' hw hp ht hu => exact libLeft_user hI hm hL (hne hu hi) hu (fun u _ h => h)
  | leave t st' hw hp hu =>
    have ht := (h.inv hl hw).held t (leaves_inLib hp)
    refine libLeft_user hI hm hL (hne hu hi) hu (fun u e h => ?_)
    by_cases hr : P.rankT u = P.rankT t
    · rw [hr, ht] at h; injection h with h; exact absurd h.symm e
    · exact (upd_ne _ _ hr).trans h
  | other t st' hc hu => exact libLeft_user hI hm hL (hne hu hi) hu (fun u _ h => h)
  | comm r st' hc => exact absurd hc (no_comm_idle hI hm (comm_idle hl hm h.dist r))

theorem libQuietRun_le (hl : Legal P) (hm : P.mode ≠ .thread) (h : LibReach P ls) {L : List Nat}
    (hL : ∀ t, ls.st.pc (.user t) ≠ .idle → t ∈ L) {n : Nat} (hq : LibQuietRun P n ls ls') :
    LibReach P ls' ∧ (∀ t, ls'.st.pc (.user t) ≠ .idle → t ∈ L) ∧
      n + libLeft P L ls' ≤ libLeft P L ls := by
  induction hq with
  | zero => exact ⟨h, hL, by omega⟩
  | @succ n s1 s2 s3 hr hq ih =>
    obtain ⟨h1, h2, h3⟩ := ih h hL
    refine ⟨.step h1 hq.1, fun t ht => h2 t (fun e => ht (hq.2 t e)), ?_⟩
    have := libQuiet_lt hl hm h1 h2 hq
    omega

/-! ### The interpreter -/

theorem LibCmd.exec_sound (hin : ∀ b k, P.inside b k) {c : LibCmd} (h : c.exec P ls = some ls') :
    LibStep P ls ls' := by
  cases c with
  | take t =>
    simp only [LibCmd.exec] at h
    split at h
    · next hx => injection h with h; subst h; exact .take ls t hx.1 hx.2.1 hx.2.2
    · cases h
  | step c =>
    have hsound : ∀ {st'}, c.exec P ls.st = some st' → DistStep P ls.st st' :=
      fun h => DistCmd.exec_sound (fun t b off _ => hin b off) h
    cases c with
    | user t rnd =>
      simp only [LibCmd.exec, Option.bind_eq_some_iff] at h
      obtain ⟨st', hx, h⟩ := h
      have hu := execUser_sound hx
      split at h
      · next he =>
        split at h
        · next hmp => injection h with h; subst h; exact .enter ls t st' he.1 he.2 hmp hu
        · cases h
      · next he =>
        split at h
        · next hlv => injection h with h; subst h; exact .leave ls t st' hlv.1 hlv.2 hu
        · next hlv =>
          injection h with h; subst h
          refine .other ls t st' ?_ hu
          by_cases hw : P.mode = .window
          · refine .inr ⟨?_, ?_⟩
            · cases hx : (ls.st.pc (.user t)).entersLib with
              | true => exact absurd ⟨hw, hx⟩ he
              | false => rfl
            · cases hx : (ls.st.pc (.user t)).leavesLib with
              | true => exact absurd ⟨hw, hx⟩ hlv
              | false => rfl
          · exact .inl hw
    | call t b off =>
      simp only [LibCmd.exec, Option.map_eq_some_iff] at h
      obtain ⟨st', hx, rfl⟩ := h
      have hidle : ls.st.pc (.user t) = .idle := by
        simp only [DistCmd.exec] at hx
        split at hx
        · assumption
        · cases hx
      have hu : UserStep P t ls.st st' := by
        simp only [DistCmd.exec, hidle] at hx
        split at hx
        · next ho => injection hx with hx; subst hx; exact .call _ _ _ _ hidle ⟨ho, hin _ _⟩
        · cases hx
      exact .other ls t st' (.inr (by rw [hidle]; exact ⟨rfl, rfl⟩)) hu
    | deliver r src =>
      simp only [LibCmd.exec, Option.map_eq_some_iff] at h
      obtain ⟨st', hx, rfl⟩ := h
      refine .comm ls r st' ?_
      simp only [DistCmd.exec] at hx
      split at hx
      · next h1 h2 => injection hx with hx; subst hx; exact .deliver _ _ _ _ _ _ h1 h2
      · cases hx
    | accept r t =>
      simp only [LibCmd.exec, Option.map_eq_some_iff] at h
      obtain ⟨st', hx, rfl⟩ := h
      refine .comm ls r st' ?_
      simp only [DistCmd.exec] at hx
      split at hx
      · next h1 h2 h3 =>
        split at hx
        · next he => subst he; injection hx with hx; subst hx; exact .accept _ _ _ _ _ _ h1 h2 h3
        · cases hx
      · cases hx
    | comm r =>
      simp only [LibCmd.exec, Option.map_eq_some_iff] at h
      obtain ⟨st', hx, rfl⟩ := h
      exact .comm ls r st' (execComm_sound hx)

theorem libRun_reach (hin : ∀ b k, P.inside b k) {cmds : List LibCmd} (h : libRun P cmds = some ls) :
    LibReach P ls := by
  simp only [libRun, Option.bind_eq_some_iff] at h
  obtain ⟨c, hc, h⟩ := h
  have key : ∀ {cmds ls0}, LibReach P ls0 → libExec P ls0 cmds = some ls → LibReach P ls := by
    intro cmds
    induction cmds with
    | nil => intro ls0 h0 h; simp only [libExec] at h; injection h with h; subst h; exact h0
    | cons c cs ih =>
      intro ls0 h0 h
      simp only [libExec, Option.bind_eq_some_iff] at h
      obtain ⟨ls1, h1, h2⟩ := h
      exact ih (.step h0 (LibCmd.exec_sound hin h1)) h2
  exact key (.init ⟨c, hc, rfl⟩) h

end Asagi
