import Verif.Proofs.CacheDistStarve
import Verif.Proofs.CacheDistLib
/-
No thread starves with the lock of the MPI library, either.
-/
namespace Asagi
open Spec
variable {β : Type} {P : DistParams β} {ls ls' : LibState β} {st st' : DistState β}

theorem user_moves (h : DistInv P st) (hm : P.mode ≠ .thread) {u : Nat} (hs : UserStep P u st st') :
    st'.pc (.user u) ≠ st.pc (.user u) := by
  by_cases hn : st.pc (.user u) = .idle
  · cases hs with
    | call => simp only [upd_self, hn]; nofun
    | _ => simp_all
  · intro e
    have := stepsLeft_lt h hm hs hn
    rw [e] at this
    exact Nat.lt_irrefl _ this

theorem enters_dir {p : Pc β} (h : p.entersLib = false) : dirNeed p = none := by
  cases p with
  | own b off s ph =>
    cases ph with
    | del old => cases old <;> first | rfl | cases h
    | add | start => cases h
    | _ => rfl
  | _ => rfl

/-- Position and lock of the library. -/
def libPos (P : DistParams β) (ls : LibState β) : Agent → Pc β × Bool
  | .user t => (ls.st.pc (.user t), decide (ls.mp (P.rankT t) = some t))
  | .comm r => (ls.st.pc (.comm r), false)

/-- What a step does, with MPI windows. -/
theorem libStep_cases (hl : Legal P) (hm : P.mode = .window) (h : LibReach P ls) (hs : LibStep P ls ls') :
    ∃ t, (∀ a, a ≠ .user t → libPos P ls' a = libPos P ls a) ∧
      ((UserStep P t ls.st ls'.st) ∨
        (ls' = { ls with mp := upd ls.mp (P.rankT t) (some t) } ∧
          (ls.st.pc (.user t)).entersLib = true ∧ ls.mp (P.rankT t) = none)) := by
  have hI := DistInv.reach hl.domains hl.size hl.hand h.dist
  have hpos : ∀ {t : Nat} {st' : DistState β} {mp' : Nat → Option Nat}, UserStep P t ls.st st' →
      (∀ u, u ≠ t → (mp' (P.rankT u) = some u ↔ ls.mp (P.rankT u) = some u)) →
      ∀ a, a ≠ .user t → libPos P ⟨st', mp'⟩ a = libPos P ls a := by
    intro t st' mp' hu hmp a ha
    cases a with
    | comm r => simp only [libPos, user_other hu ha]
    | user u =>
      have hne : u ≠ t := fun e => ha (by rw [e])
      simp only [libPos, user_other hu ha, hmp u hne]
  cases hs with
  | take t hw hp hn =>
    refine ⟨t, fun a ha => ?_, .inr ⟨rfl, hp, hn⟩⟩
    cases a with
    | comm r => rfl
    | user u =>
      have hne : u ≠ t := fun e => ha (by rw [e])
      simp only [libPos]
      congr 1
      refine decide_eq_decide.2 ?_
      by_cases hr : P.rankT u = P.rankT t
      · rw [hr, upd_self, hn]
        exact ⟨fun e => by injection e with e; exact absurd e.symm hne, nofun⟩
      · rw [upd_ne _ _ hr]
  | enter t st' hw hp ht hu => exact ⟨t, hpos hu (fun u _ => Iff.rfl), .inl hu⟩
  | leave t st' hw hp hu =>
    have ht := (h.inv hl hw).held t (leaves_inLib hp)
    refine ⟨t, hpos hu (fun u hne => ?_), .inl hu⟩
    by_cases hr : P.rankT u = P.rankT t
    · rw [hr, upd_self, ht]
      exact ⟨nofun, fun e => by injection e with e; exact absurd e.symm hne⟩
    · rw [upd_ne _ _ hr]
  | other t st' hc hu => exact ⟨t, hpos hu (fun u _ => Iff.rfl), .inl hu⟩
  | comm r st' hc =>
    exact absurd hc (no_comm_idle hI (by rw [hm]; nofun) (comm_idle hl (by rw [hm]; nofun) h.dist r))

/-- The same for a step of a certain thread. -/
theorem libMoves_cases (hl : Legal P) (hm : P.mode = .window) (h : LibReach P ls) {t : Nat}
    (hs : LibMoves P t ls ls') : (∀ a, a ≠ .user t → libPos P ls' a = libPos P ls a) ∧
      ((UserStep P t ls.st ls'.st) ∨
        (ls' = { ls with mp := upd ls.mp (P.rankT t) (some t) } ∧
          (ls.st.pc (.user t)).entersLib = true ∧ ls.mp (P.rankT t) = none)) := by
  obtain ⟨hs, hmv⟩ := hs
  obtain ⟨u, h1, h2⟩ := libStep_cases hl hm h hs
  have e : u = t := by
    by_contra hne
    have := h1 (.user t) (fun e => by injection e with e; exact hne e.symm)
    simp only [libPos, Prod.mk.injEq] at this
    rcases hmv with hmv | ⟨ha, hb⟩
    · exact hmv this.1
    · have h3 := this.2
      rw [decide_eq_true ha, decide_eq_false hb] at h3
      cases h3
  subst e
  exact ⟨h1, h2⟩

theorem libStep_moves (hl : Legal P) (hm : P.mode = .window) (h : LibReach P ls) (hs : LibStep P ls ls') :
    ∃ t, LibMoves P t ls ls' := by
  have hI := DistInv.reach hl.domains hl.size hl.hand h.dist
  obtain ⟨t, -, h2⟩ := libStep_cases hl hm h hs
  refine ⟨t, hs, ?_⟩
  rcases h2 with hu | ⟨rfl, -, hn⟩
  · exact .inl (user_moves hI (by rw [hm]; nofun) hu)
  · exact .inr ⟨upd_self _ _ _, by rw [hn]; nofun⟩

/-- A step of the caches that is possible is possible with the lock of the library. -/
theorem lib_can (hl : Legal P) (hm : P.mode = .window) (h : LibReach P ls) {t : Nat}
    (hh : (ls.st.pc (.user t)).entersLib = true → ls.mp (P.rankT t) = some t)
    (hu : UserStep P t ls.st st') : ∃ ls', LibMoves P t ls ls' := by
  have hI := DistInv.reach hl.domains hl.size hl.hand h.dist
  have hmv := user_moves hI (by rw [hm]; nofun) hu
  cases he : (ls.st.pc (.user t)).entersLib with
  | true => exact ⟨_, .enter ls t st' hm he (hh he) hu, .inl hmv⟩
  | false =>
    cases hx : (ls.st.pc (.user t)).leavesLib with
    | true => exact ⟨_, .leave ls t st' hm hx hu, .inl hmv⟩
    | false => exact ⟨_, .other ls t st' (.inr ⟨he, hx⟩) hu, .inl hmv⟩

theorem bit_le (q : Prop) [Decidable q] : (if q then 1 else 0) ≤ 1 := by split <;> omega

/-- The lock that a thread needs for its next step. -/
def libNeed (P : DistParams β) : Agent → Pc β × Bool → Option CacheLock
  | .user t, (p, has) =>
    if p.entersLib = true ∧ has = false then some (.mp (P.rankT t)) else lockNeed P (.user t) p
  | .comm _, _ => none

/-- The caches with the lock of the library, in an execution with fair locks. -/
def libLocks (hl : Legal P) (hm : P.mode = .window) {σ : Nat → LibState β}
    (h0 : LibReach P (σ 0)) (hc : CourseOf (LibStep P) σ)
    (hf : FairLocksOf (LibMoves P) (fun t ls => ls.st.pc (.user t) = .idle) σ) :
    LockSys (L := CacheLock) σ (libPos P)
      (fun a ls ls' => match a with | .user t => LibMoves P t ls ls' | .comm _ => False)
      (fun p => p.1 = .idle) :=
  have hm' : P.mode ≠ .thread := by rw [hm]; nofun
  have hr : ∀ n, LibReach P (σ n) := by
    intro n
    induction n with
    | zero => exact h0
    | succ n ih =>
      rcases hc n with h | h
      · exact .step ih h
      · rw [h]; exact ih
  have hI := fun n => DistInv.reach hl.domains hl.size hl.hand (hr n).dist
  have hL := fun n => (hr n).inv hl hm
  have hi := fun n r => comm_idle hl hm' (hr n).dist r
  { step := fun n => (hc n).imp (fun h => by
      obtain ⟨t, ht⟩ := libStep_moves hl hm (hr n) h
      exact ⟨.user t, ht⟩) (fun e a => by rw [e])
    fair := fun a n => by
      cases a with
      | user t => exact hf t n
      | comm r => exact ⟨n, Nat.le_refl _, .inl (hi n r)⟩
    other := fun n a h b hb => by
      cases a with
      | user u => exact (libMoves_cases hl hm (hr n) h).1 b hb
      | comm r => exact h.elim
    left := fun p => 2 * stepsLeft P p.1 + if p.1.entersLib = true ∧ p.2 = false then 1 else 0
    dec := fun n a h hn => by
      cases a with
      | comm r => exact h.elim
      | user u =>
        rcases (libMoves_cases hl hm (hr n) h).2 with hu | ⟨e, hx, hk⟩
        · have := stepsLeft_lt (hI n) hm' hu hn
          simp only [libPos]
          have h1 := bit_le (((σ (n + 1)).st.pc (.user u)).entersLib = true ∧
            decide ((σ (n + 1)).mp (P.rankT u) = some u) = false)
          exact Nat.lt_of_lt_of_le (Nat.lt_of_le_of_lt (Nat.add_le_add_left h1 _) (by omega))
            (Nat.le_add_right _ _)
        · rw [e]
          simp only [libPos, upd_self, hk, hx]
          simp
    own := fun ls l => match l with
      | .cm d => ls.st.cm d
      | .lk k => ls.st.lk k
      | .dl b => ls.st.dl b
      | .mp r => (ls.mp r).map .user
    Of := fun a p l => match l with
      | .cm d => CmOf P a p.1 d
      | .lk k => LkOf P a p.1 k
      | .dl b => DlOf P a p.1 b
      | .mp r => match a with
        | .user t => P.rankT t = r ∧ p.2 = true ∧ p.1 ≠ .idle
        | .comm _ => False
    hown := fun n l a => by
      have e : (libPos P (σ n) a).1 = (σ n).st.pc a := by cases a <;> rfl
      cases l with
      | cm d => rw [e]; exact (hI n).cm d a
      | lk k => rw [e]; exact (hI n).lk k a
      | dl b => rw [e]; exact (hI n).dl b a
      | mp r =>
        cases a with
        | comm r' =>
          refine ⟨fun h => ?_, False.elim⟩
          obtain ⟨t, -, ht⟩ := Option.map_eq_some_iff.1 h
          cases ht
        | user t =>
          constructor
          · intro h
            obtain ⟨u, hu, ht⟩ := Option.map_eq_some_iff.1 h
            injection ht with ht
            subst ht
            obtain ⟨h1, h2⟩ := (hL n).holder r u hu
            refine ⟨h1, decide_eq_true (by rw [h1]; exact hu), ?_⟩
            rcases h2 with h2 | h2
            · exact enters_idle h2
            · exact inLib_idle h2
          · rintro ⟨h1, h2, -⟩
            have h2 := of_decide_eq_true h2
            rw [h1] at h2
            show ((σ n).mp r).map Agent.user = _
            rw [h2]; rfl
    busy := fun a p l h e => by
      obtain ⟨p, x⟩ := p
      have e : p = .idle := e
      subst e
      cases a <;> cases l <;> first | exact h | exact h.2.2 rfl
    need := libNeed P
    can := fun n a hn => by
      cases a with
      | comm r => exact absurd (hi n r) hn
      | user t =>
        have hn : (σ n).st.pc (.user t) ≠ .idle := hn
        by_cases hx : ((σ n).st.pc (.user t)).entersLib = true ∧
            decide ((σ n).mp (P.rankT t) = some t) = false
        · have hne := of_decide_eq_false hx.2
          by_cases hk : (σ n).mp (P.rankT t) = none
          · exact .inl ⟨_, .take (σ n) t hm hx.1 hk, .inr ⟨upd_self _ _ _, hne⟩⟩
          · refine .inr ⟨.mp (P.rankT t), if_pos hx, fun e => hk ?_⟩
            exact Option.map_eq_none_iff.1 e
        · have hh : ((σ n).st.pc (.user t)).entersLib = true → (σ n).mp (P.rankT t) = some t := by
            intro he
            by_contra hne
            exact hx ⟨he, decide_eq_false hne⟩
          have hneed : libNeed P (.user t) (libPos P (σ n) (.user t)) =
              lockNeed P (.user t) ((σ n).st.pc (.user t)) := if_neg hx
          obtain ⟨k1, k2, k3, k4⟩ := (hI n).kind t
          cases hp : (σ n).st.pc (.user t) with
          | idle => exact absurd hp hn
          | wantCm b off =>
            by_cases hk : (σ n).st.cm (P.dom t) = none
            · obtain ⟨h0, inv, -⟩ := (hI n).lists (P.dom t)
              obtain ⟨c', s, old, hg, -⟩ := inv.get b
              exact .inl (lib_can hl hm (hr n) hh (.lookup (σ n).st t b off s c' old hp hk hg))
            · exact .inr ⟨.cm (P.dom t), by rw [hneed, hp]; rfl, hk⟩
          | wantSlot b off s old =>
            by_cases hk : (σ n).st.lk (P.dom t, s) = none
            · exact .inl (lib_can hl hm (hr n) hh (.lockSlot (σ n).st t b off s old hp hk))
            · exact .inr ⟨.lk (P.dom t, s), by rw [hneed, hp]; rfl, hk⟩
          | own b off s ph =>
            rcases own_can_or (hI n) hm' hp with ⟨st', h1⟩ | ⟨o, h1, h2⟩
            · exact .inl (lib_can hl hm (hr n) hh h1)
            · rw [hp] at h1
              exact .inr ⟨.dl o, by rw [hneed, hp, lockNeed, h1]; rfl; all_goals nofun, h2⟩
          | tryDom u b i => exact absurd hp (k1 _ _ _)
          | tryCm u b i => exact absurd hp (k2 _ _ _)
          | send u b i s k buf => exact absurd hp (k3 _ _ _ _ _ _)
          | sent i s => exact absurd hp (k4 _ _)
    rank := CacheLock.rank
    order := fun n a l l' ho hn => by
      cases a with
      | comm r => cases hn
      | user t =>
        have hholds := fun r (h : (σ n).mp r = some t) => (hL n).holder r t h
        have hn : (if ((σ n).st.pc (.user t)).entersLib = true ∧
            decide ((σ n).mp (P.rankT t) = some t) = false then some (CacheLock.mp (P.rankT t))
            else lockNeed P (.user t) ((σ n).st.pc (.user t))) = some l' := hn
        simp only [libPos] at ho
        revert ho hn hholds
        generalize (σ n).st.pc (.user t) = p
        generalize hmp : (σ n).mp (P.rankT t) = q
        intro ho hholds hn
        cases p with
        | wantCm b off =>
          cases l with
          | mp r =>
            obtain ⟨h1, h2, -⟩ := ho
            rcases (hholds _ (hmp.trans (of_decide_eq_true h2))).2 with h3 | h3 <;> cases h3
          | _ => exact ho.elim
        | wantSlot b off s old =>
          cases l with
          | cm d =>
            injection hn with hn
            subst hn
            exact (by decide : 2 < 3)
          | mp r =>
            obtain ⟨h1, h2, -⟩ := ho
            rcases (hholds _ (hmp.trans (of_decide_eq_true h2))).2 with h3 | h3 <;> cases h3
          | _ => exact ho.elim
        | own b off s ph =>
          have hn : (if (Pc.own b off s ph).entersLib = true ∧ decide (q = some t) = false then
              some (CacheLock.mp (P.rankT t))
              else (dirNeed (.own b off s ph)).map CacheLock.dl) = some l' := hn
          cases l with
          | cm d =>
            cases ph with
            | numaCm i => cases hn
            | _ => exact ho.elim
          | lk k =>
            split at hn
            · injection hn with hn; subst hn; exact (by decide : 1 < 2)
            · obtain ⟨o, -, rfl⟩ := Option.map_eq_some_iff.1 hn
              exact (by decide : 0 < 2)
          | mp r =>
            obtain ⟨h1, h2, -⟩ := ho
            rw [if_neg (by rw [h2]; simp)] at hn
            obtain ⟨o, -, rfl⟩ := Option.map_eq_some_iff.1 hn
            exact (by decide : 0 < 1)
          | dl k =>
            have hd := dirNeed_dl (off := off) (s := s) ho.2
            have he : (Pc.own b off s ph).entersLib = false := by
              have := ho.2
              cases ph with
              | del old => cases old <;> first | rfl | cases this
              | add | start => cases this
              | _ => rfl
            rw [he, hd] at hn
            simp at hn
        | _ => cases hn }

/-- From every reachable state there is an execution with fair locks in which thread `t` calls
getters again and again. -/
theorem libFair_exists (hl : Legal P) (hm : P.mode ≠ .thread) (h : LibReach P ls) {t b off : Nat}
    (hv : P.valid b off) : ∃ σ : Nat → LibState β, σ 0 = ls ∧ CourseOf (LibStep P) σ ∧
      FairLocksOf (LibMoves P) (fun t ls => ls.st.pc (.user t) = .idle) σ ∧
      ∀ n, ∃ m, n ≤ m ∧ (σ m).st.pc (.user t) = .idle ∧ (σ (m + 1)).st.pc (.user t) = .wantCm b off := by
  have hidle : ∀ {s}, LibReach P s → (∀ s', ¬ LibQuiet P s s') → ∀ u, s.st.pc (.user u) = .idle := by
    intro s hr hq u
    by_contra hn
    obtain ⟨st', h'⟩ := LibInv.progress (DistInv.reach hl.domains hl.size hl.hand hr.dist)
      (fun hm => hr.inv hl hm) hn
    exact hq st' h'
  refine fairCourse_exists (reach := LibReach P) (quiet := LibQuiet P)
    (Q := fun s s' => s.st.pc (.user t) = .idle ∧ s'.st.pc (.user t) = .wantCm b off) _ _
    (fun h hs => .step h hs) (fun h => h.1) (fun τ h0 hq => ?_) hidle (fun {s} hr hq => ?_) h
  · obtain ⟨L, hL⟩ := busy_finite (P := P) (st := (τ 0).st) (LibReach.dist h0)
    have hrun : ∀ j, LibQuietRun P j (τ 0) (τ j) := by
      intro j
      induction j with
      | zero => exact .zero _
      | succ j ih => exact .succ ih (hq j)
    have := (libQuietRun_le hl hm h0 hL (hrun (libLeft P L (τ 0) + 1))).2.2
    omega
  · have hi := hidle hr hq t
    refine ⟨_, .other s t _ (.inr ?_) (.call s.st t b off hi hv), hi, upd_self _ _ _⟩
    rw [hi]; exact ⟨rfl, rfl⟩

end Asagi
