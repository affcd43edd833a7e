import Verif.Proofs.ManyStarve
import Verif.Proofs.ManyLevelsOther
import Verif.Props.Starvation
import Verif.Props.FullMsgStarve
/-
Several levels at the same time: no thread starves in caches without communication, FULL and PASS_THROUGH
levels.
-/
namespace Asagi
open Spec Props
variable {α : Type} {c : LevelCfg α} {f : OpenedFile α} {rank : Nat → Nat}

/-- Executions are fair for other steps with the same threads that can continue. -/
theorem fair_mono {S A : Type} {moves moves' : A → S → S → Prop} {out out' : A → S → Prop} {σ : Nat → S}
    (hf : FairLocksOf moves out σ) (h0 : ∀ n t, out t (σ n) → out' t (σ n))
    (h1 : ∀ n t, ¬ out' t (σ n) → moves t (σ n) (σ (n + 1)) → moves' t (σ n) (σ (n + 1)))
    (h2 : ∀ n t s', ¬ out' t (σ n) → moves' t (σ n) s' → ∃ s', moves t (σ n) s') :
    FairLocksOf moves' out' σ := by
  intro t n
  by_cases hx : ∃ m, n ≤ m ∧ out' t (σ m)
  · obtain ⟨m, h3, h4⟩ := hx
    exact ⟨m, h3, .inl h4⟩
  push Not at hx
  obtain ⟨m, h3, h4⟩ := hf t n
  refine ⟨m, h3, .inr (h4.resolve_left (fun h => hx m h3 (h0 m t h)) |>.imp (h1 m t (hx m h3))
    fun h k hk s' hs => ?_)⟩
  obtain ⟨s1, h5⟩ := h2 k t s' (hx k (by omega)) hs
  exact h k hk s1 h5

theorem level_course {L : LevelSys α} {σ : Nat → L.S} (h : L.Reach (σ 0)) (hc : CourseOf L.step σ) :
    ∀ n, L.Reach (σ n) := by
  intro n
  induction n with
  | zero => exact h
  | succ n ih =>
    rcases hc n with h | h
    · exact .step ih h
    · rw [h]; exact ih

/-! ### Caches without communication between processes -/

section
variable {P : DistParams α} {st st' : DistState α}

/-- The thread begins to read. -/
theorem starts_reading {t : Nat} (hs : UserStep P t st st') (h1 : (st'.pc (.user t)).reading)
    (h2 : ¬ (st.pc (.user t)).reading) : ∃ b off s, st.pc (.user t) = .own b off s (.load 0) ∧ 0 < P.cells := by
  obtain ⟨b, off, s, k, hp, hk⟩ := reading_load h1
  cases hs with
  | loadCell _ _ b' off' s' k' v hq hc =>
    rw [hq] at h2
    have : k' = 0 := by
      by_contra h; exact h2 (Nat.pos_of_ne_zero h)
    subst this
    exact ⟨_, _, _, hq, by omega⟩
  | _ => 
    exfalso
    simp [DistState.goto, upd_self] at hp
    try (split at hp <;> simp_all)
    try omega

theorem dist_move {t : Nat} (hs : DistStep P st st') (hne : st'.pc (.user t) ≠ st.pc (.user t)) :
    UserStep P t st st' := by
  cases hs with
  | user u hu =>
    by_cases e : t = u
    · subst e; exact hu
    · exact absurd (user_other hu (user_ne e)) hne
  | comm r hc => exact absurd (comm_other hc (a := .user t) nofun) hne

def live_dist {S : SharedCfg α} (hl : Legal (c.shared S)) (hm : (c.shared S).mode = .none) :
    ((c.shared S).sys c).Live rank ⟨Pc α, fun st t => st.pc (.user t)⟩ where
  left := stepsLeft (c.shared S)
  forward := by
    intro s x t h hs hb
    by_cases e : x.pc (.user t) = s.pc (.user t)
    · exact .inl e
    · exact .inr (stepsLeft_lt (hl.inv h) (by rw [hm]; nofun) (dist_move hs e) hb)
  enter := by
    intro s x t _ _ hne hn e
    exact hne (e.trans (not_not.1 hn).symm)
  calm := by
    intro s x t h hs hne hb
    have hu := dist_move hs hne
    refine ⟨fun u hx e => hx ((quiet_user hu hb).2 u e), fun k u h1 h2 => ?_⟩
    cases k with
    | mpi => exact h1.elim
    | netcdf =>
      by_contra e
      refine h2 ?_
      change (s.pc (.user u)).reading
      rw [← user_other hu (user_ne e)]; exact h1
  acquire := by
    intro s x s2 t k h hs hne hb h1 h2 hr e hb2 hfree
    cases k with
    | mpi => exact h1.elim
    | netcdf =>
      obtain ⟨b, off, sl, hp, hk⟩ := starts_reading (dist_move hs hne) h1 h2
      have hu := UserStep.loadCell (P := c.shared S) s2 t b off sl 0 ((c.shared S).file b 0) (e.trans hp) hk fun _ => rfl
      refine ⟨_, .user t hu, user_moves (hl.inv hr) (by rw [hm]; nofun) hu,
        fun u hx e => hx ((quiet_user hu hb2).2 u e), fun k u h3 h4 => ?_⟩
      cases k with
      | mpi => exact h3.elim
      | netcdf =>
        refine ⟨rfl, ?_⟩
        by_contra e
        refine h4 ?_
        change (s2.pc (.user u)).reading
        rw [← user_other hu (user_ne e)]; exact h3
  netcdf := by
    intro s t h hu
    obtain ⟨st', hs, -, -, e3⟩ := reading_step (P := c.shared S) hu
    refine ⟨st', .user t hs, user_moves (hl.inv h) (by rw [hm]; nofun) hs,
      fun u hx e => hx ((quiet_user hs e3).2 u e), fun k u hk => ?_⟩
    cases k with
    | mpi => exact hk
    | netcdf =>
      by_cases e : u = t
      · subst e; exact hu
      · change (st'.pc (.user u)).reading at hk
        rw [user_other hs (user_ne e)] at hk; exact hk
  mpi := fun _ _ _ _ n => ⟨n, Nat.le_refl _, id⟩
  returns := by
    intro σ h hc hf t n
    have hr := level_course h hc
    obtain ⟨m, h1, h2⟩ := C102_cache hl (by rw [hm]; nofun) h hc (fair_mono hf (fun n t => not_not.1)
      (fun n t _ hmv => dist_move hmv.1 hmv.2)
      (fun n t s' _ hu => ⟨s', .user t hu, user_moves (hl.inv (hr n)) (by rw [hm]; nofun) hu⟩)) t n
    exact ⟨m, h1, not_not.2 h2⟩
end

/-! ### Distributed FULL -/

section
variable {X : XferCfg α} {data : Nat → Mem α} {x x' : XferSt α} {lib : Bool}

/-- A step changes the position of one thread. -/
theorem xfer_one (hs : XferStep c X data true x x') : ∃ t, ∀ u, u ≠ t →
    x'.st.pc (.user u) = x.st.pc (.user u) ∧ x'.call u = x.call u := by
  cases hs with
  | call t pos st' hc =>
    obtain ⟨idx, -, -, -, rfl⟩ := hc
    exact ⟨t, fun u e => ⟨upd_ne _ _ (user_ne e), rfl⟩⟩
  | other t st' _ _ _ hu => exact ⟨t, fun u e => ⟨user_other hu (user_ne e), rfl⟩⟩
  | near t | store t | get t => exact ⟨t, fun u e => ⟨upd_ne _ _ (user_ne e), rfl⟩⟩
  | take | answered => exact ⟨0, fun u e => ⟨rfl, rfl⟩⟩
  | lock t | send t | sent t | recv t | done t | winLock t | winUnlock t | leave t =>
    exact ⟨t, fun u e => ⟨rfl, upd_ne _ _ e⟩⟩

theorem xfer_one' (hs : XferStep c X data true x x') {t u : Nat}
    (ht : (x'.st.pc (.user t), x'.call t) ≠ (x.st.pc (.user t), x.call t)) (e : u ≠ t) :
    x'.st.pc (.user u) = x.st.pc (.user u) ∧ x'.call u = x.call u := by
  obtain ⟨v, hv⟩ := xfer_one hs
  have : t = v := by
    by_contra h
    obtain ⟨h1, h2⟩ := hv t h
    exact ht (by rw [h1, h2])
  exact hv u (by rw [← this]; exact e)

/-- Only the mutex makes a thread enter the transfer. -/
theorem xfer_enter (hs : XferStep c X data true x x') {t : Nat} (h1 : x.call t = .out)
    (h2 : x'.call t ≠ .out) : ∃ b off s, x.st.pc (.user t) = .own b off s (.load 0) ∧
      X.remote c t b ∧ X.F.hasMpi = true := by
  have no : ∀ (u : Nat) (p : XferPc α), x'.call = upd x.call u p → x.call u ≠ .out → False := by
    intro u p e h
    rw [e, upd_ne _ _ (by rintro rfl; exact h h1)] at h2
    exact h2 h1
  cases hs with
  | lock u b off s hc hp hr hm =>
    by_cases e : t = u
    · subst e; exact ⟨b, off, s, hp, hr, hm⟩
    · exact absurd ((upd_ne _ _ e).trans h1) h2
  | send u _ _ _ _ h => exact (no u _ rfl (by rw [h]; nofun)).elim
  | sent u _ _ _ _ h => exact (no u _ rfl (by rw [h]; nofun)).elim
  | recv u _ _ _ _ _ h => exact (no u _ rfl (by rw [h]; nofun)).elim
  | done u _ _ _ _ _ h => exact (no u _ rfl (by rw [h]; nofun)).elim
  | winLock u _ h => exact (no u _ rfl (by rw [h]; nofun)).elim
  | winUnlock u _ _ _ _ h => exact (no u _ rfl (by rw [h]; nofun)).elim
  | leave u h => exact (no u _ rfl (by rw [h]; nofun)).elim
  | _ => exact absurd h1 h2

/-- Without MPI there are no requests. -/
theorem xfer_no_comm {data : Nat → Mem α} {x : XferSt α} (hm : X.F.hasMpi = false) (h : XferReach c X data x) :
    ∀ r, x.comm r = none := by
  induction h with
  | init h => obtain ⟨l, -, rfl⟩ := h; exact fun _ => rfl
  | @step x1 x2 hr hs ih =>
    intro r
    cases hs with
    | take src r' m rest buf h1 h2 =>
      exfalso
      have out : ∀ u, (x1.call u).awaits = false := by
        intro u
        by_cases hn : x1.call u = .out
        · rw [hn]; rfl
        · have := ((XferReach.inv hr).1.hold u hn).2.1
          rw [hm] at this; cases this
      cases (XferReach.inv hr).1.chan src with
      | none _ e => rw [e] at h2; cases h2
      | asked u _ _ _ _ _ e => rw [out] at e; cases e
      | told u _ _ _ _ _ _ e => rw [out] at e; cases e
    | answered r' =>
      show upd x1.comm r' none r = none
      rw [upd_apply]
      split
      · rfl
      · exact ih r
    | _ => exact ih r

def live_full {s0 : FullDist α} (h : Opened f.fp f.cc f.nc f.val c) (ho : FullOpened c X.F s0)
    (hw : X.win = true ∨ X.F.hasMpi = false) (hrank : ∀ t, X.rankT t = rank t) : (X.sys c s0.data lib).Live rank
      ⟨Pc α × XferPc α, fun x t => (x.st.pc (.user t), x.call t)⟩ where
  left := fun p => 8 * stepsLeft (c.fullShared X.F) p.1 + xferPlace p.2 p.1
  forward := by
    intro s x t hr hs hb
    obtain ⟨wf, hx, -⟩ := h.spec
    rcases xfer_forward wf hx ho hr hs hb with ⟨e1, e2⟩ | h1
    · exact .inl (Prod.ext e1 e2)
    · exact .inr h1
  enter := by
    intro s x t hr hs hne hn e
    have hi := (XferReach.inv hr).1
    have hi' := (XferReach.inv (.step hr hs)).1
    refine hne (Prod.ext (e.trans (not_not.1 hn).symm) ?_)
    have out : ∀ {y : XferSt α}, XferInv c X s0.data y → y.st.pc (.user t) = .idle → y.call t = .out := by
      intro y hy e
      by_contra hc
      obtain ⟨-, -, b, off, s, k, h3, -⟩ := hy.hold t hc
      rw [e] at h3; cases h3
    exact (out hi' e).trans (out hi (not_not.1 hn)).symm
  calm := by
    intro s x t hr hs hne hb
    refine ⟨fun u hx e => ?_, fun k u h1 h2 => ?_⟩
    · by_cases e1 : u = t
      · subst e1; exact hb e
      · exact hx ((xfer_one' hs hne e1).1.trans e)
    · cases k with
      | netcdf => exact h1.elim
      | mpi =>
        by_contra e1
        have h3 := ((XferReach.inv (.step hr hs)).1.owner _ _ h1.2).2
        rw [(xfer_one' hs hne e1).2] at h3
        exact h2 ⟨h1.1, ((XferReach.inv hr).1.hold u h3).1⟩
  acquire := by
    intro s x s2 t k hr hs hne hb h1 h2 hr2 e hb2 hfree
    cases k with
    | netcdf => exact h1.elim
    | mpi =>
      have e1 : s2.st.pc (.user t) = s.st.pc (.user t) := congrArg Prod.fst e
      have e2 : s2.call t = s.call t := congrArg Prod.snd e
      have h3 : s.call t = .out := by
        by_contra h3
        exact h2 ⟨h1.1, ((XferReach.inv hr).1.hold t h3).1⟩
      obtain ⟨b, off, sl, hp, hrm, hm⟩ := xfer_enter hs h3 ((XferReach.inv (.step hr hs)).1.owner _ _ h1.2).2
      have hmx : s2.mx (X.rankT t) = none := by
        by_contra hn
        obtain ⟨u, hu⟩ := Option.ne_none_iff_exists'.1 hn
        have h4 := ((XferReach.inv hr2).1.owner _ _ hu).1
        refine hfree u (by rw [← hrank, ← hrank, h4]) ⟨h1.1, ?_⟩
        rw [h4]; exact hu
      have hl := XferStep.lock (c := c) (X := X) (data := s0.data) (early := true) s2 t b off sl
        (e2.trans h3) (e1.trans hp) hrm hm hmx
      refine ⟨_, hl, fun e => ?_, fun u hu => hu, fun k u h5 h6 => ?_⟩
      · have := congrArg Prod.snd e
        change upd s2.call t .locked t = s2.call t at this
        rw [upd_self, e2, h3] at this; cases this
      · cases k with
        | netcdf => exact h5.elim
        | mpi =>
          refine ⟨rfl, ?_⟩
          by_contra e3
          have h7 := ((XferReach.inv (.step hr2 hl)).1.owner _ _ h5.2).2
          change upd s2.call t .locked u ≠ .out at h7
          rw [upd_ne _ _ e3] at h7
          exact h6 ⟨h5.1, ((XferReach.inv hr2).1.hold u h7).1⟩
  netcdf := fun _ hu => hu.elim
  mpi := by
    intro σ h0 hc hf t n
    by_contra hx
    push Not at hx
    have hr := level_course h0 hc
    obtain ⟨wf, hex, -⟩ := h.spec
    have busy : ∀ m, ¬ ¬ (X.sys c s0.data lib).uses .mpi (σ m) t → (σ m).st.pc (.user t) ≠ .idle := by
      intro m hu
      have hi := (XferReach.inv (hr m)).1
      obtain ⟨-, -, b, off, sl, k, g, -⟩ := hi.hold t (hi.owner _ _ (not_not.1 hu).2).2
      intro e; rw [g] at e; cases e
    have fwd : ∀ m, ¬ ¬ (X.sys c s0.data lib).uses .mpi (σ m) t →
        ((σ (m + 1)).st.pc (.user t) = (σ m).st.pc (.user t) ∧ (σ (m + 1)).call t = (σ m).call t) ∨
        xferLeft c X t (σ (m + 1)) < xferLeft c X t (σ m) := by
      intro m hu
      rcases hc m with hs | e
      · exact xfer_forward wf hex ho (hr m) hs (busy m hu)
      · rw [e]; exact .inl ⟨rfl, rfl⟩
    obtain ⟨N, hN, hst⟩ := stuck_of_busy hf (a := t) (fun s => xferLeft c X t s)
      (fun m hu => by
        rcases fwd m hu with ⟨e1, e2⟩ | h1
        · unfold xferLeft; rw [e1, e2]
        · exact Nat.le_of_lt h1)
      (fun m hu hm => by
        rcases fwd m hu with ⟨e1, e2⟩ | h1
        · exact absurd (Prod.ext e1 e2) hm.2
        · exact h1) (n := n) (fun m hm => not_not.2 (hx m hm))
    have hu := hx N hN
    have hi := (XferReach.inv (hr N)).1
    have hn := (hi.owner _ _ hu.2).2
    obtain ⟨-, g2, b, off, s, k, g3, g4, g5⟩ := hi.hold t hn
    have hw := hw.resolve_right (by rw [g2]; nofun)
    have mk : ∀ (x' : XferSt α) p, XferStep c X s0.data true (σ N) x' → x'.call = upd (σ N).call t p →
        p ≠ (σ N).call t → False := by
      intro x' p hs e hp
      refine hst N (Nat.le_refl _) x' ⟨hs, fun e' => hp ?_⟩
      have := congrArg Prod.snd e'
      change x'.call t = _ at this
      rw [e, upd_self] at this; exact this
    cases hcl : (σ N).call t with
    | out => exact hn hcl
    | locked => exact mk _ _ (.winLock _ t hw hcl) rfl (by rw [hcl]; nofun)
    | sending tk => rw [hcl] at g5; have := g5.2; rw [hw] at this; cases this
    | waiting => rw [hcl] at g5; have := g5.2; rw [hw] at this; cases this
    | storing buf => exact win_not_storing hw (hr N) t buf hcl
    | epoch =>
      by_cases hk : k < c.totalBlockSize
      · obtain ⟨-, src, f1, f2, -⟩ := C83_window_bounds h ho (hr N) hcl g3
        refine hst N (Nat.le_refl _) _ ⟨.get _ t b off s k src src[k] hcl g3 hk f1
          (List.getElem?_eq_getElem (by omega)), fun e => ?_⟩
        have := congrArg Prod.fst e
        change upd (σ N).st.pc (.user t) (.own b off s (.load (k + 1))) (.user t) = (σ N).st.pc (.user t) at this
        rw [upd_self, g3] at this
        injection this with _ _ _ this
        injection this with this
        omega
      · exact mk _ _ (.winUnlock _ t b off s k hcl g3 (by omega)) rfl (by rw [hcl]; nofun)
    | closed => exact mk _ _ (.leave _ t hcl) rfl (by rw [hcl]; nofun)
  returns := by
    intro σ h0 hc hf t n
    have hr := level_course h0 hc
    have hne : ∀ m u, (σ m).call u ≠ .out → ((σ m).call u).awaits = false := by
      intro m u hn
      obtain ⟨-, g2, b, off, s, k, g3, g4, g5⟩ := (XferReach.inv (hr m)).1.hold u hn
      have hw := hw.resolve_right (by rw [g2]; nofun)
      cases hcl : (σ m).call u with
      | sending tk => rw [hcl] at g5; have := g5.2; rw [hw] at this; cases this
      | waiting => rw [hcl] at g5; have := g5.2; rw [hw] at this; cases this
      | _ => rfl
    have hfair : FairLocksOf (XferMoves c X s0.data true) XferOut σ := by
      intro a n
      cases a with
      | user t =>
        obtain ⟨m, h1, h2⟩ := hf t n
        have iff : ∀ {x y : XferSt α}, (x.st.pc (.user t), x.call t) ≠ (y.st.pc (.user t), y.call t) ↔
            (x.st.pc (.user t) ≠ y.st.pc (.user t) ∨ x.call t ≠ y.call t) := by
          intro x y
          rw [Ne, Prod.ext_iff, not_and_or]
        refine ⟨m, h1, h2.imp not_not.1 (·.imp (fun h => ⟨h.1, iff.1 h.2⟩) fun h k hk s' hs => ?_)⟩
        exact h k hk s' ⟨hs.1, iff.2 hs.2⟩
      | request q r =>
        refine ⟨n, Nat.le_refl _, .inl ?_⟩
        show (σ n).wire q r = []
        cases (XferReach.inv (hr n)).1.chan q with
        | none _ e => exact e r
        | asked u _ _ _ _ _ e => rw [hne n u (awaits_ne e)] at e; cases e
        | told u _ _ _ _ _ _ e => rw [hne n u (awaits_ne e)] at e; cases e
      | reply r =>
        refine ⟨n, Nat.le_refl _, .inl ?_⟩
        show (σ n).comm r = none
        by_contra e
        rcases hw with hw | hw
        · have := (XferReach.inv (hr n)).1.busy r e
          rw [hw] at this; cases this
        · exact e (xfer_no_comm hw (hr n) r)
    obtain ⟨m, h1, h2⟩ := (C102_full_transfer h ho (early := true) h0 hc hfair n).1 t
    exact ⟨m, h1, not_not.2 h2⟩
end

/-! ### PASS_THROUGH -/

section
variable {slot : Nat → Nat} {may : Nat → Prop} {buf0 : Mem α} {s s' : PassState α}

/-- A step changes the position of one thread, and the lock is taken by this thread. -/
theorem pass_one (hs : PassStep c slot may s s') {t : Nat} (ht : s'.pc t ≠ s.pc t) :
    (∀ u, u ≠ t → s'.pc u = s.pc u) ∧ ∀ u, s'.lock = some u → s.lock ≠ some u →
      u = t ∧ ∃ pos, s.pc t = .want pos := by
  have key : ∀ v p, s'.pc = upd s.pc v p → (∀ u, s'.lock = some u → s.lock ≠ some u →
      u = v ∧ ∃ pos, s.pc v = .want pos) → (∀ u, u ≠ t → s'.pc u = s.pc u) ∧
      ∀ u, s'.lock = some u → s.lock ≠ some u → u = t ∧ ∃ pos, s.pc t = .want pos := by
    intro v p e hl
    have : t = v := by
      by_contra h
      exact ht (by rw [e, upd_ne _ _ h])
    subst this
    exact ⟨fun u hu => by rw [e, upd_ne _ _ hu], hl⟩
  cases hs with
  | scribble => exact absurd rfl ht
  | call v q hm hp => exact key v _ rfl fun u h1 h2 => absurd h1 h2
  | acquire v q hp hl => exact key v _ rfl fun u h1 _ => ⟨(Option.some.inj h1).symm, q, hp⟩
  | load v => exact key v _ rfl nofun
  | loadFault v => exact key v _ rfl (by intro u h1 h2; first | cases h1 | exact absurd h1 h2)
  | convert v => exact key v _ rfl fun u h1 h2 => absurd h1 h2
  | leave v => exact key v _ rfl fun u h1 h2 => absurd h1 h2

theorem live_pass (h : Opened f.fp f.cc f.nc f.val c) (hs1 : ∀ t, may t → slot t < buf0.length)
    (hinj : ∀ t u, may t → may u → slot t = slot u → t = u) {r : Nat} (hrank : ∀ t, may t → rank t = r) :
    Nonempty ((passSys c slot may buf0).Live rank ⟨PassPc α, fun s t => s.pc t⟩) := by
  obtain ⟨wf, hx, -⟩ := h.spec
  have lock : ∀ s : PassState α, (passSys c slot may buf0).Reach s → ∀ t, s.lock = some t → ∃ pos, s.pc t = .loading pos :=
    fun s hr => (pass_nice hr).2 wf hx hs1 hinj
  have mk : ∀ (s s' : PassState α) (t : Nat) (p : PassPc α), PassStep c slot may s s' → s'.pc = upd s.pc t p →
      s.pc t ≠ .idle → p ≠ s.pc t → (∀ q, p ≠ .want q) → (passSys c slot may buf0).Reach s →
      (passSys c slot may buf0).step s s' ∧ s'.pc t ≠ s.pc t ∧ ∀ u, s'.pc u ≠ .idle → s.pc u ≠ .idle := by
    intro s s' t p hs e hn hp hq hr
    refine ⟨⟨hs, fun e' => hp ?_, fun u pos hu => ?_⟩, by rw [e, upd_self]; exact hp, fun u hu => ?_⟩
    · rw [← e', e, upd_self]
    · rw [e, upd_apply] at hu
      split at hu
      · exact absurd hu (hq pos)
      · exact (pass_nice hr).1 u pos (by rw [hu]; rfl)
    · by_cases e2 : u = t
      · subst e2; exact hn
      · rw [e, upd_ne _ _ e2] at hu; exact hu
  have load : ∀ s : PassState α, (passSys c slot may buf0).Reach s → ∀ t, s.lock = some t →
      ∃ s', (passSys c slot may buf0).step s s' ∧ s'.pc t ≠ s.pc t ∧ (∀ u, s'.pc u ≠ .idle → s.pc u ≠ .idle) ∧
        s'.lock = none := by
    intro s hr t ht
    obtain ⟨pos, hp⟩ := lock s hr t ht
    have inv := PassInv.reach wf hx hs1 hinj (pass_reach hr)
    have := (pass_nice hr).1 t pos (by rw [hp]; rfl)
    rw [Option.isSome_iff_exists] at this
    obtain ⟨idx, he⟩ := this
    obtain ⟨b, g1, -⟩ := pass_getBlock wf hx s.buf (slot t)
      (by rw [inv.len]; exact hs1 t (inv.busy t (by rw [hp]; nofun))) he
    obtain ⟨h1, h2, h3⟩ := mk s _ t _ (.load t pos idx b hp he g1) rfl (by rw [hp]; nofun) (by rw [hp]; nofun) nofun hr
    exact ⟨_, h1, h2, h3, rfl⟩
  have fwd : ∀ {s x : PassState α} {t : Nat}, (passSys c slot may buf0).step s x → s.pc t ≠ .idle →
      x.pc t = s.pc t ∨ (x.pc t).left < (s.pc t).left := by
    intro s x t hs hb
    obtain ⟨u, p, e, hp⟩ := pass_change hs.1 hs.2.1
    by_cases e1 : t = u
    · subst e1
      rcases hp with ⟨q, e2, -⟩ | ⟨-, e2, -⟩
      · exact absurd e2 hb
      · rw [e, upd_self]; exact .inr e2
    · rw [e, upd_ne _ _ e1]; exact .inl rfl
  refine ⟨⟨PassPc.left, fun _ hs hb => fwd hs hb, ?_, ?_, ?_, ?_, fun _ _ _ _ n => ⟨n, Nat.le_refl _, id⟩, ?_⟩⟩
  · intro s x t _ _ hne hn e
    exact hne (e.trans (not_not.1 hn).symm)
  · intro s x t _ hs hne hb
    obtain ⟨h1, h2⟩ := pass_one hs.1 hne
    refine ⟨fun u hu e => ?_, fun k u h3 h4 => ?_⟩
    · by_cases e1 : u = t
      · subst e1; exact hb e
      · exact hu ((h1 u e1).trans e)
    · cases k with
      | mpi => exact h3.elim
      | netcdf => exact (h2 u h3 h4).1
  · intro s x s2 t k hr hs hne hb h1 h2 hr2 e hb2 hfree
    cases k with
    | mpi => exact h1.elim
    | netcdf =>
      obtain ⟨-, pos, hp⟩ := (pass_one hs.1 hne).2 t h1 h2
      have may' : ∀ {u}, s2.pc u ≠ .idle → may u :=
        fun {u} hu => (PassInv.reach wf hx hs1 hinj (pass_reach hr2)).busy u hu
      have hl : s2.lock = none := by
        by_contra hn
        obtain ⟨u, hu⟩ := Option.ne_none_iff_exists'.1 hn
        obtain ⟨q, hq⟩ := lock s2 hr2 u hu
        refine hfree u ?_ hu
        rw [hrank u (may' (by rw [hq]; nofun)), hrank t (may' hb2)]
      have e : s2.pc t = s.pc t := e
      obtain ⟨h3, h4, h5⟩ := mk s2 _ t _ (.acquire t pos (e.trans hp) hl) rfl hb2 (by rw [e, hp]; nofun) nofun hr2
      refine ⟨_, h3, h4, h5, fun k u h6 h7 => ?_⟩
      cases k with
      | mpi => exact h6.elim
      | netcdf => exact ⟨rfl, (Option.some.inj h6).symm⟩
  · intro s t hr hu
    obtain ⟨x, h1, h2, h3, h4⟩ := load s hr t hu
    refine ⟨x, h1, h2, h3, fun k u hk => ?_⟩
    cases k with
    | mpi => exact hk
    | netcdf => have := (show x.lock = some u from hk); rw [h4] at this; cases this
  · intro σ h0 hc hf t n
    have hr := level_course h0 hc
    have stuck : ∀ {t n : Nat}, (∀ m, n ≤ m → (σ m).pc t ≠ .idle) →
        ∃ N, n ≤ N ∧ ∀ m, N ≤ m → ∀ x, ¬ ((passSys c slot may buf0).step (σ m) x ∧ x.pc t ≠ (σ m).pc t) := by
      intro t n hb
      have fwd' : ∀ m, ¬ ¬ (passSys c slot may buf0).busy (σ m) t → (σ (m + 1)).pc t = (σ m).pc t ∨
          ((σ (m + 1)).pc t).left < ((σ m).pc t).left := by
        intro m hm
        rcases hc m with hs | e
        · exact fwd hs (not_not.1 hm)
        · rw [e]; exact .inl rfl
      exact stuck_of_busy hf (a := t) (fun s => (PassState.pc s t).left)
        (fun m hm => by
          rcases fwd' m hm with h1 | h1
          · rw [h1]
          · exact Nat.le_of_lt h1)
        (fun m hm hmv => by
          rcases fwd' m hm with h1 | h1
          · exact absurd h1 hmv.2
          · exact h1) (n := n) (fun m hm => not_not.2 (hb m hm))
    by_contra hn
    push Not at hn
    obtain ⟨N, hN, hst⟩ := stuck hn
    -- the thread waits for the lock
    have hl : ∀ m, N ≤ m → (σ m).lock ≠ none := by
      intro m hm hl
      have inv := PassInv.reach wf hx hs1 hinj (pass_reach (hr m))
      have hb := hn m (by omega)
      have no : ∀ s' p, PassStep c slot may (σ m) s' → s'.pc = upd (σ m).pc t p → p ≠ (σ m).pc t →
          (∀ q, p ≠ .want q) → False := by
        intro s' p hs e h1 h2
        obtain ⟨h3, h4, -⟩ := mk _ s' t p hs e hb h1 h2 (hr m)
        exact hst m hm s' ⟨h3, h4⟩
      cases hp : (σ m).pc t with
      | idle => exact hb hp
      | want pos => exact no _ _ (.acquire t pos hp hl) rfl (by rw [hp]; nofun) nofun
      | loading pos => have := inv.owner t pos hp; rw [hl] at this; cases this
      | loaded pos =>
        obtain ⟨idx, -, e⟩ := inv.loaded t pos hp
        exact no _ _ (.convert t pos _ hp e) rfl (by rw [hp]; nofun) nofun
      | ret pos v => exact no _ _ (.leave t pos v hp) rfl (by rw [hp]; nofun) nofun
      | fault pos =>
        have := (pass_nice (hr m)).1 t pos (by rw [hp]; rfl)
        rw [inv.fault t pos hp] at this; cases this
    obtain ⟨u, hu⟩ := held_forever (own := fun n => (σ n).lock) (N := N) (fun n => by
      rcases hc n with hs | e
      · by_cases he : (σ (n + 1)).lock = (σ n).lock
        · exact .inl he
        right
        have hs := hs.1
        revert hs he
        generalize σ (n + 1) = s'
        intro he hs
        cases hs with
        | acquire v q hp hl => exact .inl hl
        | load => exact .inr rfl
        | loadFault => first | exact .inr rfl | exact absurd rfl he
        | _ => exact absurd rfl he
      · exact .inl (by simp only [e])) hl
    obtain ⟨M, hM, hst2⟩ := stuck (t := u) (n := N) (fun m hm e => by
      obtain ⟨pos, h1⟩ := lock _ (hr m) u (hu m hm)
      rw [h1] at e; cases e)
    obtain ⟨x, h1, h2, -⟩ := load _ (hr M) u (hu M hM)
    exact hst2 M (Nat.le_refl _) x ⟨h1, h2⟩
end

/-! ### Some threads only -/

section
variable {L : LevelSys α} {p : LevelPos L} {team : Nat → Prop} {rank' : Nat → Nat}

theorem only_busy (hS : L.Safe f) {s : L.S} (h : (L.only team).Reach s) {t : Nat} (hb : L.busy s t) : team t := by
  induction h with
  | init h => exact absurd hb (hS.fresh _ t h)
  | @step s1 s2 _ hs ih =>
    by_cases h1 : L.busy s1 t
    · exact ih h1
    · exact hs.2 t hb h1

def live_only (hS : L.Safe f) (hL : L.Live rank' p)
    (hg : ∀ t u, team t → team u → rank' t = rank' u → rank t = rank u) :
    (L.only team).Live rank ⟨p.Pos, fun s t => p.pos s t⟩ where
  left := hL.left
  forward := fun hr hs hb => hL.forward (only_reach hr) hs.1 hb
  enter := fun hr hs => hL.enter (only_reach hr) hs.1
  calm := fun hr hs => hL.calm (only_reach hr) hs.1
  acquire := by
    intro s x s2 t k hr hs hne hb h1 h2 hr2 e hb2 hfree
    obtain ⟨x2, g1, g2, g3, g4⟩ := hL.acquire (only_reach hr) hs.1 hne hb h1 h2 (only_reach hr2) e hb2
      (fun u hu huse => hfree u (hg u t (only_busy hS hr2 (hS.usesBusy _ k u (only_reach hr2) huse))
        (only_busy hS hr2 hb2) hu) huse)
    exact ⟨x2, ⟨g1, fun u h3 h4 => absurd (g3 u h3) h4⟩, g2, g3, g4⟩
  netcdf := by
    intro s t hr hu
    obtain ⟨x, g1, g2, g3, g4⟩ := hL.netcdf (only_reach hr) hu
    exact ⟨x, ⟨g1, fun u h3 h4 => absurd (g3 u h3) h4⟩, g2, g3, g4⟩
  mpi := by
    intro σ h0 hc hf t n
    have hr := level_course h0 hc
    refine hL.mpi (only_reach h0) (fun n => (hc n).imp_left (·.1)) (fair_mono hf (fun _ _ h => h)
      (fun n t _ hm => ⟨hm.1.1, hm.2⟩) (fun n t s' hb hm => ?_)) t n
    have hb := hS.usesBusy _ _ t (only_reach (hr n)) (not_not.1 hb)
    exact ⟨s', ⟨hm.1, fun u h3 h4 => absurd ((hL.calm (only_reach (hr n)) hm.1 hm.2 hb).1 u h3) h4⟩, hm.2⟩
  returns := by
    intro σ h0 hc hf t n
    have hr := level_course h0 hc
    refine hL.returns (only_reach h0) (fun n => (hc n).imp_left (·.1)) (fair_mono hf (fun _ _ h => h)
      (fun n t _ hm => ⟨hm.1.1, hm.2⟩) (fun n t s' hb hm => ?_)) t n
    exact ⟨s', ⟨hm.1, fun u h3 h4 => absurd
      ((hL.calm (only_reach (hr n)) hm.1 hm.2 (not_not.1 hb)).1 u h3) h4⟩, hm.2⟩
end

end Asagi
