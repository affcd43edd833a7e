import Verif.Proofs.ManyLevelsWin
import Verif.Proofs.ManyLevelsOnly
import Verif.Proofs.FullMsgLive
import Verif.Props.FullMsg
import Verif.Props.PassConc
import Verif.Props.SharedLive
/-
Several levels at the same time: the other kinds of levels.
-/
namespace Asagi
open Spec Props
variable {α : Type} {c : LevelCfg α} {f : OpenedFile α}

/-! ### Caches without communication between processes -/

section
variable {P : DistParams α} {st st' : DistState α}

theorem sys_quiet_dist : (P.sys c).Quiet st st' ↔ Quiet P st st' :=
  ⟨fun h => ⟨h.1, fun t e => by by_contra hn; exact h.2 t hn e⟩,
   fun h => ⟨h.1, fun t hb e => hb (h.2 t e)⟩⟩

theorem sys_run_dist {n : Nat} {st st' : (P.sys c).S} (h : (P.sys c).QuietRun n st st') : QuietRun P n st st' := by
  induction h with
  | zero => exact .zero _
  | succ _ hq ih => exact .succ ih (sys_quiet_dist.1 hq)

theorem sys_during_dist {t : Nat} {st st' : (P.sys c).S} (h : (P.sys c).During t st st') : During P t st st' := by
  induction h with
  | refl => exact .refl _
  | tail _ hs hb ih => exact .tail ih hs hb

theorem good_dist {S : SharedCfg α} (ho : Opened f.fp f.cc f.nc f.val c) (hl : Legal (c.shared S))
    (hm : (c.shared S).mode = .none) : ((c.shared S).sys c).Good f where
  fresh := by rintro s t ⟨l, -, rfl⟩ h; exact h rfl
  usesBusy := by
    intro s k t h hu
    cases k with
    | mpi => exact hu.elim
    | netcdf =>
      obtain ⟨b, off, sl, k, hp, -⟩ := reading_load hu
      intro e; rw [hp] at e; cases e
  single := by
    intro s x k t u h hs h1 h2 h3 h4
    cases k with
    | mpi => exact h1.elim
    | netcdf =>
      have hv : ∃ v, ∀ w, w ≠ v → x.pc (.user w) = s.pc (.user w) := by
        cases hs with
        | user v hu => exact ⟨v, fun w e => user_other hu (user_ne e)⟩
        | comm r hc => exact ⟨0, fun w _ => comm_other hc nofun⟩
      obtain ⟨v, hv⟩ := hv
      have e1 : t = v := by
        by_contra e; refine h2 ?_; change (s.pc (.user t)).reading; rw [← hv t e]; exact h1
      have e2 : u = v := by
        by_contra e; refine h4 ?_; change (s.pc (.user u)).reading; rw [← hv u e]; exact h3
      rw [e1, e2]
  free := by
    intro s t h hb
    obtain ⟨x, hx⟩ := C18_no_deadlock hl h t hb
    exact ⟨x, sys_quiet_dist.2 hx⟩
  mpi := fun _ _ _ hu => hu.elim
  netcdf := by
    intro s t h hu
    obtain ⟨st', hs, -, -, e3⟩ := reading_step (P := c.shared S) hu
    refine ⟨st', sys_quiet_dist.2 (quiet_user hs e3), fun k u hk => ?_⟩
    cases k with
    | mpi => exact hk
    | netcdf =>
      by_cases e : u = t
      · subst e; exact hu
      · change (st'.pc (.user u)).reading at hk
        rw [user_other hs (user_ne e)] at hk; exact hk
  bound := by
    intro s h
    obtain ⟨N, hN⟩ := C18_every_access_returns hl (by rw [hm]; nofun) h
    exact ⟨N, fun n x hr => (hN n x (sys_run_dist hr)).1⟩
  value := by
    intro s s1 s2 t pos idx v h hs hc hd hv hp
    exact C09_shared_cache_value ho S hl h t pos idx hp hc (sys_during_dist hd) v hv
end

/-! ### Distributed FULL -/

section
variable {X : XferCfg α} {data : Nat → Mem α} {x x' : XferSt α} {lib : Bool}

theorem sys_quiet_full : (X.sys c data lib).Quiet x x' ↔ XferQuiet c X data true x x' :=
  ⟨fun h => ⟨h.1, fun t e => by by_contra hn; exact h.2 t hn e⟩,
   fun h => ⟨h.1, fun t hb e => hb (h.2 t e)⟩⟩

theorem sys_run_full {n : Nat} {x x' : (X.sys c data lib).S} (h : (X.sys c data lib).QuietRun n x x') :
    XferQuietRun c X data true n x x' := by
  induction h with
  | zero => exact .zero _
  | succ _ hq ih => exact .succ ih (sys_quiet_full.1 hq)

theorem sys_during_full {t : Nat} {x x' : (X.sys c data lib).S} (h : (X.sys c data lib).During t x x') :
    XferDuring c X data t x x' := by
  induction h with
  | refl => exact .refl _
  | tail _ hs hb ih => exact .tail ih hs hb

/-- With windows, no message is received. -/
theorem win_not_storing (hw : X.win = true) (h : XferReach c X data x) : ∀ t buf, x.call t ≠ .storing buf := by
  induction h with
  | init h => obtain ⟨l, -, rfl⟩ := h; nofun
  | @step x1 x2 hr hs ih =>
    intro t buf
    have up : ∀ (u : Nat) (p : XferPc α), (∀ b, p ≠ .storing b) → upd x1.call u p t ≠ .storing buf := by
      intro u p hp
      rw [upd_apply]
      split
      · exact hp buf
      · exact ih t buf
    cases hs with
    | recv u b off s m rest hc =>
      obtain ⟨-, -, _, _, _, _, -, -, g⟩ := (XferReach.inv hr).1.hold u (by rw [hc]; nofun)
      rw [hc] at g
      rw [g.2] at hw; cases hw
    | lock u => exact up u _ nofun
    | send u => exact up u _ nofun
    | sent u => exact up u _ nofun
    | done u => exact up u _ nofun
    | winLock u => exact up u _ nofun
    | winUnlock u => exact up u _ nofun
    | leave u => exact up u _ nofun
    | _ => exact ih t buf

theorem xfer_pc_single (h : XferStep c X data true x x') :
    ∃ t, ∀ u, x'.mx (X.rankT u) = some u → x.mx (X.rankT u) ≠ some u → u = t := by
  have none : ∀ v, x'.mx = upd x.mx v none → ∃ t, ∀ u, x'.mx (X.rankT u) = some u → x.mx (X.rankT u) ≠ some u → u = t := by
    intro v e
    refine ⟨0, fun u h1 h2 => ?_⟩
    rw [e, upd_apply] at h1
    split at h1
    · cases h1
    · exact absurd h1 h2
  cases h with
  | lock t b off s =>
    refine ⟨t, fun u h1 h2 => ?_⟩
    change upd x.mx (X.rankT t) (some t) _ = _ at h1
    rw [upd_apply] at h1
    split at h1
    · exact (Option.some.inj h1).symm
    · exact absurd h1 h2
  | done t => exact none _ rfl
  | leave t => exact none _ rfl
  | _ => exact ⟨0, fun u h1 h2 => absurd h1 h2⟩

theorem good_full {s0 : FullDist α} (h : Opened f.fp f.cc f.nc f.val c) (ho : FullOpened c X.F s0)
    (hw : X.win = true ∨ lib = false) : (X.sys c s0.data lib).Good f where
  fresh := by rintro s t ⟨l, -, rfl⟩ h; exact h rfl
  usesBusy := by
    intro s k t hr hu
    cases k with
    | netcdf => exact hu.elim
    | mpi =>
      have hi := (XferReach.inv hr).1
      obtain ⟨-, -, b, off, sl, k, g, -⟩ := hi.hold t (hi.owner _ _ hu.2).2
      intro e; rw [g] at e; cases e
  single := by
    intro s x k t u hr hs h1 h2 h3 h4
    cases k with
    | netcdf => exact h1.elim
    | mpi =>
      obtain ⟨v, hv⟩ := xfer_pc_single hs
      rw [hv t h1.2 fun e => h2 ⟨h1.1, e⟩, hv u h3.2 fun e => h4 ⟨h3.1, e⟩]
  free := by
    intro s t hr hb
    obtain ⟨wf, hx, -⟩ := h.spec
    obtain ⟨x, hq⟩ := Xfer.progress wf hx ho (early := true) hr hb
    exact ⟨x, sys_quiet_full.2 hq⟩
  mpi := by
    intro x t hr hu
    replace hw : X.win = true := hw.resolve_right (by rw [hu.1]; nofun)
    have hi := (XferReach.inv hr).1
    have hn := (hi.owner _ _ hu.2).2
    obtain ⟨-, g2, b, off, s, k, g3, g4, g5⟩ := hi.hold t hn
    have hni : x.st.pc (.user t) ≠ .idle := by rw [g3]; nofun
    cases hc : x.call t with
    | out => exact absurd hc hn
    | locked => exact ⟨_, sys_quiet_full.2 (xquiet_of_same (.winLock x t hw hc) rfl), fun _ h => h⟩
    | sending tk => rw [hc] at g5; have := g5.2; rw [hw] at this; cases this
    | waiting => rw [hc] at g5; have := g5.2; rw [hw] at this; cases this
    | storing buf => exact absurd hc (win_not_storing hw hr t buf)
    | epoch =>
      by_cases hk : k < c.totalBlockSize
      · obtain ⟨-, src, f1, f2, -⟩ := C83_window_bounds h ho hr hc g3
        exact ⟨_, sys_quiet_full.2 (xquiet_of_own (.get x t b off s k src src[k] hc g3 hk f1
          (List.getElem?_eq_getElem (by omega))) hni (p := .own b off s (.load (k + 1))) rfl), fun _ h => h⟩
      · exact ⟨_, sys_quiet_full.2 (xquiet_of_same (.winUnlock x t b off s k hc g3 (by omega)) rfl), fun _ h => h⟩
    | closed =>
      refine ⟨_, sys_quiet_full.2 (xquiet_of_same (.leave x t hc) rfl), fun u hu => ⟨hu.1, ?_⟩⟩
      have := hu.2
      change upd x.mx (X.rankT t) none _ = _ at this
      rw [upd_apply] at this
      split at this
      · cases this
      · exact this
  netcdf := fun _ _ _ hu => hu.elim
  bound := by
    intro s hr
    obtain ⟨N, hN⟩ := C83_returns h ho hr true
    exact ⟨N, fun n x hq => (hN n x (sys_run_full hq)).1⟩
  value := by
    intro s s1 s2 t pos idx v hr hs hc hd hv hp
    exact C83_value h ho hr t pos idx hp hc (sys_during_full hd) v hv
end

/-! ### PASS_THROUGH -/

section
variable {slot : Nat → Nat} {may : Nat → Prop} {buf0 : Mem α} {s s' : PassState α}

/-- The position of a call. -/
def PassPc.pos : PassPc α → Option (List Dbl)
  | .idle => none
  | .want p | .loading p | .loaded p | .ret p _ | .fault p => some p

/-- Remaining steps. -/
def PassPc.left : PassPc α → Nat
  | .idle => 0 | .want _ => 4 | .loading _ => 3 | .loaded _ => 2 | .ret _ _ => 1 | .fault _ => 0

theorem pass_reach (h : (passSys c slot may buf0).Reach s) : PassReach c slot may buf0 s := by
  induction h with
  | init h => exact .init h
  | step _ hs ih => exact .step ih hs.1

/-- A step changes one thread, forward or to the beginning of a call. -/
theorem pass_change (hs : PassStep c slot may s s') (hne : s'.pc ≠ s.pc) :
    ∃ t p, s'.pc = upd s.pc t p ∧ ((∃ q, s.pc t = .idle ∧ p = .want q) ∨
      s.pc t ≠ .idle ∧ p.left < (s.pc t).left ∧ (p = .idle ∨ p.pos = (s.pc t).pos)) := by
  cases hs with
  | scribble => exact absurd rfl hne
  | call t q hm hp => exact ⟨t, _, rfl, .inl ⟨q, hp, rfl⟩⟩
  | acquire t q hp => exact ⟨t, _, rfl, .inr ⟨by rw [hp]; nofun, by rw [hp]; simp [PassPc.left], .inr (by rw [hp]; rfl)⟩⟩
  | load t q idx buf' hp => exact ⟨t, _, rfl, .inr ⟨by rw [hp]; nofun, by rw [hp]; simp [PassPc.left], .inr (by rw [hp]; rfl)⟩⟩
  | loadFault t q hp => exact ⟨t, _, rfl, .inr ⟨by rw [hp]; nofun, by rw [hp]; simp [PassPc.left], .inr (by rw [hp]; rfl)⟩⟩
  | convert t q v hp => exact ⟨t, _, rfl, .inr ⟨by rw [hp]; nofun, by rw [hp]; simp [PassPc.left], .inr (by rw [hp]; rfl)⟩⟩
  | leave t q v hp => exact ⟨t, _, rfl, .inr ⟨by rw [hp]; nofun, by rw [hp]; simp [PassPc.left], .inl rfl⟩⟩

/-- All positions are defined, and the lock belongs to a thread that is reading. -/
theorem pass_nice (h : (passSys c slot may buf0).Reach s) :
    (∀ t pos, (s.pc t).pos = some pos → (pos2index c.fp c.axes pos).isSome) ∧
    (∀ wf : c.WF, SizesExact c.fp c.file.size → (∀ t, may t → slot t < buf0.length) →
      (∀ t u, may t → may u → slot t = slot u → t = u) → ∀ t, s.lock = some t → ∃ pos, s.pc t = .loading pos) := by
  induction h with
  | init h => subst h; exact ⟨nofun, fun _ _ _ _ => nofun⟩
  | @step s s' hr hs ih =>
    obtain ⟨hs, hne, hw⟩ := hs
    obtain ⟨i1, i2⟩ := ih
    constructor
    · intro t pos h
      obtain ⟨u, p, e, hp⟩ := pass_change hs hne
      by_cases e1 : t = u
      · subst e1
        rw [e, upd_self] at h
        rcases hp with ⟨q, -, rfl⟩ | ⟨-, -, rfl | e2⟩
        · injection h with h; subst h
          exact hw t q (by rw [e, upd_self])
        · cases h
        · exact i1 t pos (e2 ▸ h)
      · rw [e, upd_ne _ _ e1] at h
        exact i1 t pos h
    · intro wf hx hs1 hinj t ht
      have i2 := i2 wf hx hs1 hinj
      have inv := PassInv.reach wf hx hs1 hinj (pass_reach hr)
      have ow := inv.owner
      cases hs with
      | scribble => exact i2 t ht
      | load => cases ht
      | loadFault u q hp hb =>
        have := i1 u q (by rw [hp]; rfl)
        rw [Option.isSome_iff_exists] at this
        obtain ⟨idx, he⟩ := this
        obtain ⟨b, g1, -⟩ := pass_getBlock wf hx s.buf (slot u)
          (by rw [inv.len]; exact hs1 u (inv.busy u (by rw [hp]; nofun))) he
        rw [hb idx he] at g1; cases g1
      | acquire u q hp hl =>
        injection ht with ht; subst ht
        exact ⟨q, upd_self _ _ _⟩
      | call u q hm hp =>
        obtain ⟨pos, h⟩ := i2 t ht
        exact ⟨pos, (upd_ne s.pc _ (by rintro rfl; rw [hp] at h; cases h)).trans h⟩
      | convert u q v hp =>
        obtain ⟨pos, h⟩ := i2 t ht
        exact ⟨pos, (upd_ne s.pc _ (by rintro rfl; rw [hp] at h; cases h)).trans h⟩
      | leave u q v hp =>
        obtain ⟨pos, h⟩ := i2 t ht
        exact ⟨pos, (upd_ne s.pc _ (by rintro rfl; rw [hp] at h; cases h)).trans h⟩

theorem good_pass (h : Opened f.fp f.cc f.nc f.val c) (hs1 : ∀ t, may t → slot t < buf0.length)
    (hinj : ∀ t u, may t → may u → slot t = slot u → t = u) : (passSys c slot may buf0).Good f := by
  obtain ⟨wf, hx, h1, h2, h3⟩ := h.spec
  have lock : ∀ s : PassState α, (passSys c slot may buf0).Reach s → ∀ t, s.lock = some t → ∃ pos, s.pc t = .loading pos :=
    fun s hr => (pass_nice hr).2 wf hx hs1 hinj
  have mk : ∀ (s s' : PassState α) (t : Nat) (p : PassPc α), PassStep c slot may s s' → s'.pc = upd s.pc t p →
      s.pc t ≠ .idle → p ≠ s.pc t → (∀ q, p ≠ .want q) → (passSys c slot may buf0).Reach s →
      (passSys c slot may buf0).Quiet s s' := by
    intro s s' t p hs e hn hp hq hr
    refine ⟨⟨hs, fun e' => hp ?_, fun u pos hu => ?_⟩, fun u hu => ?_⟩
    · rw [← e', e, upd_self]
    · rw [e, upd_apply] at hu
      split at hu
      · exact absurd hu (hq pos)
      · exact (pass_nice hr).1 u pos (by rw [hu]; rfl)
    · change s'.pc u ≠ .idle at hu
      change s.pc u ≠ .idle
      by_cases e2 : u = t
      · subst e2; exact hn
      · rw [e, upd_ne _ _ e2] at hu; exact hu
  have load : ∀ s : PassState α, (passSys c slot may buf0).Reach s → ∀ t, s.lock = some t →
      ∃ s', (passSys c slot may buf0).Quiet s s' ∧ s'.lock = none := by
    intro s hr t ht
    obtain ⟨pos, hp⟩ := lock s hr t ht
    have inv := PassInv.reach wf hx hs1 hinj (pass_reach hr)
    have := (pass_nice hr).1 t pos (by rw [hp]; rfl)
    rw [Option.isSome_iff_exists] at this
    obtain ⟨idx, he⟩ := this
    obtain ⟨b, g1, -⟩ := pass_getBlock wf hx s.buf (slot t)
      (by rw [inv.len]; exact hs1 t (inv.busy t (by rw [hp]; nofun))) he
    exact ⟨_, mk s _ t _ (.load t pos idx b hp he g1) rfl (by rw [hp]; nofun) (by rw [hp]; nofun) nofun hr, rfl⟩
  constructor
  case' toSafe => constructor
  case fresh => intro s t h hn; change s = _ at h; subst h; exact hn rfl
  case usesBusy =>
    intro s k t hr hu
    cases k with
    | mpi => exact hu.elim
    | netcdf => obtain ⟨pos, hp⟩ := lock s hr t hu; intro e; rw [hp] at e; cases e
  case single =>
    intro s x k t u _ _ h1 _ h3 _
    cases k with
    | mpi => exact h1.elim
    | netcdf => exact Option.some.inj ((show x.lock = some t from h1).symm.trans h3)
  case free =>
    intro s t hr hb
    cases hl : s.lock with
    | some u => obtain ⟨x, hq, -⟩ := load s hr u hl; exact ⟨x, hq⟩
    | none =>
      have inv := PassInv.reach wf hx hs1 hinj (pass_reach hr)
      cases hp : s.pc t with
      | idle => exact absurd hp hb
      | want pos => exact ⟨_, mk s _ t _ (.acquire t pos hp hl) rfl hb (by rw [hp]; nofun) nofun hr⟩
      | loading pos => have := inv.owner t pos hp; rw [hl] at this; cases this
      | loaded pos =>
        obtain ⟨idx, -, e⟩ := inv.loaded t pos hp
        exact ⟨_, mk s _ t _ (.convert t pos _ hp e) rfl hb (by rw [hp]; nofun) nofun hr⟩
      | ret pos v => exact ⟨_, mk s _ t _ (.leave t pos v hp) rfl hb (by rw [hp]; nofun) nofun hr⟩
      | fault pos =>
        have := (pass_nice hr).1 t pos (by rw [hp]; rfl)
        rw [inv.fault t pos hp] at this; cases this
  case mpi => exact fun _ _ _ hu => hu.elim
  case netcdf =>
    intro s t hr hu
    obtain ⟨x, hq, e⟩ := load s hr t hu
    refine ⟨x, hq, fun k u hk => ?_⟩
    cases k with
    | mpi => exact hk
    | netcdf => have := (show x.lock = some u from hk); rw [e] at this; cases this
  case bound =>
    intro s hr
    have fin : ∃ L : List Nat, ∀ t, s.pc t ≠ .idle → t ∈ L := by
      clear mk load lock
      induction hr with
      | init h => change _ = _ at h; subst h; exact ⟨[], fun t ht => absurd rfl ht⟩
      | @step s1 s2 _ hs ih =>
        obtain ⟨L, hL⟩ := ih
        obtain ⟨u, p, e, -⟩ := pass_change hs.1 hs.2.1
        refine ⟨u :: L, fun t ht => ?_⟩
        by_cases htu : t = u
        · subst htu; exact List.mem_cons_self
        · rw [e, upd_ne _ _ htu] at ht
          exact List.mem_cons_of_mem _ (hL t ht)
    obtain ⟨L, hL⟩ := fin
    refine ⟨(L.map fun t => (s.pc t).left).sum, fun n x hq => ?_⟩
    have key : (∀ t, x.pc t ≠ .idle → t ∈ L) ∧
        n + (L.map fun t => (x.pc t).left).sum ≤ (L.map fun t => (s.pc t).left).sum := by
      clear mk load lock
      induction hq with
      | zero => exact ⟨hL, by omega⟩
      | @succ n s s1 s2 _ hq ih =>
        obtain ⟨i1, i2⟩ := ih hr hL
        refine ⟨fun t ht => i1 t (hq.2 t ht), ?_⟩
        obtain ⟨u, p, e, hp⟩ := pass_change hq.1.1 hq.1.2.1
        rcases hp with ⟨q, e1, e2⟩ | ⟨e1, e2, -⟩
        · exfalso
          refine hq.2 u ?_ e1
          change s2.pc u ≠ .idle
          rw [e, upd_self, e2]; nofun
        · have := sum_lt (L := L) (g := fun t => (PassState.pc s2 t).left) (f := fun t => (PassState.pc s1 t).left) (u := u) (fun y => ?_) (i1 u e1) ?_
          · omega
          · rw [e, upd_apply]
            split
            · next h => subst h; omega
            · exact Nat.le_refl _
          · rw [e, upd_self]; exact e2
    omega
  case value =>
    intro s s1 s2 t pos idx v hr hs hc hd hv hp
    obtain ⟨pos', hv⟩ := hv
    have hr2 : (passSys c slot may buf0).Reach s2 ∧ ((s2.pc t).pos = some pos) := by
      have hr1 : (passSys c slot may buf0).Reach s1 := .step hr hs
      have h0 : (s1.pc t).pos = some pos := by
        obtain ⟨-, e⟩ := hc
        rw [e]
        change (upd s.pc t (.want pos) t).pos = _
        rw [upd_self]; rfl
      clear hv mk load lock hc hs
      induction hd with
      | refl => exact ⟨hr1, h0⟩
      | tail _ hst hb ih =>
        obtain ⟨i1, i2⟩ := ih
        refine ⟨.step i1 hst, ?_⟩
        obtain ⟨u, p, e, hp⟩ := pass_change hst.1 hst.2.1
        rw [e, upd_apply]
        split
        · next h =>
          subst h
          rcases hp with ⟨q, e1, -⟩ | ⟨-, -, e2 | e2⟩
          · rw [e1] at i2; cases i2
          · exact absurd (by rw [e, upd_self, e2]) hb
          · rw [e2]; exact i2
        · exact i2
    have inv := PassInv.reach wf hx hs1 hinj (pass_reach hr2.1)
    obtain ⟨idx', e1, e2⟩ := inv.ret t pos' v hv
    have := hr2.2
    rw [hv] at this
    injection this with this
    subst this
    rw [h2, h1, hp] at e1
    injection e1 with e1
    subst e1
    rw [e2, h3]
end

/-- All kinds of levels have what is needed. -/
theorem good_proper {rank : Nat → Nat} {L : LevelSys α} (h : ProperLevel rank f L) : L.Good f := by
  induction h with
  | cacheWindow c S C ho hP hC _ => exact good_win ho hP hC
  | cache c S ho hl hm _ => exact good_dist ho hl hm
  | full c X s0 lib ho hf hw _ => exact good_full ho hf (.inl hw)
  | passThrough c slot r team buf0 ho _ h1 h2 => exact good_pass ho h1 h2
  | some L R rank' team _ _ _ ih => exact good_only ih

end Asagi
