import Verif.Spec.ManySessions
import Verif.Proofs.ManyLevelsOther
import Verif.Props.SessionComm
/-
Several sessions at the same time: each selected implementation has what is needed of a level.
-/
namespace Asagi
open Spec Props
variable {α : Type} {L : LevelSys α} {f : OpenedFile α}

/-- Calls are possible, and end with a value. -/
structure LevelSys.Usable (L : LevelSys α) (can : Nat → List Dbl → Prop) : Prop where
  calledBusy : ∀ t pos s x, L.called t pos s x → ¬ L.busy s t ∧ L.busy x t
  returnsBusy : ∀ t s v, L.returns t s v → L.busy s t
  leaves : ∀ s x t, L.Reach s → L.step s x → L.busy s t → ¬ L.busy x t → ∃ v, L.returns t s v
  canCall : ∀ s t pos, L.Reach s → ¬ L.busy s t → can t pos → ∃ x, L.step s x ∧ L.called t pos s x ∧
    (∀ u, L.busy x u → L.busy s u ∨ u = t) ∧ ∀ k u, L.uses k x u → L.uses k s u

/-! ### Some threads only -/

section
variable {team : Nat → Prop}

theorem usable_only {can : Nat → List Dbl → Prop} (h : L.Usable can) :
    (L.only team).Usable fun t pos => can t pos ∧ team t where
  calledBusy := h.calledBusy
  returnsBusy := h.returnsBusy
  leaves := fun s x t hr hs => h.leaves s x t (only_reach hr) hs.1
  canCall := fun s t pos hr hb hc => by
    obtain ⟨x, h1, h2, h3, h4⟩ := h.canCall s t pos (only_reach hr) hb hc.1
    refine ⟨x, ⟨h1, fun u hu hn => ?_⟩, h2, h3, h4⟩
    rcases h3 u hu with e | e
    · exact absurd e hn
    · rw [e]; exact hc.2
end

/-! ### Direct reads -/

section
variable {read : Nat → List Dbl → Option α}

/-- A thread is in one access only, and finitely many threads read directly. -/
theorem local_inv {s : (L.withLocal read).S} (h : (L.withLocal read).Reach s) :
    L.Reach s.1 ∧ (∀ t, L.busy s.1 t → s.2 t = none) ∧ ∃ M : List Nat, ∀ t, s.2 t ≠ none → t ∈ M := by
  induction h with
  | init h => exact ⟨.init h.1, fun t _ => h.2 t, [], fun t ht => absurd (h.2 t) ht⟩
  | @step s x _ hs ih =>
    obtain ⟨i1, i2, M, i3⟩ := ih
    rcases hs with ⟨h1, h2, h3⟩ | ⟨h1, t, ⟨h2, h3, pos, v, h4, h5⟩ | ⟨h2, h3⟩⟩
    · refine ⟨.step i1 h1, fun t ht => ?_, M, fun t ht => i3 t ?_⟩
      · rw [h2]; exact h3 t ht
      · rw [h2] at ht; exact ht
    · refine ⟨by rw [h1]; exact i1, fun u hu => ?_, t :: M, fun u hu => ?_⟩
      · rw [h1] at hu
        rw [h5, upd_ne _ _ (by rintro rfl; exact h2 hu)]
        exact i2 u hu
      · by_cases e : u = t
        · subst e; exact List.mem_cons_self
        · rw [h5, upd_ne _ _ e] at hu
          exact List.mem_cons_of_mem _ (i3 u hu)
    · refine ⟨by rw [h1]; exact i1, fun u hu => ?_, M, fun u hu => i3 u ?_⟩
      · rw [h1] at hu
        rw [h3, upd_apply]
        split
        · rfl
        · exact i2 u hu
      · rw [h3, upd_apply] at hu
        split at hu
        · exact absurd rfl hu
        · exact hu

theorem local_quiet {s : L.S × (Nat → Option α)} {x : L.S} (hi : ∀ t, L.busy s.1 t → s.2 t = none)
    (h : L.Quiet s.1 x) : (L.withLocal read).Quiet s (x, s.2) :=
  ⟨.inl ⟨h.1, rfl, fun t ht => hi t (h.2 t ht)⟩, fun t ht => by
    rcases ht with ht | ht
    · exact .inl (h.2 t ht)
    · exact .inr ht⟩

/-- Number of direct reads. -/
def localLeft (M : List Nat) (l : Nat → Option α) : Nat :=
  (M.map fun t => if (l t).isSome then 1 else 0).sum

theorem safe_local (hg : L.Safe f) {can : Nat → List Dbl → Prop} (hus : L.Usable can)
    (hread : ∀ t pos v idx, read t pos = some v →
      pos2index f.fp (openAxes f.fp f.cc f.nc) pos = some idx → v = f.val idx) :
    (L.withLocal read).Safe f where
  fresh := fun s t h hb => by
    rcases hb with hb | hb
    · exact hg.fresh _ t h.1 hb
    · exact hb (h.2 t)
  usesBusy := fun s k t hr hu => .inl (hg.usesBusy s.1 k t (local_inv hr).1 hu)
  single := fun s x k t u hr hs h1 h2 h3 h4 => by
    rcases hs with ⟨hs, -⟩ | ⟨e, -⟩
    · exact hg.single _ _ k t u (local_inv hr).1 hs h1 h2 h3 h4
    · refine absurd ?_ h2
      change L.uses k s.1 t
      rw [← e]; exact h1
  value := fun s s1 s2 t pos idx v hr hs hc hd hv hp => by
    obtain ⟨h1, h2, -⟩ := local_inv hr
    rcases hc with ⟨hc, e0, e1⟩ | ⟨e1, e2, e3, w, e4, e5⟩
    · have hst : L.step s.1 s1.1 := by
        rcases hs with ⟨hs, -⟩ | ⟨e, -⟩
        · exact hs
        · rw [e] at hc
          exact absurd (hus.calledBusy _ _ _ _ hc).2 (hus.calledBusy _ _ _ _ hc).1
      have hb := (hus.calledBusy _ _ _ _ hc).2
      have key : L.During t s1.1 s2.1 ∧ L.busy s2.1 t ∧ s2.2 t = none := by
        have h0 : s1.2 t = none := by rw [e1]; exact e0
        clear hv hc hs hst e1
        induction hd with
        | refl => exact ⟨.refl _, hb, h0⟩
        | @tail x y _ hs hbu ih =>
          obtain ⟨i1, i2, i3⟩ := ih
          rcases hs with ⟨a1, a2, a3⟩ | ⟨a1, u, ⟨a2, a3, pos, v, a4, a5⟩ | ⟨a2, a3⟩⟩
          · have e : y.2 t = none := by rw [a2]; exact i3
            have hb' : L.busy y.1 t := hbu.resolve_right fun h => h e
            exact ⟨.tail i1 a1 hb', hb', e⟩
          · have hne : t ≠ u := by rintro rfl; exact a2 i2
            exact ⟨by rw [a1]; exact i1, by rw [a1]; exact i2, by rw [a5, upd_ne _ _ hne]; exact i3⟩
          · have hne : t ≠ u := by rintro rfl; exact a2 i3
            exact ⟨by rw [a1]; exact i1, by rw [a1]; exact i2, by rw [a3, upd_ne _ _ hne]; exact i3⟩
      obtain ⟨k1, -, k3⟩ := key
      rcases hv with hv | hv
      · exact hg.value _ _ _ t pos idx v h1 hst hc k1 hv hp
      · rw [k3] at hv; cases hv
    · have key : s2.2 t = some w ∧ (L.withLocal read).Reach s2 := by
        have h0 : s1.2 t = some w := by rw [e5, upd_self]
        have hr1 : (L.withLocal read).Reach s1 := .step hr hs
        clear hv hs e1 e5
        induction hd with
        | refl => exact ⟨h0, hr1⟩
        | @tail x y _ hs hbu ih =>
          obtain ⟨i1, i2⟩ := ih
          refine ⟨?_, .step i2 hs⟩
          rcases hs with ⟨a1, a2, a3⟩ | ⟨a1, u, ⟨a2, a3, pos, v, a4, a5⟩ | ⟨a2, a3⟩⟩
          · rw [a2]; exact i1
          · rw [a5, upd_ne _ _ (by rintro rfl; rw [i1] at a3; cases a3)]; exact i1
          · by_cases e : t = u
            · subst e
              exfalso
              rcases hbu with hbu | hbu
              · rw [a1] at hbu
                have := (local_inv i2).2.1 t hbu
                rw [i1] at this; cases this
              · rw [a3, upd_self] at hbu; exact hbu rfl
            · rw [a3, upd_ne _ _ e]; exact i1
      obtain ⟨k1, k2⟩ := key
      rcases hv with hv | hv
      · have := (local_inv k2).2.1 t (hus.returnsBusy _ _ _ hv)
        rw [k1] at this; cases this
      · rw [k1] at hv
        injection hv with hv
        rw [← hv]
        exact hread t pos w idx e4 hp

theorem good_local (hg : L.Good f) {can : Nat → List Dbl → Prop} (hus : L.Usable can)
    (hread : ∀ t pos v idx, read t pos = some v →
      pos2index f.fp (openAxes f.fp f.cc f.nc) pos = some idx → v = f.val idx) :
    (L.withLocal read).Good f where
  toSafe := safe_local hg.toSafe hus hread
  free := fun s t hr hb => by
    obtain ⟨h1, h2, -⟩ := local_inv hr
    rcases hb with hb | hb
    · obtain ⟨x, hq⟩ := hg.free _ t h1 hb
      exact ⟨_, local_quiet h2 hq⟩
    · refine ⟨(s.1, upd s.2 t none), .inr ⟨rfl, t, .inr ⟨hb, rfl⟩⟩, fun u hu => ?_⟩
      rcases hu with hu | hu
      · exact .inl hu
      · refine .inr ?_
        change upd s.2 t none u ≠ none at hu
        rw [upd_apply] at hu
        split at hu
        · exact absurd rfl hu
        · exact hu
  mpi := fun s t hr hu => by
    obtain ⟨h1, h2, -⟩ := local_inv hr
    obtain ⟨x, hq, e⟩ := hg.mpi _ t h1 hu
    exact ⟨_, local_quiet h2 hq, e⟩
  netcdf := fun s t hr hu => by
    obtain ⟨h1, h2, -⟩ := local_inv hr
    obtain ⟨x, hq, e⟩ := hg.netcdf _ t h1 hu
    exact ⟨_, local_quiet h2 hq, e⟩
  bound := fun s hr => by
    obtain ⟨h1, h2, M, h3⟩ := local_inv hr
    obtain ⟨N, hN⟩ := hg.bound _ h1
    refine ⟨N + localLeft M s.2, fun n x hq => ?_⟩
    have key : ∃ m, L.QuietRun m s.1 x.1 ∧ n + localLeft M x.2 ≤ m + localLeft M s.2 ∧
        (∀ t, L.busy x.1 t → x.2 t = none) ∧ (∀ t, x.2 t ≠ none → t ∈ M) := by
      induction hq with
      | zero => exact ⟨0, .zero _, Nat.le_refl _, h2, h3⟩
      | @succ n s x y _ hq ih =>
        obtain ⟨m, i1, i2, i3, i4⟩ := ih hr h1 h2 h3 hN
        obtain ⟨hs, hq⟩ := hq
        rcases hs with ⟨e1, e2, e3⟩ | ⟨e1, t, ⟨e2, e3, pos, v, e4, e5⟩ | ⟨e2, e3⟩⟩
        · refine ⟨m + 1, .succ i1 ⟨e1, fun t ht => ?_⟩, by rw [e2]; omega, fun t ht => ?_, fun t ht => i4 t ?_⟩
          · rcases hq t (.inl ht) with h | h
            · exact h
            · exact absurd (e3 t ht) h
          · rw [e2]; exact e3 t ht
          · rw [e2] at ht; exact ht
        · exfalso
          rcases hq t (.inr (by rw [e5, upd_self]; nofun)) with h | h
          · exact e2 h
          · exact h e3
        · have hlt : localLeft M y.2 < localLeft M x.2 := by
            refine sum_lt (u := t) (fun u => ?_) (i4 t e2) ?_
            · rw [e3, upd_apply]
              split
              · simp
              · exact Nat.le_refl _
            · rw [e3, upd_self]
              cases hx : x.2 t with
              | none => exact absurd hx e2
              | some v => simp
          refine ⟨m, by rw [e1]; exact i1, by omega, fun u hu => ?_, fun u hu => i4 u ?_⟩
          · rw [e1] at hu
            rw [e3, upd_apply]
            split
            · rfl
            · exact i3 u hu
          · rw [e3, upd_apply] at hu
            split at hu
            · exact absurd rfl hu
            · exact hu
    obtain ⟨m, k1, k2, -⟩ := key
    have := hN m x.1 k1
    omega

theorem usable_local {can can' : Nat → List Dbl → Prop} (hus : L.Usable can)
    (hc : ∀ t pos, can' t pos → (read t pos).isSome ∨ can t pos) : (L.withLocal read).Usable can' where
  calledBusy := fun t pos s x h => by
    rcases h with ⟨h1, h2, h3⟩ | ⟨-, h1, h2, v, -, h3⟩
    · obtain ⟨e1, e2⟩ := hus.calledBusy _ _ _ _ h1
      exact ⟨fun h => h.elim e1 fun h => h h2, .inl e2⟩
    · exact ⟨fun h => h.elim h1 fun h => h h2, .inr (by rw [h3, upd_self]; nofun)⟩
  returnsBusy := fun t s v h => by
    rcases h with h | h
    · exact .inl (hus.returnsBusy _ _ _ h)
    · exact .inr (by rw [h]; nofun)
  leaves := fun s x t hr hs hb hn => by
    obtain ⟨h1, h2, -⟩ := local_inv hr
    rcases hb with hb | hb
    · have hn' : ¬ L.busy x.1 t := fun h => hn (.inl h)
      rcases hs with ⟨hs, -⟩ | ⟨e, -⟩
      · obtain ⟨v, hv⟩ := hus.leaves _ _ t h1 hs hb hn'
        exact ⟨v, .inl hv⟩
      · rw [e] at hn'; exact absurd hb hn'
    · cases hv : s.2 t with
      | none => exact absurd hv hb
      | some v => exact ⟨v, .inr hv⟩
  canCall := fun s t pos hr hb h => by
    obtain ⟨h1, h2, -⟩ := local_inv hr
    have hb1 : ¬ L.busy s.1 t := fun h => hb (.inl h)
    have hb2 : s.2 t = none := by
      by_contra h; exact hb (.inr h)
    rcases hc t pos h with h | h
    · obtain ⟨v, hv⟩ := Option.isSome_iff_exists.1 h
      refine ⟨(s.1, upd s.2 t (some v)), .inr ⟨rfl, t, .inl ⟨hb1, hb2, pos, v, hv, rfl⟩⟩,
        .inr ⟨rfl, hb1, hb2, v, hv, rfl⟩, fun u hu => ?_, fun _ _ h => h⟩
      by_cases e : u = t
      · exact .inr e
      · rcases hu with hu | hu
        · exact .inl (.inl hu)
        · change upd s.2 t (some v) u ≠ none at hu
          rw [upd_ne _ _ e] at hu
          exact .inl (.inr hu)
    · obtain ⟨x, e1, e2, e3, e4⟩ := hus.canCall _ t pos h1 hb1 h
      refine ⟨(x, s.2), .inl ⟨e1, rfl, fun u hu => ?_⟩, .inl ⟨e2, hb2, rfl⟩, fun u hu => ?_, e4⟩
      · rcases e3 u hu with h | h
        · exact h2 u h
        · rw [h]; exact hb2
      · rcases hu with hu | hu
        · rcases e3 u hu with h | h
          · exact .inl (.inl h)
          · exact .inr h
        · exact .inl (.inr hu)
end

/-! ### The kinds of levels -/

theorem good_none : (LevelSys.none : LevelSys α).Good f where
  fresh := fun _ _ _ h => h
  usesBusy := fun _ _ _ _ h => h
  single := fun _ _ _ _ _ _ h => h.elim
  free := fun _ _ _ h => h.elim
  mpi := fun _ _ _ h => h.elim
  netcdf := fun _ _ _ h => h.elim
  bound := fun s _ => ⟨0, fun n x h => by cases h with
    | zero => exact Nat.le_refl _
    | succ _ hq => exact hq.1.elim⟩
  value := fun _ _ _ _ _ _ _ _ h => h.elim

theorem usable_none : (LevelSys.none : LevelSys α).Usable fun _ _ => False where
  calledBusy := fun _ _ _ _ h => h.elim
  returnsBusy := fun _ _ _ h => h.elim
  leaves := fun _ _ _ _ h => h.elim
  canCall := fun _ _ _ _ _ h => h.elim

theorem returns_busy {t : Nat} {st : DistState α} {v : α} (h : GetterReturns t st v) :
    st.pc (.user t) ≠ .idle := by
  obtain ⟨b, off, s, h⟩ := h
  rw [h]; nofun

theorem called_busy {c : LevelCfg α} {t : Nat} {pos : List Dbl} {st st' : DistState α} (h : GetterCalled c t pos st st') :
    ¬ st.pc (.user t) ≠ .idle ∧ st'.pc (.user t) ≠ .idle := by
  obtain ⟨idx, -, h1, rfl⟩ := h
  refine ⟨fun h => h h1, fun h => ?_⟩
  change upd _ _ _ _ = _ at h
  rw [upd_self] at h; cases h

theorem call_others {pc : Agent → Pc α} {t : Nat} {p : Pc α} (u : Nat)
    (h : upd pc (.user t) p (.user u) ≠ .idle) : pc (.user u) ≠ .idle ∨ u = t := by
  by_cases e : u = t
  · exact .inr e
  · rw [upd_ne _ _ (user_ne e)] at h; exact .inl h

theorem call_reading {pc : Agent → Pc α} {t b off : Nat} (u : Nat)
    (h : (upd pc (.user t) (.wantCm b off) (.user u)).reading) : (pc (.user u)).reading := by
  by_cases e : u = t
  · subst e; rw [upd_self] at h; exact h.elim
  · rw [upd_ne _ _ (user_ne e)] at h; exact h

theorem usable_dist {c : LevelCfg α} {S : SharedCfg α} (wf : c.WF) (hx : SizesExact c.fp c.file.size) :
    ((c.shared S).sys c).Usable fun _ pos => (pos2index c.fp c.axes pos).isSome where
  calledBusy := fun _ _ _ _ h => called_busy h
  returnsBusy := fun _ _ _ h => returns_busy h
  leaves := fun s x t _ hs hb hn => step_idle hs hb (by by_contra h; exact hn h)
  canCall := fun s t pos _ hb h => by
    obtain ⟨idx, hidx⟩ := Option.isSome_iff_exists.1 h
    have hi : DistState.pc s (.user t) = .idle := by by_contra h; exact hb h
    refine ⟨_, .user t (.call s t _ _ hi (shared_inside wf S (pos2index_inBox wf hx hidx))),
      ⟨idx, hidx, hi, rfl⟩, fun u hu => call_others u hu, fun k u hu => ?_⟩
    cases k with
    | mpi => exact hu
    | netcdf => exact call_reading u hu

theorem usable_win {c : LevelCfg α} {S : SharedCfg α} {C : WinParams α} (wf : c.WF)
    (hx : SizesExact c.fp c.file.size) (hP : C.P = c.shared S) (hC : LegalWin C) :
    (C.sys c).Usable fun t pos => (pos2index c.fp c.axes pos).isSome ∧ C.tid t < C.total where
  calledBusy := fun _ _ _ _ h => called_busy h
  returnsBusy := fun _ _ _ h => returns_busy h
  leaves := fun s x t hr hs hb hn => win_step_idle hC hr hs hb (by by_contra h; exact hn h)
  canCall := fun s t pos _ hb h => by
    obtain ⟨idx, hidx⟩ := Option.isSome_iff_exists.1 h.1
    have hi : (WinState.st s).pc (.user t) = .idle := by by_contra h; exact hb h
    refine ⟨_, .plain s t _ h.2 (by rw [hi]; rfl) (by rw [hi]; rfl) (.call _ t _ _ hi
      (by rw [hP]; exact shared_inside wf S (pos2index_inBox wf hx hidx))),
      ⟨idx, hidx, hi, rfl⟩, fun u hu => call_others u hu, fun k u hu => ?_⟩
    cases k with
    | mpi => exact hu
    | netcdf => exact call_reading u hu

theorem usable_full {c : LevelCfg α} {X : XferCfg α} {s0 : FullDist α} {lib : Bool} (wf : c.WF)
    (hx : SizesExact c.fp c.file.size) (hF : FullOpened c X.F s0) :
    (X.sys c s0.data lib).Usable fun t pos => ∃ idx, pos2index c.fp c.axes pos = some idx ∧
      ¬ X.F.isLocal c t (blockByCoords c.geom idx) where
  calledBusy := fun t pos s x h => by
    obtain ⟨st', ⟨idx, -, -, h1, rfl⟩, rfl⟩ := h
    refine ⟨fun h => h h1, fun h => ?_⟩
    change upd _ _ _ _ = _ at h
    rw [upd_self] at h; cases h
  returnsBusy := fun _ _ _ h => returns_busy h
  leaves := fun s x t hr hs hb hn => by
    have hi : (XferSt.st x).pc (.user t) = .idle := by by_contra h; exact hn h
    rcases (C83_refines hr).2 _ _ hs with e | e
    · rw [e] at hi; exact absurd hi hb
    · exact step_idle (e.dist wf hx hF) hb hi
  canCall := fun s t pos _ hb h => by
    obtain ⟨idx, hidx, hloc⟩ := h
    have hi : (XferSt.st s).pc (.user t) = .idle := by by_contra h; exact hb h
    have hc : FullCalled c X.F t pos (XferSt.st s) _ := ⟨idx, hidx, hloc, hi, rfl⟩
    exact ⟨_, .call s t pos _ hc, ⟨_, hc, rfl⟩, fun u hu => call_others u hu, fun k u hu => by cases k <;> exact hu⟩

theorem usable_pass {c : LevelCfg α} {slot : Nat → Nat} {may : Nat → Prop} {buf0 : Mem α} :
    (passSys c slot may buf0).Usable fun t pos => (pos2index c.fp c.axes pos).isSome ∧ may t where
  calledBusy := fun t pos s x h => by
    obtain ⟨h1, rfl⟩ := h
    refine ⟨fun h => h h1, fun h => ?_⟩
    change upd _ _ _ _ = _ at h
    rw [upd_self] at h; cases h
  returnsBusy := fun t s v h hi => by
    obtain ⟨pos, h⟩ := h
    rw [h] at hi; cases hi
  leaves := fun s x t hr hs hb hn => by
    have hi : PassState.pc x t = .idle := by by_contra h; exact hn h
    have same : PassState.pc x t = PassState.pc s t → ∃ v, (passSys c slot may buf0).returns t s v :=
      fun e => absurd (e.symm.trans hi) hb
    have other : ∀ u p, p ≠ .idle → PassState.pc x = upd (PassState.pc s) u p →
        ∃ v, (passSys c slot may buf0).returns t s v := by
      intro u p hp e
      by_cases hu : t = u
      · rw [e, hu, upd_self] at hi; exact absurd hi hp
      · exact same (by rw [e, upd_ne _ _ hu])
    obtain ⟨hs, -, -⟩ := hs
    cases hs with
    | leave u q v hp =>
      by_cases hu : t = u
      · subst hu; exact ⟨v, q, hp⟩
      · exact same (upd_ne _ _ hu)
    | scribble => exact same rfl
    | call u q => exact other u _ (by nofun) rfl
    | acquire u q => exact other u _ (by nofun) rfl
    | load u q => exact other u _ (by nofun) rfl
    | loadFault u q => exact other u _ (by nofun) rfl
    | convert u q => exact other u _ (by nofun) rfl
  canCall := fun s t pos hr hb h => by
    have hi : PassState.pc s t = .idle := by by_contra h; exact hb h
    refine ⟨_, ⟨.call t pos h.2 hi, fun e => ?_, fun u q hu => ?_⟩, ⟨hi, rfl⟩, fun u hu => ?_, fun k u hu => ?_⟩
    · have := congrFun e t
      change upd _ _ _ _ = _ at this
      rw [upd_self, hi] at this; cases this
    · change upd _ _ _ _ = _ at hu
      by_cases e : u = t
      · subst e; rw [upd_self] at hu; cases hu; exact h.1
      · rw [upd_ne _ _ e] at hu
        exact (pass_nice hr).1 u q (by rw [hu]; rfl)
    · change upd _ _ _ _ ≠ _ at hu
      by_cases e : u = t
      · exact .inr e
      · rw [upd_ne _ _ e] at hu; exact .inl hu
    · cases k <;> exact hu

/-- The block is in the memory of the domain of the thread. -/
theorem localRead_some {V : OpenLevel α} {fp : Fp} {cc : Bool} {nc : List NcAxis} {val : List Nat → α} {s0 : FullDist α}
    (hO : Opened fp cc nc val V.c) (hF : FullOpened V.c (V.S.full V.sel) s0) {t : Nat} {pos : List Dbl} {idx : List Nat}
    (hi : pos2index fp (openAxes fp cc nc) pos = some idx)
    (hloc : (V.S.full V.sel).isLocal V.c t (blockByCoords V.c.geom idx)) : V.localRead s0 t pos = some (val idx) := by
  obtain ⟨wf, hx', hfp, hax, hval⟩ := hO.spec
  obtain ⟨l, _, hl, -⟩ := CacheList.init_inv hF.size hF.hand
  have := (C07_concurrent_value hO hF (.init ⟨l, hl, rfl⟩) t pos idx hi).1 hloc
  unfold OpenLevel.localRead
  rw [hfp, hax, hi, Option.bind_some, if_pos hloc]
  exact this

theorem localRead_value {V : OpenLevel α} {fp : Fp} {cc : Bool} {nc : List NcAxis} {val : List Nat → α} {s0 : FullDist α}
    (hO : Opened fp cc nc val V.c) (hF : FullOpened V.c (V.S.full V.sel) s0) {t : Nat} {pos : List Dbl} {idx : List Nat}
    {v : α} (hv : V.localRead s0 t pos = some v) (hi : pos2index fp (openAxes fp cc nc) pos = some idx) : v = val idx := by
  by_cases hloc : (V.S.full V.sel).isLocal V.c t (blockByCoords V.c.geom idx)
  · rw [localRead_some hO hF hi hloc] at hv
    exact (Option.some.inj hv).symm
  · obtain ⟨wf, hx', hfp, hax, hval⟩ := hO.spec
    unfold OpenLevel.localRead at hv
    rw [hfp, hax, hi, Option.bind_some, if_neg hloc] at hv
    cases hv

/-- A FULL grid can be opened. -/
theorem session_fullOpened {rank : Nat → Nat} {V : OpenLevel α} {x : LevelVar α} (hV : ProperSession rank V x)
    (hne : x.nc ≠ []) (hx : SizesExact x.fp (x.nc.map NcAxis.size)) (hk : V.sel.type.kind = .full)
    (hf : V.sel.type ≠ .FULL) : ∃ s0, FullOpened V.c (V.S.full V.sel) s0 := by
  have hp := hV.possible
  obtain ⟨h1, h2, h3⟩ := session_open hV.reads hV.file hV.opened
  have hO : Opened x.fp (cellCentered V.S.params) x.nc x.val V.c := ⟨hne, hx, _, _, _, _, h3⟩
  obtain ⟨r1, r2⟩ := C30_full_reaches_all _ _ _ _ hp.env V.sel h1 hk
  have hreach : (V.S.full V.sel).hasMpi = true ∨
      ((V.S.full V.sel).trans ≠ .no ∧ (V.S.full V.sel).ds.ranks = 1) := by
    rcases r2 hf with h | h
    · exact .inl (decide_eq_true h)
    · exact .inr h
  have hrank := session_ranks hp h1
  obtain ⟨s0, e1⟩ := (C07_fulldist_value hO (V.S.dist V.sel) hrank hp.someDomain _ _ hreach).1
    (V.S.full V.sel).cacheSize (V.S.full V.sel).handDiff V.S.zero
    (fun _ => List.replicate (domainSize V.c (V.S.dist V.sel) * (V.S.dist V.sel).domains) V.S.zero) h2 hp.hand
    (fun _ _ => by simp)
  exact ⟨s0, hrank, hp.someDomain, h2, hp.hand, hp.threads, hreach, _, fun _ _ => by simp [Session.full], e1⟩

/-- Every selected implementation has what is needed. -/
theorem session_good {rank : Nat → Nat} {V : OpenLevel α} {x : LevelVar α} (hV : ProperSession rank V x)
    (hne : x.nc ≠ []) (hx : SizesExact x.fp (x.nc.map NcAxis.size)) (hL : LevelImpl V L) :
    L.Good ⟨x.fp, cellCentered V.S.params, x.nc, x.val⟩ ∧
    L.Usable fun t pos => (pos2index x.fp (openAxes x.fp false x.nc) pos).isSome ∧ V.team t := by
  have hp := hV.possible
  obtain ⟨h1, h2, h3⟩ := session_open hV.reads hV.file hV.opened
  have hO : Opened x.fp (cellCentered V.S.params) x.nc x.val V.c := ⟨hne, hx, _, _, _, _, h3⟩
  obtain ⟨wf, hx', hfp, hax, hval⟩ := hO.spec
  have hidx : ∀ pos, pos2index x.fp (openAxes x.fp false x.nc) pos = pos2index V.c.fp V.c.axes pos := by
    intro pos; rw [hfp, hax, pos2index_valuePosition x.fp false (cellCentered V.S.params)]
  have wk : ∀ {can can' : Nat → List Dbl → Prop} {L : LevelSys α}, L.Usable can → (∀ t pos, can' t pos → can t pos) →
      L.Usable can' := fun h hc => ⟨h.1, h.2, h.3, fun s t pos hr hb h' => h.4 s t pos hr hb (hc t pos h')⟩
  cases hL with
  | full mem0 m ht hl hm =>
    obtain ⟨r1, -⟩ := C30_full_reaches_all _ _ _ _ hp.env V.sel h1 (by rw [ht]; rfl)
    obtain ⟨m', e1, e2⟩ := C05_full_value hO (V.S.dist V.sel) (r1 ht).1 (r1 ht).2 mem0 hl
    rw [e1] at hm
    injection hm with hm; subst hm
    constructor
    · refine good_only (good_local good_none usable_none fun t pos v idx hv hi => ?_)
      rw [e2 pos idx hi] at hv
      exact (Option.some.inj hv).symm
    · refine wk (usable_only (usable_local (can' := fun _ pos => (pos2index V.c.fp V.c.axes pos).isSome) usable_none
        fun t pos h => ?_)) fun t pos h => ⟨by rw [← hidx]; exact h.1, h.2⟩
      obtain ⟨idx, hi⟩ := Option.isSome_iff_exists.1 h
      rw [hfp, hax] at hi
      rw [e2 pos idx hi]; exact .inl rfl
  | fullDist s0 hk hf hF =>
    have hus := usable_full (X := V.S.xfer V.K V.sel)
      (lib := decide (V.sel.type.mpi = .window) && V.S.build.threadsafeMpi) wf hx' hF
    constructor
    · refine good_only (good_local (good_full hO hF ?_) hus fun t pos v idx hv hi => ?_)
      · by_cases hm : V.sel.type.mpi = .window
        · exact .inl (decide_eq_true hm)
        · refine .inr ?_
          rw [decide_eq_false hm]; rfl
      · exact localRead_value hO hF hv hi
    · refine wk (usable_only (usable_local (can' := fun _ pos => (pos2index V.c.fp V.c.axes pos).isSome) hus
        fun t pos h => ?_)) fun t pos h => ⟨by rw [← hidx]; exact h.1, h.2⟩
      obtain ⟨idx, hi⟩ := Option.isSome_iff_exists.1 h
      by_cases hloc : (V.S.full V.sel).isLocal V.c t (blockByCoords V.c.geom idx)
      · refine .inl ?_
        have hi' := hi
        rw [hfp, hax] at hi'
        rw [localRead_some hO hF hi' hloc]; rfl
      · exact .inr ⟨idx, hi, hloc⟩
  | cache hk hm =>
    have hl : Legal (V.c.shared (V.S.cache V.sel V.c)) := ⟨hp.someDomain, h2, hp.hand⟩
    exact ⟨good_only (good_dist hO hl (by show V.sel.type.mpi.mode = .none; rw [hm]; rfl)),
      wk (usable_only (usable_dist wf hx')) fun t pos h => ⟨by rw [← hidx]; exact h.1, h.2⟩⟩
  | cacheWindow hk hm =>
    have hC := session_legalWin (c := V.c) hp hV.numbers h2 hm
    exact ⟨good_only (good_win hO rfl hC),
      wk (usable_only (usable_win wf hx' rfl hC)) fun t pos h =>
        ⟨⟨by rw [← hidx]; exact h.1, hV.team t h.2⟩, h.2⟩⟩
  | passThrough buf0 hk hb =>
    refine ⟨good_only (good_pass hO (fun t ht => ?_) fun t u ht hu e => ?_), wk (usable_only usable_pass) fun t pos h =>
      ⟨⟨by rw [← hidx]; exact h.1, h.2⟩, h.2⟩⟩
    · rw [hb]; exact hV.team t ht
    · refine hV.numbers.threads t u (hV.team t ht) ?_ e
      by_cases hr : 1 < V.sel.ranks
      · have := hV.alone (by cases h : V.sel.type <;> rw [h] at hk <;> first | rfl | cases hk) t u ht hu
        rw [← hV.place hr t ht, ← hV.place hr u hu] at this
        exact global_inj hV.group this
      · have hr1 : V.sel.ranks = 1 := by have := session_ranks hp h1; omega
        have h0 : ∀ v, V.S.dom v / V.S.domains = 0 := fun v => by
          have := hp.threads v
          rw [hr1, Nat.one_mul] at this
          exact Nat.div_eq_of_lt this
        rw [h0, h0]

/-- Every opened level has an implementation. -/
theorem session_impl {rank : Nat → Nat} {V : OpenLevel α} {x : LevelVar α} (hV : ProperSession rank V x)
    (hne : x.nc ≠ []) (hx : SizesExact x.fp (x.nc.map NcAxis.size)) (hth : V.sel.type.mpi ≠ .thread) :
    ∃ L, LevelImpl V L ∧ ∃ s : L.S, L.start s := by
  have hp := hV.possible
  obtain ⟨h1, h2, h3⟩ := session_open hV.reads hV.file hV.opened
  have hO : Opened x.fp (cellCentered V.S.params) x.nc x.val V.c := ⟨hne, hx, _, _, _, _, h3⟩
  obtain ⟨l, _, hl, -⟩ := CacheList.init_inv h2 hp.hand
  cases hk : V.sel.type.kind with
  | passThrough => exact ⟨_, .passThrough (List.replicate V.K.total V.S.zero) hk (by simp), _, rfl⟩
  | cache =>
    cases hm : V.sel.type.mpi with
    | no => exact ⟨_, .cache hk hm, _, l, hl, rfl⟩
    | window => exact ⟨_, .cacheWindow hk hm, _, l, hl, rfl⟩
    | thread => exact absurd hm hth
  | full =>
    obtain ⟨r1, r2⟩ := C30_full_reaches_all _ _ _ _ hp.env V.sel h1 hk
    by_cases hf : V.sel.type = .FULL
    · obtain ⟨m, e1, -⟩ := C05_full_value hO (V.S.dist V.sel) (r1 hf).1 (r1 hf).2
        (List.replicate (domainSize V.c (V.S.dist V.sel) * (V.S.dist V.sel).domains) V.S.zero) (by simp)
      exact ⟨_, .full _ m hf (by simp) e1, ((), fun _ => none), trivial, fun _ => rfl⟩
    · obtain ⟨s0, hFO⟩ := session_fullOpened hV hne hx hk hf
      exact ⟨_, .fullDist s0 hk hf hFO, (_, fun _ => none), ⟨l, hl, rfl⟩, fun _ => rfl⟩

end Asagi
