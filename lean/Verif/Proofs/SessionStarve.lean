import Verif.Proofs.ManyStarveWin
import Verif.Proofs.ManySessions
import Verif.Spec.SessionStarve
/-
No thread starves in the implementations that are selected by the parameters of a grid.
-/
namespace Asagi
open Spec Props
variable {α : Type} {L : LevelSys α} {p : LevelPos L} {f : OpenedFile α} {rank : Nat → Nat}

/-- Fairness of a part of the state. -/
theorem fair_map {S S' A : Type} (g : S → S') {moves : A → S → S → Prop} {moves' : A → S' → S' → Prop}
    {out : A → S → Prop} {out' : A → S' → Prop} {σ : Nat → S}
    (hf : FairLocksOf moves out σ) (h0 : ∀ n t, out t (σ n) → out' t (g (σ n)))
    (h1 : ∀ n t, ¬ out' t (g (σ n)) → moves t (σ n) (σ (n + 1)) → moves' t (g (σ n)) (g (σ (n + 1))))
    (h2 : ∀ n t s', ¬ out' t (g (σ n)) → moves' t (g (σ n)) s' → ∃ s', moves t (σ n) s') :
    FairLocksOf moves' out' (fun n => g (σ n)) := by
  intro t n
  by_cases hx : ∃ m, n ≤ m ∧ out' t (g (σ m))
  · obtain ⟨m, h3, h4⟩ := hx
    exact ⟨m, h3, .inl h4⟩
  push Not at hx
  obtain ⟨m, h3, h4⟩ := hf t n
  refine ⟨m, h3, .inr (h4.resolve_left (fun h => hx m h3 (h0 m t h)) |>.imp (h1 m t (hx m h3))
    fun h k hk s' hs => ?_)⟩
  obtain ⟨s1, h5⟩ := h2 k t s' (hx k (by omega)) hs
  exact h k hk s1 h5

section
variable {read : Nat → List Dbl → Option α}

/-- What a step is for a thread: a step of the level itself in which it takes part, the beginning or the end of an
access that only reads memory. -/
theorem local_cases (hL : L.Live rank p) {s x : (L.withLocal read).S} (hr : (L.withLocal read).Reach s)
    (hs : (L.withLocal read).step s x) (t : Nat) (hne : (p.pos x.1 t, x.2 t) ≠ (p.pos s.1 t, s.2 t)) :
    (L.step s.1 x.1 ∧ p.pos x.1 t ≠ p.pos s.1 t ∧ x.2 = s.2 ∧ s.2 t = none) ∨
    (x.1 = s.1 ∧ ¬ L.busy s.1 t ∧ s.2 t = none ∧ ∃ v, x.2 = upd s.2 t (some v)) ∨
    (x.1 = s.1 ∧ ¬ L.busy s.1 t ∧ s.2 t ≠ none ∧ x.2 = upd s.2 t none) := by
  obtain ⟨h1, h2, -⟩ := local_inv hr
  rcases hs with ⟨a1, a2, a3⟩ | ⟨a1, u, ⟨a2, a3, pos, v, a4, a5⟩ | ⟨a2, a3⟩⟩
  · have hp : p.pos x.1 t ≠ p.pos s.1 t := fun e => hne (by rw [e, a2])
    refine .inl ⟨a1, hp, a2, ?_⟩
    by_cases hb : L.busy s.1 t
    · exact h2 t hb
    · exact a3 t (hL.enter h1 a1 hp hb)
  · by_cases e : t = u
    · subst e; exact .inr (.inl ⟨a1, a2, a3, v, a5⟩)
    · exact absurd (by rw [a1, a5, upd_ne _ _ e]) hne
  · by_cases e : t = u
    · subst e; exact .inr (.inr ⟨a1, fun hb => a2 (h2 t hb), a2, a3⟩)
    · exact absurd (by rw [a1, a3, upd_ne _ _ e]) hne

/-- A step of the level itself. -/
theorem local_lift {s : (L.withLocal read).S} (hr : (L.withLocal read).Reach s) {y : L.S} (hs : L.step s.1 y)
    (hb : ∀ u, L.busy y u → L.busy s.1 u) : (L.withLocal read).step s (y, s.2) :=
  .inl ⟨hs, rfl, fun t ht => (local_inv hr).2.1 t (hb t ht)⟩

theorem local_course {σ : Nat → (L.withLocal read).S} (hc : CourseOf (L.withLocal read).step σ) :
    CourseOf L.step (fun n => (σ n).1) := by
  intro n
  rcases hc n with (⟨h, -⟩ | ⟨h, -⟩) | h
  · exact .inl h
  · exact .inr h
  · exact .inr (congrArg Prod.fst h)

/-- Accesses that only read memory do not make other threads starve. -/
def live_local (hS : L.Safe f) (hL : L.Live rank p) :
    (L.withLocal read).Live rank ⟨p.Pos × Option α, fun s t => (p.pos s.1 t, s.2 t)⟩ where
  left := fun q => 2 * hL.left q.1 + if q.2.isSome then 1 else 0
  forward := by
    intro s x t hr hs hb
    by_cases hne : (p.pos x.1 t, x.2 t) = (p.pos s.1 t, s.2 t)
    · exact .inl hne
    refine .inr ?_
    show 2 * hL.left (p.pos x.1 t) + (if (x.2 t).isSome then 1 else 0) <
      2 * hL.left (p.pos s.1 t) + if (s.2 t).isSome then 1 else 0
    rcases local_cases hL hr hs t hne with ⟨a1, a2, a3, a4⟩ | ⟨a1, a2, a3, -⟩ | ⟨a1, a2, a3, a4⟩
    · have := (hL.forward (local_inv hr).1 a1 (hb.resolve_right fun h => h a4)).resolve_left a2
      rw [a3]; omega
    · rcases hb with hb | hb
      · exact absurd hb a2
      · exact absurd a3 hb
    · rw [a1, a4, upd_self]
      obtain ⟨v, hv⟩ := Option.ne_none_iff_exists'.1 a3
      rw [hv]; simp
  enter := by
    intro s x t hr hs hne hb
    rcases local_cases hL hr hs t hne with ⟨a1, a2, a3, a4⟩ | ⟨a1, a2, a3, v, a4⟩ | ⟨a1, a2, a3, a4⟩
    · exact .inl (hL.enter (local_inv hr).1 a1 a2 fun h => hb (.inl h))
    · refine .inr ?_
      rw [a4, upd_self]; nofun
    · exact absurd (.inr a3) hb
  calm := by
    intro s x t hr hs hne hb
    rcases local_cases hL hr hs t hne with ⟨a1, a2, a3, a4⟩ | ⟨a1, a2, a3, v, a4⟩ | ⟨a1, a2, a3, a4⟩
    · obtain ⟨g1, g2⟩ := hL.calm (local_inv hr).1 a1 a2 (hb.resolve_right fun h => h a4)
      refine ⟨fun u hu => ?_, g2⟩
      rcases hu with hu | hu
      · exact .inl (g1 u hu)
      · rw [a3] at hu; exact .inr hu
    · rcases hb with hb | hb
      · exact absurd hb a2
      · exact absurd a3 hb
    · refine ⟨fun u hu => ?_, fun k u h1 h2 => ?_⟩
      · rcases hu with hu | hu
        · rw [a1] at hu; exact .inl hu
        · rw [a4, upd_apply] at hu
          split at hu
          · exact absurd rfl hu
          · exact .inr hu
      · change L.uses k x.1 u at h1
        rw [a1] at h1; exact absurd h1 h2
  acquire := by
    intro s x s2 t k hr hs hne hb h1 h2 hr2 e hb2 hfree
    have e1 : p.pos s2.1 t = p.pos s.1 t := congrArg Prod.fst e
    have e2 : s2.2 t = s.2 t := congrArg Prod.snd e
    rcases local_cases hL hr hs t hne with ⟨a1, a2, a3, a4⟩ | ⟨a1, -⟩ | ⟨a1, -⟩
    · rw [a4] at e2
      obtain ⟨y, g1, g2, g3, g4⟩ := hL.acquire (local_inv hr).1 a1 a2 (hb.resolve_right fun h => h a4) h1 h2
        (local_inv hr2).1 e1 (hb2.resolve_right fun h => h e2) hfree
      refine ⟨(y, s2.2), local_lift hr2 g1 g3, fun e => g2 (congrArg Prod.fst e), fun u hu => ?_, g4⟩
      exact hu.imp_left (g3 u)
    · change L.uses k x.1 t at h1
      rw [a1] at h1; exact absurd h1 h2
    · change L.uses k x.1 t at h1
      rw [a1] at h1; exact absurd h1 h2
  netcdf := by
    intro s t hr hu
    obtain ⟨y, g1, g2, g3, g4⟩ := hL.netcdf (local_inv hr).1 hu
    exact ⟨(y, s.2), local_lift hr g1 g3, fun e => g2 (congrArg Prod.fst e), fun u hu => hu.imp_left (g3 u), g4⟩
  mpi := by
    intro σ h0 hc hf t n
    have hr := level_course h0 hc
    have hb : ∀ n t, ¬ ¬ L.uses .mpi (σ n).1 t → L.busy (σ n).1 t := fun n t h =>
      hS.usesBusy _ _ t (local_inv (hr n)).1 (not_not.1 h)
    refine hL.mpi (σ := fun n => (σ n).1) (local_inv h0).1 (local_course hc) (fair_map Prod.fst hf (fun _ _ h => h)
      (fun n t hn hm => ?_) (fun n t y hn hm => ?_)) t n
    · rcases local_cases hL (hr n) hm.1 t hm.2 with ⟨a1, a2, -⟩ | ⟨-, a2, -⟩ | ⟨-, a2, -⟩
      · exact ⟨a1, a2⟩
      · exact absurd (hb n t hn) a2
      · exact absurd (hb n t hn) a2
    · exact ⟨(y, (σ n).2), local_lift (hr n) hm.1 (hL.calm (local_inv (hr n)).1 hm.1 hm.2 (hb n t hn)).1,
        fun e => hm.2 (congrArg Prod.fst e)⟩
  returns := by
    intro σ h0 hc hf t n
    have hr := level_course h0 hc
    have key := hL.returns (σ := fun n => (σ n).1) (local_inv h0).1 (local_course hc) (fair_map Prod.fst hf
      (fun _ _ h hb => h (.inl hb)) (fun n t hn hm => by
        rcases local_cases hL (hr n) hm.1 t hm.2 with ⟨a1, a2, -⟩ | ⟨-, a2, -⟩ | ⟨-, a2, -⟩
        · exact ⟨a1, a2⟩
        · exact absurd (not_not.1 hn) a2
        · exact absurd (not_not.1 hn) a2) (fun n t y hn hm =>
        ⟨(y, (σ n).2), local_lift (hr n) hm.1 (hL.calm (local_inv (hr n)).1 hm.1 hm.2 (not_not.1 hn)).1,
          fun e => hm.2 (congrArg Prod.fst e)⟩))
    by_contra hx
    push Not at hx
    obtain ⟨M, hM, hidle⟩ := key t n
    have hb2 : ∀ m, M ≤ m → (σ m).2 t ≠ none := by
      refine forever (Q := fun m => (σ m).2 t ≠ none) ((hx M hM).resolve_left hidle) (fun m hm h => ?_)
      rcases hc m with hs | e
      · by_cases hne : (p.pos (σ (m + 1)).1 t, (σ (m + 1)).2 t) = (p.pos (σ m).1 t, (σ m).2 t)
        · have := congrArg Prod.snd hne
          change (σ (m + 1)).2 t = _ at this
          show (σ (m + 1)).2 t ≠ none
          rw [this]; exact h
        · rcases local_cases hL (hr m) hs t hne with ⟨-, -, -, a4⟩ | ⟨-, -, a3, -⟩ | ⟨a1, a2, a3, a4⟩
          · exact absurd a4 h
          · exact absurd a3 h
          · rcases hx (m + 1) (by omega) with h1 | h1
            · rw [a1] at h1; exact absurd h1 a2
            · exact h1
      · show (σ (m + 1)).2 t ≠ none
        rw [e]; exact h
    obtain ⟨m, hm, h1 | h1 | h1⟩ := hf t M
    · exact h1 (hx m (by omega))
    · rcases local_cases hL (hr m) h1.1 t h1.2 with ⟨-, -, -, a4⟩ | ⟨-, -, a3, -⟩ | ⟨a1, a2, a3, a4⟩
      · exact hb2 m hm a4
      · exact hb2 m hm a3
      · refine hb2 (m + 1) (by omega) ?_
        rw [a4, upd_self]
    · refine h1 m (Nat.le_refl _) ((σ m).1, upd (σ m).2 t none) ⟨.inr ⟨rfl, t, .inr ⟨hb2 m hm, rfl⟩⟩, fun e => ?_⟩
      have := congrArg Prod.snd e
      change upd (σ m).2 t none t = _ at this
      rw [upd_self] at this
      exact hb2 m hm this.symm
end

def live_none : (LevelSys.none : LevelSys α).Live rank ⟨Unit, fun _ _ => ()⟩ where
  left := fun _ => 0
  forward := fun _ h => h.elim
  enter := fun _ h => h.elim
  calm := fun _ h => h.elim
  acquire := fun _ h => h.elim
  netcdf := fun _ h => h.elim
  mpi := fun _ _ _ _ n => ⟨n, Nat.le_refl _, fun h => h⟩
  returns := fun _ _ _ _ n => ⟨n, Nat.le_refl _, fun h => h⟩

/-- The positions belong to the selected implementation. -/
theorem implPos_impl {V : OpenLevel α} (h : ImplPos V L p) : LevelImpl V L := by
  cases h with
  | full mem0 m h1 h2 h3 => exact .full mem0 m h1 h2 h3
  | fullDist s0 h1 h2 h3 => exact .fullDist s0 h1 h2 h3
  | cache h1 h2 => exact .cache h1 h2
  | cacheWindow h1 h2 => exact .cacheWindow h1 h2
  | passThrough buf0 h1 h2 => exact .passThrough buf0 h1 h2

theorem impl_pos {V : OpenLevel α} (h : LevelImpl V L) : ∃ p, ImplPos V L p := by
  cases h with
  | full mem0 m h1 h2 h3 => exact ⟨_, .full mem0 m h1 h2 h3⟩
  | fullDist s0 h1 h2 h3 => exact ⟨_, .fullDist s0 h1 h2 h3⟩
  | cache h1 h2 => exact ⟨_, .cache h1 h2⟩
  | cacheWindow h1 h2 => exact ⟨_, .cacheWindow h1 h2⟩
  | passThrough buf0 h1 h2 => exact ⟨_, .passThrough buf0 h1 h2⟩

/-- No thread starves in the selected implementation. -/
theorem session_live {V : OpenLevel α} {x : LevelVar α} (hV : ProperSession rank V x)
    (hne : x.nc ≠ []) (hx : SizesExact x.fp (x.nc.map NcAxis.size)) (hth : V.sel.type.mpi ≠ .thread)
    (hL : ImplPos V L p) : Nonempty (L.Live rank p) := by
  have hp := hV.possible
  obtain ⟨h1, h2, h3⟩ := session_open hV.reads hV.file hV.opened
  have hO : Opened (⟨x.fp, cellCentered V.S.params, x.nc, x.val⟩ : OpenedFile α).fp
    (⟨x.fp, cellCentered V.S.params, x.nc, x.val⟩ : OpenedFile α).cc
    (⟨x.fp, cellCentered V.S.params, x.nc, x.val⟩ : OpenedFile α).nc
    (⟨x.fp, cellCentered V.S.params, x.nc, x.val⟩ : OpenedFile α).val V.c := ⟨hne, hx, _, _, _, _, h3⟩
  obtain ⟨wf, hx', -⟩ := hO.spec
  have hkind := (C30_kind_and_mpi _ _ _ _ hp.env V.sel h1).2.2
  /- the processes of the threads -/
  have hplace : V.sel.type.kind ≠ .passThrough → ∀ t u, V.team t → V.team u →
      V.S.dom t / V.S.domains = V.S.dom u / V.S.domains → rank t = rank u := by
    intro hk t u ht hu e
    by_cases hm : V.sel.type.mpi = .no
    · exact hV.alone hm t u ht hu
    · have hr : 1 < V.sel.ranks := by
        have h0 := session_ranks hp h1
        by_contra hr
        rw [if_pos (by omega : V.sel.ranks = 1)] at hkind
        exact hm (hkind hk)
      rw [← hV.place hr t ht, ← hV.place hr u hu, e]
  cases hL with
  | full mem0 m ht hl hm =>
    obtain ⟨r1, -⟩ := C30_full_reaches_all _ _ _ _ hp.env V.sel h1 (by rw [ht]; rfl)
    obtain ⟨m', e1, e2⟩ := C05_full_value hO (V.S.dist V.sel) (r1 ht).1 (r1 ht).2 mem0 hl
    rw [e1] at hm
    injection hm with hm; subst hm
    refine ⟨live_only (rank' := rank) (f := ⟨x.fp, cellCentered V.S.params, x.nc, x.val⟩)
      (safe_local good_none.toSafe usable_none fun t pos v idx hv hi => ?_)
      (live_local (f := ⟨x.fp, cellCentered V.S.params, x.nc, x.val⟩) good_none.toSafe live_none) fun _ _ _ _ e => e⟩
    rw [e2 pos idx hi] at hv
    exact (Option.some.inj hv).symm
  | fullDist s0 hk hf hF =>
    have hus := usable_full (X := V.S.xfer V.K V.sel)
      (lib := decide (V.sel.type.mpi = .window) && V.S.build.threadsafeMpi) wf hx' hF
    have hS := (good_full (X := V.S.xfer V.K V.sel)
      (lib := decide (V.sel.type.mpi = .window) && V.S.build.threadsafeMpi) hO hF (by
        by_cases hm : V.sel.type.mpi = .window
        · exact .inl (decide_eq_true hm)
        · refine .inr ?_
          rw [decide_eq_false hm]; rfl)).toSafe
    have hw : (V.S.xfer V.K V.sel).win = true ∨ (V.S.xfer V.K V.sel).F.hasMpi = false := by
      cases hm : V.sel.type.mpi with
      | no => exact .inr (decide_eq_false fun h => h hm)
      | window => exact .inl (decide_eq_true hm)
      | thread => exact absurd hm hth
    exact ⟨live_only (safe_local hS hus fun t pos v idx hv hi => localRead_value hO hF hv hi)
      (live_local hS (live_full hO hF hw fun _ => rfl)) (hplace (by rw [hk]; nofun))⟩
  | cache hk hm =>
    have hl : Legal (V.c.shared (V.S.cache V.sel V.c)) := ⟨hp.someDomain, h2, hp.hand⟩
    have hm' : (V.c.shared (V.S.cache V.sel V.c)).mode = .none := by
      show V.sel.type.mpi.mode = .none; rw [hm]; rfl
    exact ⟨live_only (rank' := rank) (good_dist hO hl hm').toSafe (live_dist hl hm') fun _ _ _ _ e => e⟩
  | cacheWindow hk hm =>
    have hC := session_legalWin (c := V.c) hp hV.numbers h2 hm
    exact ⟨live_only (good_win hO rfl hC).toSafe (live_win hC fun _ => rfl) (hplace (by rw [hk]; nofun))⟩
  | passThrough buf0 hk hb =>
    have hal : ∀ t u, V.team t → V.team u → rank t = rank u :=
      hV.alone (by cases h : V.sel.type <;> rw [h] at hk <;> first | rfl | cases hk)
    have hslot : ∀ t, V.team t → V.K.tid t < buf0.length := fun t ht => by rw [hb]; exact hV.team t ht
    have hinj : ∀ t u, V.team t → V.team u → V.K.tid t = V.K.tid u → t = u := by
      intro t u ht hu e
      refine hV.numbers.threads t u (hV.team t ht) ?_ e
      by_cases hr : 1 < V.sel.ranks
      · have := hal t u ht hu
        rw [← hV.place hr t ht, ← hV.place hr u hu] at this
        exact global_inj hV.group this
      · have hr1 : V.sel.ranks = 1 := by have := session_ranks hp h1; omega
        have h0 : ∀ v, V.S.dom v / V.S.domains = 0 := fun v => by
          have := hp.threads v
          rw [hr1, Nat.one_mul] at this
          exact Nat.div_eq_of_lt this
        rw [h0, h0]
    by_cases hte : ∃ t0, V.team t0
    · obtain ⟨t0, ht0⟩ := hte
      obtain ⟨hl⟩ := live_pass (rank := rank) hO hslot hinj (r := rank t0) fun t ht => hal t t0 ht ht0
      exact ⟨live_only (good_pass hO hslot hinj).toSafe hl fun _ _ _ _ e => e⟩
    · obtain ⟨hl⟩ := live_pass (rank := rank) hO hslot hinj (r := 0) fun t ht => absurd ⟨t, ht⟩ hte
      exact ⟨live_only (good_pass hO hslot hinj).toSafe hl fun _ _ _ _ e => e⟩

end Asagi
