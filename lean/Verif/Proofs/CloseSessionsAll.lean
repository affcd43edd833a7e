import Verif.Spec.CloseSessions
import Verif.Proofs.CloseSessions
/-
Several sessions with `close`: each selected implementation has what is needed of a level.
-/
namespace Asagi
open Spec Props
variable {α : Type} {W : CloseSys α}

theorem callable_mono {rank : Nat → Nat} {can can' : Nat → List Dbl → Prop} (h : W.Callable rank can)
    (hc : ∀ t pos, can' t pos → can t pos) : W.Callable rank can' :=
  ⟨h.1, h.2, h.3, fun s t pos hr hb h0 h' => h.4 s t pos hr hb h0 (hc t pos h')⟩

/-- Only the threads of the level call its getters. -/
theorem levelImpl_team {V : OpenLevel α} {L : LevelSys α} {f : OpenedFile α} (hL : LevelImpl V L) (hg : L.Good f) {s : L.S}
    (h : L.Reach s) (t : Nat) (hb : L.busy s t) : V.team t := by
  have key : ∀ s x, L.step s x → ∀ t, L.busy x t → ¬ L.busy s t → V.team t := by
    cases hL <;> exact fun s x hs => hs.2
  induction h with
  | init h => exact (hg.fresh _ t h hb).elim
  | @step s x _ hs ih =>
    by_cases h0 : L.busy s t
    · exact ih h0
    · exact key s x hs t hb h0

/-- Every selected implementation has what is needed. -/
theorem session_fine {rank : Nat → Nat} {V : OpenLevel α} {x : LevelVar α} (hV : ProperSession rank V x)
    (hpl : ∀ t, V.team t → V.group.global (V.loc t) = rank t)
    (hne : x.nc ≠ []) (hx : SizesExact x.fp (x.nc.map NcAxis.size)) (hL : CloseImpl V W) :
    W.Fine V.member rank ⟨x.fp, cellCentered V.S.params, x.nc, x.val⟩ ∧
    (W.Callable rank fun t pos => (pos2index x.fp (openAxes x.fp false x.nc) pos).isSome ∧ V.team t) ∧
    ∀ s t, W.Reach s → W.busy s t → V.member (rank t) := by
  have hp := hV.possible
  obtain ⟨h1, h2, h3⟩ := session_open hV.reads hV.file hV.opened
  have hO : Opened x.fp (cellCentered V.S.params) x.nc x.val V.c := ⟨hne, hx, _, _, _, _, h3⟩
  obtain ⟨wf, hx', hfp, hax, hval⟩ := hO.spec
  have hidx : ∀ pos, pos2index x.fp (openAxes x.fp false x.nc) pos = pos2index V.c.fp V.c.axes pos := by
    intro pos; rw [hfp, hax, pos2index_valuePosition x.fp false (cellCentered V.S.params)]
  have hloc : ∀ t, V.loc t < V.sel.ranks := fun t =>
    Nat.div_lt_of_lt_mul (by rw [Nat.mul_comm]; exact hp.threads t)
  have hrk : ∀ t, V.team t → V.group.rank (rank t) = some (V.loc t) := fun t ht => (hV.group _ _).2 (hpl t ht)
  have hmem : ∀ t, V.team t → V.member (rank t) := fun t ht => ⟨_, hloc t, hrk t ht⟩
  cases hL with
  | other L' hm hL' =>
    obtain ⟨k1, k2⟩ := session_good hV hne hx hL'
    have ht : ∀ s t, (L'.closeSys V.loc V.sel.ranks).Reach s → L'.busy s.1 t → V.team t := fun s t hr hb =>
      levelImpl_team hL' k1 (level_close_inv hr).reach t hb
    exact ⟨fine_translate hV.group (wrap_usable k1 k2 hloc).fine fun s t hr hb => hrk t (ht s t hr hb),
      callable_translate (callable_level k1 k2 hloc) fun t pos h => hrk t h.2, fun s t hr hb => hmem t (ht s t hr hb)⟩
  | full s0 hk hm hF =>
    have hus := usable_full (X := V.S.xfer V.K V.sel) (lib := false) wf hx' hF
    have hw : (V.S.xfer V.K V.sel).win = false := by
      show decide (V.sel.type.mpi = .window) = false
      rw [hm]; rfl
    have hfi := (wrap_full (f := ⟨x.fp, cellCentered V.S.params, x.nc, x.val⟩) (c := V.c)
      (X := V.S.xfer V.K V.sel) hO hF hw hloc).fine
    have hca := callable_full (f := ⟨x.fp, cellCentered V.S.params, x.nc, x.val⟩) (X := V.S.xfer V.K V.sel) hO hF hw hloc hus
    have hfl := fine_local (read := V.localRead s0) hfi hca fun t pos v idx hv hi => localRead_value hO hF hv hi
    refine ⟨fine_translate hV.group (fine_only (team := V.team) hfl) fun s t hr hb =>
      hrk t (close_only_team hfl hr t hb), ?_, fun s t hr hb => hmem t (close_only_team hfl hr t hb)⟩
    · refine callable_translate (callable_mono (callable_only (team := V.team) (callable_local (read := V.localRead s0)
        (can' := fun _ pos => (pos2index V.c.fp V.c.axes pos).isSome) hca fun t pos h => ?_))
        fun t pos h => ⟨by rw [← hidx]; exact h.1, h.2⟩) fun t pos h => hrk t h.2
      obtain ⟨idx, hi⟩ := Option.isSome_iff_exists.1 h
      by_cases hl : (V.S.full V.sel).isLocal V.c t (blockByCoords V.c.geom idx)
      · refine .inl ?_
        have hi' := hi
        rw [hfp, hax] at hi'
        rw [localRead_some hO hF hi' hl]; rfl
      · exact .inr ⟨idx, hi, hl⟩
  | cache hk hm =>
    have hC := session_legalMsg hp hV.numbers wf h1 h2 hm
    have hfi := (wrap_cache (f := ⟨x.fp, cellCentered V.S.params, x.nc, x.val⟩) (c := V.c)
      (S := V.S.cache V.sel V.c) hO rfl hC hloc).fine
    refine ⟨fine_translate hV.group (fine_only (team := V.team) hfi) fun s t hr hb =>
      hrk t (close_only_team hfi hr t hb), ?_, fun s t hr hb => hmem t (close_only_team hfi hr t hb)⟩
    · exact callable_translate (callable_mono (callable_only (team := V.team)
        (callable_cache (f := ⟨x.fp, cellCentered V.S.params, x.nc, x.val⟩) (S := V.S.cache V.sel V.c) hO rfl hC hloc))
        fun t pos h => ⟨by rw [← hidx]; exact h.1, h.2⟩) fun t pos h => hrk t h.2

/-- Every opened level has an implementation. -/
theorem session_close_impl {rank : Nat → Nat} {V : OpenLevel α} {x : LevelVar α} (hV : ProperSession rank V x)
    (hne : x.nc ≠ []) (hx : SizesExact x.fp (x.nc.map NcAxis.size)) :
    ∃ W, CloseImpl V W ∧ ∃ s : W.S, W.start s ∧ ∀ P, W.stage s P = 0 := by
  by_cases hth : V.sel.type.mpi = .thread
  · have hp := hV.possible
    obtain ⟨h1, h2, h3⟩ := session_open hV.reads hV.file hV.opened
    obtain ⟨l, _, hl, -⟩ := CacheList.init_inv h2 hp.hand
    cases hk : V.sel.type.kind with
    | passThrough => cases e : V.sel.type <;> rw [e] at hk hth <;> first | exact absurd hk (by decide) | exact absurd hth (by decide)
    | cache =>
      refine ⟨_, .cache hk hth, _, ⟨l, hl, rfl⟩, fun P => ?_⟩
      show (match V.group.rank P with | some r => 0 | none => 0) = 0
      split <;> rfl
    | full =>
      have hf : V.sel.type ≠ .FULL := by intro e; rw [e] at hth; cases hth
      obtain ⟨s0, hF⟩ := session_fullOpened hV hne hx hk hf
      refine ⟨_, .full s0 hk hth hF, (_, fun _ => none), ⟨⟨l, hl, rfl⟩, fun _ => rfl⟩, fun P => ?_⟩
      show (match V.group.rank P with | some r => 0 | none => 0) = 0
      split <;> rfl
  · obtain ⟨L, h, s, hs⟩ := session_impl hV hne hx hth
    refine ⟨_, .other L hth h, (s, fun _ => 0), ⟨hs, rfl⟩, fun P => ?_⟩
    show (match V.group.rank P with | some r => 0 | none => 0) = 0
    split <;> rfl

/-- In the beginning nobody has called `close`. -/
theorem close_impl_start {V : OpenLevel α} (hL : CloseImpl V W) {s : W.S} (h : W.start s) (P : Nat) : W.stage s P = 0 := by
  cases hL with
  | other L' =>
    have h : L'.start s.1 ∧ s.2 = fun _ => 0 := h
    show (match V.group.rank P with | some r => s.2 r | none => 0) = 0
    rw [h.2]; split <;> rfl
  | full s0 =>
    obtain ⟨⟨l, -, e⟩, -⟩ := h
    show (match V.group.rank P with | some r => s.1.stage r | none => 0) = 0
    rw [e]; split <;> rfl
  | cache =>
    obtain ⟨l, -, rfl⟩ := h
    show (match V.group.rank P with | some r => 0 | none => 0) = 0
    split <;> rfl

/-- The registered tags. -/
theorem close_tags {V : OpenLevel α} (hL : CloseImpl V W) (P tag : Nat) (ht : tag ∈ W.tags P) :
    V.group.rank P ≠ none ∧ LevelTag V tag := by
  cases hL with
  | other L' =>
    change tag ∈ (match V.group.rank P with | some _ => [] | none => []) at ht
    split at ht <;> cases ht
  | full s0 hk hm => exact comm_tags (.full s0 hk hm ‹_›) P tag ht
  | cache hk hm => exact comm_tags (.cache hk hm) P tag ht

/-- Only CACHE grids with the communication thread refuse requests. -/
theorem close_not_refused {V : OpenLevel α} (hL : CloseImpl V W)
    (h : V.sel.type.kind = .cache → V.sel.type.mpi ≠ .thread) (s x : W.S) : ¬ W.refused s x := by
  cases hL with
  | other L' => exact id
  | full s0 => exact id
  | cache hk hm => exact absurd hm (h hk)

end Asagi
