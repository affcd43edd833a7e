import Verif.Spec.CommSessions
import Verif.Proofs.ManyCommOnly
import Verif.Proofs.ManySessions
/-
Several sessions with the communication thread: each selected implementation has what is needed of a level.
-/
namespace Asagi
open Spec Props
variable {α : Type} {L : CommSys α} {f : OpenedFile α}

/-! ### Direct reads -/

section
variable {read : Nat → List Dbl → Option α}

theorem comm_local_calm {s : L.S × (Nat → Option α)} {x : L.S} (hi : ∀ t, L.busy s.1 t → s.2 t = none)
    (h : L.Calm s.1 x) : (L.withLocal read).Calm s (x, s.2) :=
  ⟨.inl ⟨h.1, rfl, fun t ht => hi t (h.2 t ht)⟩, fun t ht => by
    rcases ht with ht | ht
    · exact .inl (h.2 t ht)
    · exact .inr ht⟩

theorem comm_good_local (hg : L.Good f) {can : Nat → List Dbl → Prop} (hus : L.toLevelSys.Usable can)
    (hread : ∀ t pos v idx, read t pos = some v →
      pos2index f.fp (openAxes f.fp f.cc f.nc) pos = some idx → v = f.val idx) :
    (L.withLocal read).Good f where
  toSafe := safe_local hg.toSafe hus hread
  syncStep := fun s x hs => by
    rcases hs with ⟨h1, h2⟩ | h
    · exact .inl ⟨hg.syncStep _ _ h1, h2⟩
    · exact .inr h
  empty := fun s h => hg.empty s.1 h.1
  tagged := fun s q r hr => hg.tagged s.1 q r (local_inv hr).1
  msgs := fun s x hr hs q r => by
    rcases hs with ⟨h1, -⟩ | ⟨e, -⟩
    · exact hg.msgs _ _ (local_inv hr).1 h1 q r
    · refine .inl ?_
      show L.inbox x.1 q r = _
      rw [e]; rfl
  serves := fun s x r hr hs h1 h2 => by
    rcases hs with ⟨hs, -⟩ | ⟨e, -⟩
    · exact hg.serves _ _ r (local_inv hr).1 hs h1 h2
    · refine absurd ?_ h2
      show L.serving s.1 r
      rw [← e]; exact h1
  netcdf := fun s t hr hu => by
    obtain ⟨h1, h2, -⟩ := local_inv hr
    obtain ⟨x, hq, e⟩ := hg.netcdf _ t h1 hu
    exact ⟨_, comm_local_calm h2 hq, e⟩
  mpi := fun s t hr hu => by
    obtain ⟨h1, h2, -⟩ := local_inv hr
    obtain ⟨x, hq, e⟩ := hg.mpi _ t h1 hu
    exact ⟨_, comm_local_calm h2 hq, e⟩
  serve := fun s r hr hu => by
    obtain ⟨h1, h2, -⟩ := local_inv hr
    obtain ⟨x, hq, e⟩ := hg.serve _ r h1 hu
    exact ⟨_, comm_local_calm h2 hq, e⟩
  take := fun s q r tag l hr hn hi => by
    obtain ⟨h1, h2, -⟩ := local_inv hr
    obtain ⟨x, hq, e⟩ := hg.take _ q r tag l h1 hn hi
    exact ⟨_, comm_local_calm h2 hq, e⟩
  free := fun s t hr hb hn hi => by
    obtain ⟨h1, h2, -⟩ := local_inv hr
    rcases hb with hb | hb
    · obtain ⟨x, hq⟩ := hg.free _ t h1 hb hn hi
      exact ⟨_, comm_local_calm h2 hq⟩
    · refine ⟨(s.1, upd s.2 t none), .inr ⟨rfl, t, .inr ⟨hb, rfl⟩⟩, fun u hu => ?_⟩
      rcases hu with hu | hu
      · exact .inl hu
      · refine .inr ?_
        change upd s.2 t none u ≠ none at hu
        rw [upd_apply] at hu
        split at hu
        · exact absurd rfl hu
        · exact hu
  unchanged := fun s => hg.unchanged s.1
  bound := fun s hr => by
    obtain ⟨h1, h2, M, h3⟩ := local_inv hr
    obtain ⟨N, K, hN⟩ := hg.bound _ h1
    refine ⟨N + localLeft M s.2, K, fun n k x hq => ?_⟩
    have one : ∀ {m k n : Nat} {x y : (L.withLocal read).S}, L.QuietRun m k s.1 x.1 →
        n + localLeft M x.2 ≤ m + localLeft M s.2 → (∀ t, L.busy x.1 t → x.2 t = none) → (∀ t, x.2 t ≠ none → t ∈ M) →
        (L.withLocal read).Quiet x y → ∀ k', (L.refused x.1 y.1 → k' = k + 1) → (¬ L.refused x.1 y.1 → k' = k) →
        ∃ m', L.QuietRun m' k' s.1 y.1 ∧
        n + 1 + localLeft M y.2 ≤ m' + localLeft M s.2 ∧
        (∀ t, L.busy y.1 t → y.2 t = none) ∧ (∀ t, y.2 t ≠ none → t ∈ M) := by
      intro m k n x y i1 i2 i3 i4 hq k' hk1 hk2
      obtain ⟨hs, hq⟩ := hq
      rcases hs with ⟨e1, e2, e3⟩ | ⟨e1, t, ⟨e2, e3, pos, v, e4, e5⟩ | ⟨e2, e3⟩⟩
      · have hq' : L.Quiet x.1 y.1 := ⟨e1, fun t ht => by
          rcases hq t (.inl ht) with h | h
          · exact h
          · exact absurd (e3 t ht) h⟩
        refine ⟨m + 1, ?_, by rw [e2]; omega, fun t ht => ?_, fun t ht => i4 t ?_⟩
        · by_cases hr : L.refused x.1 y.1
          · rw [hk1 hr]; exact .refused i1 hq' hr
          · rw [hk2 hr]; exact .served i1 hq' hr
        · rw [e2]; exact e3 t ht
        · rw [e2] at ht; exact ht
      · exfalso
        rcases hq t (.inr (by rw [e5, upd_self]; nofun)) with h | h
        · exact e2 h
        · exact h e3
      · have hlt : localLeft M y.2 < localLeft M x.2 := by
          refine sum_lt (u := t) (fun u => ?_) (i4 t e2) ?_
          · rw [e3, upd_apply]
            split
            · simp
            · exact Nat.le_refl _
          · rw [e3, upd_self]
            cases hx : x.2 t with
            | none => exact absurd hx e2
            | some v => simp
        rw [e1] at hk2 ⊢
        rw [hk2 (hg.unchanged _)]
        refine ⟨m, i1, by omega, fun u hu => ?_, fun u hu => i4 u ?_⟩
        · rw [e3, upd_apply]
          split
          · rfl
          · exact i3 u hu
        · rw [e3, upd_apply] at hu
          split at hu
          · exact absurd rfl hu
          · exact hu
    have key : ∃ m, L.QuietRun m k s.1 x.1 ∧ n + localLeft M x.2 ≤ m + localLeft M s.2 ∧
        (∀ t, L.busy x.1 t → x.2 t = none) ∧ (∀ t, x.2 t ≠ none → t ∈ M) := by
      clear hN
      induction hq with
      | zero => exact ⟨0, .zero _, Nat.le_refl _, h2, h3⟩
      | served _ hq hn ih =>
        obtain ⟨m, i1, i2, i3, i4⟩ := ih hr h1 h2 h3 one
        exact one i1 i2 i3 i4 hq _ (fun h => absurd h hn) fun _ => rfl
      | refused _ hq hn ih =>
        obtain ⟨m, i1, i2, i3, i4⟩ := ih hr h1 h2 h3 one
        exact one i1 i2 i3 i4 hq _ (fun _ => rfl) fun h => absurd hn h
    obtain ⟨m, k1, k2, -⟩ := key
    have := hN m k x.1 k1
    omega
end

/-! ### The kinds of levels -/

theorem usable_comm_cache {c : LevelCfg α} {S : SharedCfg α} {C : MsgParams α} (wf : c.WF)
    (hx : SizesExact c.fp c.file.size) (hP : C.P = c.shared S) (hC : LegalMsg C) :
    (C.commSys c).toLevelSys.Usable fun _ pos => (pos2index c.fp c.axes pos).isSome where
  calledBusy := fun t pos s x h => by
    obtain ⟨st', h, rfl⟩ := h
    exact called_busy h
  returnsBusy := fun _ _ _ h => returns_busy h
  leaves := fun s x t _ hs hb hn => msg_step_idle hs hb (by by_contra h; exact hn h)
  canCall := fun s t pos hr hb h => by
    obtain ⟨idx, hidx⟩ := Option.isSome_iff_exists.1 h
    have hi : (MsgSt.st s).pc (.user t) = .idle := by by_contra h; exact hb h
    obtain ⟨a, is, xs, -, h2⟩ := MsgReach.sim hC hr
    have hu := h2.users t
    rw [hi] at hu
    refine ⟨_, .plain s t _ (out_of_pc hu rfl nofun nofun).2 (by rw [hi]; nofun) (.call _ t _ _ hi
      (by rw [hP]; exact shared_inside wf S (pos2index_inBox wf hx hidx))),
      ⟨_, ⟨idx, hidx, hi, rfl⟩, rfl⟩, fun u hu => call_others u hu, fun k u hu => ?_⟩
    cases k with
    | mpi => exact hu
    | netcdf => exact call_reading u hu

/-- Every selected implementation has what is needed. -/
theorem session_comm_good {rank : Nat → Nat} {V : OpenLevel α} {x : LevelVar α} (hV : ProperSession rank V x)
    (hne : x.nc ≠ []) (hx : SizesExact x.fp (x.nc.map NcAxis.size)) (hL : CommImpl V L) :
    L.Good ⟨x.fp, cellCentered V.S.params, x.nc, x.val⟩ ∧
    L.toLevelSys.Usable fun t pos => (pos2index x.fp (openAxes x.fp false x.nc) pos).isSome ∧ V.team t := by
  have hp := hV.possible
  obtain ⟨h1, h2, h3⟩ := session_open hV.reads hV.file hV.opened
  have hO : Opened x.fp (cellCentered V.S.params) x.nc x.val V.c := ⟨hne, hx, _, _, _, _, h3⟩
  obtain ⟨wf, hx', hfp, hax, hval⟩ := hO.spec
  have hidx : ∀ pos, pos2index x.fp (openAxes x.fp false x.nc) pos = pos2index V.c.fp V.c.axes pos := by
    intro pos; rw [hfp, hax, pos2index_valuePosition x.fp false (cellCentered V.S.params)]
  cases hL with
  | other L' hm hL' =>
    obtain ⟨k1, k2⟩ := session_good hV hne hx hL'
    exact ⟨good_noComm k1, k2⟩
  | full s0 hk hm hF =>
    have hf : V.sel.type ≠ .FULL := by intro e; rw [e] at hm; cases hm
    obtain ⟨-, k2⟩ := session_good hV hne hx (.fullDist s0 hk hf hF)
    have hlib : (decide (V.sel.type.mpi = .window) && V.S.build.threadsafeMpi) = false := by
      rw [hm]; rfl
    have hus := usable_full (X := V.S.xfer V.K V.sel) (lib := false) wf hx' hF
    rw [hlib] at k2
    refine ⟨comm_good_only (good_translate hV.group (comm_good_local (good_comm_full hO hF) hus fun t pos v idx hv hi => ?_)), k2⟩
    exact localRead_value hO hF hv hi
  | cache hk hm =>
    have hC := session_legalMsg hp hV.numbers wf h1 h2 hm
    refine ⟨comm_good_only (good_translate hV.group (good_comm_cache hO rfl hC)), ?_⟩
    have hus := usable_only (team := V.team) (usable_comm_cache wf hx' (S := V.S.cache V.sel V.c) rfl hC)
    exact ⟨hus.1, hus.2, hus.3, fun s t pos hr hb h' => hus.4 s t pos hr hb ⟨by rw [← hidx]; exact h'.1, h'.2⟩⟩

/-- Every opened level has an implementation. -/
theorem session_comm_impl {rank : Nat → Nat} {V : OpenLevel α} {x : LevelVar α} (hV : ProperSession rank V x)
    (hne : x.nc ≠ []) (hx : SizesExact x.fp (x.nc.map NcAxis.size)) :
    ∃ L, CommImpl V L ∧ ∃ s : L.S, L.start s := by
  by_cases hth : V.sel.type.mpi = .thread
  · have hp := hV.possible
    obtain ⟨h1, h2, h3⟩ := session_open hV.reads hV.file hV.opened
    have hO : Opened x.fp (cellCentered V.S.params) x.nc x.val V.c := ⟨hne, hx, _, _, _, _, h3⟩
    obtain ⟨l, _, hl, -⟩ := CacheList.init_inv h2 hp.hand
    cases hk : V.sel.type.kind with
    | passThrough => cases e : V.sel.type <;> rw [e] at hk hth <;> first | exact absurd hk (by decide) | exact absurd hth (by decide)
    | cache => exact ⟨_, .cache hk hth, _, l, hl, rfl⟩
    | full =>
      have hf : V.sel.type ≠ .FULL := by intro e; rw [e] at hth; cases hth
      obtain ⟨s0, hF⟩ := session_fullOpened hV hne hx hk hf
      exact ⟨_, .full s0 hk hth hF, (_, fun _ => none), ⟨l, hl, rfl⟩, fun _ => rfl⟩
  · obtain ⟨L, h, s, hs⟩ := session_impl hV hne hx hth
    exact ⟨_, .other L hth h, s, hs⟩

/-- The registered tags. -/
theorem comm_tags {V : OpenLevel α} (hL : CommImpl V L) (P tag : Nat) (ht : tag ∈ L.tags P) :
    V.group.rank P ≠ none ∧ LevelTag V tag := by
  cases hL with
  | other L' => cases ht
  | full s0 hk hm =>
    change tag ∈ (match V.group.rank P with | some _ => [V.K.fullTag] | none => []) at ht
    split at ht
    · next e =>
      rw [show tag = V.K.fullTag from List.mem_singleton.1 ht, e]
      exact ⟨nofun, .full hk hm⟩
    · cases ht
  | cache hk hm =>
    change tag ∈ (match V.group.rank P with
      | some _ => [V.K.infoTag, V.K.xferTag, V.K.addTag, V.K.delTag]
      | none => []) at ht
    split at ht
    · next e =>
      rw [e]
      refine ⟨nofun, ?_⟩
      simp only [List.mem_cons, List.not_mem_nil, or_false] at ht
      rcases ht with rfl | rfl | rfl | rfl
      · exact .info hk hm
      · exact .xfer hk hm
      · exact .add hk hm
      · exact .del hk hm
    · cases ht

/-- The call itself sends nothing. -/
theorem comm_called_inbox {V : OpenLevel α} (hL : CommImpl V L) {t : Nat} {pos : List Dbl} {s x : L.S}
    (h : L.called t pos s x) : L.inbox x = L.inbox s := by
  cases hL with
  | other L' => rfl
  | full s0 =>
    have hw : x.1.wire = s.1.wire := by
      rcases h with ⟨⟨st', -, e⟩, -⟩ | ⟨e, -⟩
      · rw [e]
      · rw [e]
    refine tr_same (L := ((V.S.xfer V.K V.sel).commSys V.c s0.data).withLocal (V.localRead s0)) (s := s) (x := x) ?_
    show (fun q r => (x.1.wire q r).map Msg.tag) = fun q r => (s.1.wire q r).map Msg.tag
    rw [hw]
  | cache =>
    obtain ⟨st', -, rfl⟩ := h
    rfl

/-- Only CACHE grids with the communication thread refuse requests. -/
theorem comm_not_refused {V : OpenLevel α} (hL : CommImpl V L) (h : V.sel.type.kind = .cache → V.sel.type.mpi ≠ .thread)
    (s x : L.S) : ¬ L.refused s x := by
  cases hL with
  | other L' => exact id
  | full s0 => exact id
  | cache hk hm => exact absurd hm (h hk)

end Asagi
