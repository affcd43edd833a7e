import Verif.Model.CloseSessions
import Verif.Proofs.CommSessions
import Verif.Proofs.ManyCloseAll
/-
Levels that are used and closed by some of the processes and some of the threads.
-/
namespace Asagi
open Spec Props
variable {α : Type} {W : CloseSys α} {f : OpenedFile α} {rank : Nat → Nat} {mem : Nat → Prop}

/-- Fewer steps, but still those that are needed. -/
theorem good_restrict {L : CommSys α} (h : L.Good f) {step sync : L.S → L.S → Prop} (h1 : ∀ s x, step s x → L.step s x)
    (h2 : ∀ s x, sync s x → step s x) (h3 : ∀ s x, Reachable L.start step s → L.Calm s x → sync s x) :
    CommSys.Good { L with step := step, sync := sync } f := by
  have hr : ∀ {s}, Reachable L.start step s → L.Reach s := by
    intro s hs
    induction hs with
    | init h => exact .init h
    | step _ hs ih => exact .step ih (h1 _ _ hs)
  have hc : ∀ {s x}, Reachable L.start step s → L.Calm s x → CommSys.Calm { L with step := step, sync := sync } s x :=
    fun hs hq => ⟨h3 _ _ hs hq, hq.2⟩
  constructor
  case toSafe =>
    refine ⟨h.fresh, fun s k t hs => h.usesBusy s k t (hr hs), fun s x k t u hs hst => h.single s x k t u (hr hs) (h1 _ _ hst),
      fun s s1 s2 t pos idx v hs hst hc hd => h.value s s1 s2 t pos idx v (hr hs) (h1 _ _ hst) hc ?_⟩
    clear hc
    induction hd with
    | refl => exact .refl _
    | tail _ hs hb ih => exact .tail ih (h1 _ _ hs) hb
  case syncStep => exact h2
  case empty => exact h.empty
  case tagged => exact fun s q r hs => h.tagged s q r (hr hs)
  case msgs => exact fun s x hs hst => h.msgs s x (hr hs) (h1 _ _ hst)
  case serves => exact fun s x r hs hst => h.serves s x r (hr hs) (h1 _ _ hst)
  case netcdf =>
    intro s t hs hu
    obtain ⟨x, hq, e⟩ := h.netcdf s t (hr hs) hu
    exact ⟨x, hc hs hq, e⟩
  case mpi =>
    intro s t hs hu
    obtain ⟨x, hq, e⟩ := h.mpi s t (hr hs) hu
    exact ⟨x, hc hs hq, e⟩
  case serve =>
    intro s r hs hu
    obtain ⟨x, hq, e⟩ := h.serve s r (hr hs) hu
    exact ⟨x, hc hs hq, e⟩
  case take =>
    intro s q r tag l hs hn hi
    obtain ⟨x, hq, e⟩ := h.take s q r tag l (hr hs) hn hi
    exact ⟨x, hc hs hq, e⟩
  case free =>
    intro s t hs hb hn hi
    obtain ⟨x, hq⟩ := h.free s t (hr hs) hb hn hi
    exact ⟨x, hc hs hq⟩
  case unchanged => exact h.unchanged
  case bound =>
    intro s hs
    obtain ⟨N, K, hN⟩ := h.bound s (hr hs)
    refine ⟨N, K, fun n k x hq => hN n k x ?_⟩
    clear hN
    induction hq with
    | zero => exact .zero _
    | served _ hq hn ih => exact .served (ih hs) ⟨h1 _ _ hq.1, hq.2⟩ hn
    | refused _ hq hn ih => exact .refused (ih hs) ⟨h1 _ _ hq.1, hq.2⟩ hn

/-- A call of a getter is possible, in a process that has not called `close`. -/
structure CloseSys.Callable (W : CloseSys α) (rank : Nat → Nat) (can : Nat → List Dbl → Prop) : Prop where
  calledBusy : ∀ t pos s x, W.called t pos s x → ¬ W.busy s t ∧ W.busy x t
  returnsBusy : ∀ t s v, W.returns t s v → W.busy s t
  leaves : ∀ s x t, W.Reach s → W.step s x → W.busy s t → ¬ W.busy x t → ∃ v, W.returns t s v
  canCall : ∀ s t pos, W.Reach s → ¬ W.busy s t → W.stage s (rank t) = 0 → can t pos →
    ∃ x, W.step s x ∧ W.called t pos s x ∧ (∀ u, W.busy x u → W.busy s u ∨ u = t) ∧
      (∀ k u, W.uses k x u → W.uses k s u) ∧ W.inbox x = W.inbox s ∧ W.stage x = W.stage s

/-! ### Some threads only -/

section
variable {team : Nat → Prop}

theorem close_only_reach {s : W.S} (h : (W.only team).Reach s) : W.Reach s := by
  induction h with
  | init h => exact .init h
  | step _ hs ih => exact .step ih hs.1

theorem close_only_team (hf : W.Fine mem rank f) {s : W.S} (h : (W.only team).Reach s) : ∀ t, W.busy s t → team t := by
  induction h with
  | init h => exact fun t hb => (hf.good.fresh _ t h hb).elim
  | @step s x _ hs ih =>
    intro t hb
    by_cases h0 : W.busy s t
    · exact ih t h0
    · exact hs.2 t hb h0

theorem fine_only (h : W.Fine mem rank f) : (W.only team).Fine mem rank f where
  good := good_restrict (L := W.calm.only team) (comm_good_only h.good) (fun s x hs => hs)
    (fun s x hs => ⟨h.syncStep _ _ hs.1.1, hs.1.2⟩) fun s x _ hq => ⟨⟨hq.1.1.1, hq.1.2⟩, hq.1.1.2⟩
  syncStep := fun s x hs => ⟨h.syncStep _ _ hs.1, hs.2⟩
  notCalled := h.notCalled
  idle := fun s t hr => h.idle s t (close_only_reach hr)
  out := fun s r hr => h.out s r (close_only_reach hr)
  bar := fun s r hr => h.bar s r (close_only_reach hr)
  advance := fun s r hr h1 h2 h3 h4 => by
    obtain ⟨x, e1, e2, e3, e4⟩ := h.advance s r (close_only_reach hr) h1 h2 h3 h4
    exact ⟨x, ⟨e1, fun t hb hn => absurd (e3 t hb) hn⟩, e2, e3, e4⟩

theorem callable_only {can : Nat → List Dbl → Prop} (h : W.Callable rank can) :
    (W.only team).Callable rank fun t pos => can t pos ∧ team t where
  calledBusy := h.calledBusy
  returnsBusy := h.returnsBusy
  leaves := fun s x t hr hs => h.leaves s x t (close_only_reach hr) hs.1
  canCall := fun s t pos hr hb h0 hc => by
    obtain ⟨x, e1, e2, e3, e4⟩ := h.canCall s t pos (close_only_reach hr) hb h0 hc.1
    refine ⟨x, ⟨e1, fun u hu hn => ?_⟩, e2, e3, e4⟩
    rcases e3 u hu with e | e
    · exact absurd e hn
    · exact e ▸ hc.2
end

/-! ### Some processes only -/

section
variable {R : Ranks} {rank' : Nat → Nat}

theorem tr_stage (W : CloseSys α) {P r : Nat} (h : R.rank P = some r) (s : (W.translate R).S) :
    (W.translate R).stage s P = W.stage s r := by
  show (match R.rank P with | some r => W.stage s r | none => 0) = _
  rw [h]

theorem tr_stage_none (W : CloseSys α) {P : Nat} (h : R.rank P = none) (s : (W.translate R).S) : (W.translate R).stage s P = 0 := by
  show (match R.rank P with | some r => W.stage s r | none => 0) = _
  rw [h]

theorem tr_stage_same {s x : (W.translate R).S} (h : W.stage x = W.stage s) : (W.translate R).stage x = (W.translate R).stage s := by
  funext P
  cases hP : R.rank P with
  | none => rw [tr_stage_none W hP, tr_stage_none W hP]
  | some r => rw [tr_stage W hP, tr_stage W hP, h]

theorem fine_translate (hR : ProperRanks R) (h : W.Fine mem rank' f)
    (hrank : ∀ s t, W.Reach s → W.busy s t → R.rank (rank t) = some (rank' t)) :
    (W.translate R).Fine (fun P => ∃ r, mem r ∧ R.rank P = some r) rank f where
  good := good_restrict (L := W.calm.translate R) (good_translate hR h.good) (fun s x hs => hs)
    (fun s x hs => h.syncStep _ _ hs.1) fun s x _ hq => ⟨hq.1.1, tr_stage_same hq.1.2⟩
  syncStep := h.syncStep
  notCalled := h.notCalled
  idle := fun s t hr h0 hb => by
    rw [tr_stage W (hrank s t hr hb)] at h0
    exact h.idle s t hr h0 hb
  out := fun s P hr h0 => by
    cases hP : R.rank P with
    | none => exact tr_stage_none W hP s
    | some r => rw [tr_stage W hP]; exact h.out s r hr fun hm => h0 ⟨r, hm, hP⟩
  bar := fun s P hr h2 Q hQ => by
    obtain ⟨q, hq, e⟩ := hQ
    rw [tr_stage W e]
    cases hP : R.rank P with
    | none => rw [tr_stage_none W hP] at h2; omega
    | some r => rw [tr_stage W hP] at h2; exact h.bar s r hr h2 q hq
  advance := fun s P hr hb hn hm hc => by
    obtain ⟨r, hm, hP⟩ := hm
    rw [tr_stage W hP] at hc
    obtain ⟨x, e1, e2, e3, e4, e5⟩ := h.advance s r hr hb (fun r hs => hn _ ((tr_serving W.toCommSys hR s r).2 hs)) hm hc
    refine ⟨x, e1, tr_same e2, e3, e4, fun Q hQ => ?_⟩
    cases hq : R.rank Q with
    | none => exact (tr_stage_none W hq _).trans (tr_stage_none W hq _).symm
    | some q => exact (tr_stage W hq _).trans ((e5 q fun hm => hQ ⟨q, hm, hq⟩).trans (tr_stage W hq _).symm)

theorem callable_translate {can : Nat → List Dbl → Prop} (h : W.Callable rank' can)
    (hrank : ∀ t pos, can t pos → R.rank (rank t) = some (rank' t)) : (W.translate R).Callable rank can where
  calledBusy := h.calledBusy
  returnsBusy := h.returnsBusy
  leaves := h.leaves
  canCall := fun s t pos hr hb h0 hc => by
    rw [tr_stage W (hrank t pos hc)] at h0
    obtain ⟨x, e1, e2, e3, e4, e5, e6⟩ := h.canCall s t pos hr hb h0 hc
    exact ⟨x, e1, e2, e3, e4, tr_same e5, tr_stage_same e6⟩
end

/-! ### Direct reads -/

section
variable {read : Nat → List Dbl → Option α}

theorem close_local_inv {s : (W.withLocal rank read).S} (h : (W.withLocal rank read).Reach s) :
    (W.calm.withLocal read).Reach s ∧ ∀ t, s.2 t ≠ none → W.stage s.1 (rank t) = 0 := by
  induction h with
  | init h => exact ⟨.init h, fun t ht => absurd (h.2 t) ht⟩
  | @step s x _ hs ih =>
    obtain ⟨i1, i2⟩ := ih
    rcases hs with ⟨h1, h2, h3, h4⟩ | ⟨h1, t, ⟨h2, h3, h4, pos, v, h5, h6⟩ | ⟨h2, h3⟩⟩
    · exact ⟨.step i1 (.inl ⟨h1, h2, h3⟩), fun t ht => h4 t (h2 ▸ ht)⟩
    · refine ⟨.step i1 (.inr ⟨h1, t, .inl ⟨h2, h3, pos, v, h5, h6⟩⟩), fun u hu => ?_⟩
      rw [h1]
      by_cases e : u = t
      · subst e; exact h4
      · rw [h6, upd_ne _ _ e] at hu; exact i2 u hu
    · refine ⟨.step i1 (.inr ⟨h1, t, .inr ⟨h2, h3⟩⟩), fun u hu => ?_⟩
      rw [h1]
      rw [h3, upd_apply] at hu
      split at hu
      · exact absurd rfl hu
      · exact i2 u hu

theorem callable_usable {can : Nat → List Dbl → Prop} (h : W.Callable rank can) :
    W.calm.toLevelSys.Usable fun _ _ => False :=
  ⟨h.calledBusy, h.returnsBusy, h.leaves, fun _ _ _ _ _ h => h.elim⟩

theorem fine_local (h : W.Fine mem rank f) {can : Nat → List Dbl → Prop} (hc : W.Callable rank can)
    (hread : ∀ t pos v idx, read t pos = some v →
      pos2index f.fp (openAxes f.fp f.cc f.nc) pos = some idx → v = f.val idx) :
    (W.withLocal rank read).Fine mem rank f where
  good := by
    refine good_restrict (L := W.calm.withLocal read) (comm_good_local h.good (callable_usable hc) hread)
      (fun s x hs => ?_) (fun s x hs => ?_) fun s x hr hq => ?_
    · rcases hs with ⟨h1, h2, h3, -⟩ | ⟨h1, t, ⟨h2, h3, -, h4⟩ | h2⟩
      · exact .inl ⟨h1, h2, h3⟩
      · exact .inr ⟨h1, t, .inl ⟨h2, h3, h4⟩⟩
      · exact .inr ⟨h1, t, .inr h2⟩
    · rcases hs.1 with ⟨h1, h2⟩ | h1
      · exact .inl ⟨h.syncStep _ _ h1, h2⟩
      · exact .inr h1
    · have hi := (close_local_inv hr).2
      obtain ⟨hs, hb⟩ := hq
      rcases hs with ⟨h1, h2, h3⟩ | ⟨h1, t, ⟨h2, h3, pos, v, h4, h5⟩ | h2⟩
      · exact ⟨.inl ⟨h1.1, h2, h3, fun t ht => (congrFun h1.2 _).trans (hi t ht)⟩, h1.2⟩
      · exfalso
        rcases hb t (.inr (by rw [h5, upd_self]; nofun)) with e | e
        · exact h2 e
        · exact e h3
      · exact ⟨.inr ⟨h1, t, .inr h2⟩, congrArg W.stage h1⟩
  syncStep := fun s x hs => by
    rcases hs with ⟨h1, h2⟩ | h1
    · exact .inl ⟨h.syncStep _ _ h1, h2⟩
    · exact .inr h1
  notCalled := fun t pos s hcl => by
    rcases hcl with ⟨h1, -⟩ | ⟨-, -, h2, v, -, h3⟩
    · exact h.notCalled t pos _ h1
    · have := congrFun h3 t
      rw [upd_self, h2] at this; cases this
  idle := fun s t hr h0 hb => by
    obtain ⟨h1, h2⟩ := close_local_inv hr
    rcases hb with hb | hb
    · exact h.idle s.1 t (local_inv h1).1 h0 hb
    · exact h0 (h2 t hb)
  out := fun s r hr => h.out s.1 r (local_inv (close_local_inv hr).1).1
  bar := fun s r hr => h.bar s.1 r (local_inv (close_local_inv hr).1).1
  advance := fun s r hr hb hn hm h4 => by
    obtain ⟨x, e1, e2, e3, e4, e5⟩ := h.advance s.1 r (local_inv (close_local_inv hr).1).1 (fun t ht => hb t (.inl ht)) hn hm h4
    have hl : ∀ t, s.2 t = none := fun t => Classical.not_not.1 fun e => hb t (.inr e)
    refine ⟨(x, s.2), .inl ⟨e1, rfl, fun t _ => hl t, fun t ht => absurd (hl t) ht⟩, e2, fun t ht => ?_, e4, e5⟩
    rcases ht with ht | ht
    · exact .inl (e3 t ht)
    · exact .inr ht

theorem callable_local {can can' : Nat → List Dbl → Prop} (hus : W.Callable rank can)
    (hc : ∀ t pos, can' t pos → (read t pos).isSome ∨ can t pos) : (W.withLocal rank read).Callable rank can' where
  calledBusy := (usable_local (can' := fun _ _ => False) (callable_usable hus) (read := read) (fun _ _ h => h.elim)).calledBusy
  returnsBusy := (usable_local (can' := fun _ _ => False) (callable_usable hus) (read := read) (fun _ _ h => h.elim)).returnsBusy
  leaves := fun s x t hr hs =>
    (usable_local (can' := fun _ _ => False) (callable_usable hus) (read := read) (fun _ _ h => h.elim)).leaves s x t
      (close_local_inv hr).1 (by
        rcases hs with ⟨h1, h2, h3, -⟩ | ⟨h1, t, ⟨h2, h3, -, h4⟩ | h2⟩
        · exact .inl ⟨h1, h2, h3⟩
        · exact .inr ⟨h1, t, .inl ⟨h2, h3, h4⟩⟩
        · exact .inr ⟨h1, t, .inr h2⟩)
  canCall := fun s t pos hr hb h0 h => by
    obtain ⟨i1, i2⟩ := close_local_inv hr
    obtain ⟨h1, h2, -⟩ := local_inv i1
    have hb1 : ¬ W.busy s.1 t := fun h => hb (.inl h)
    have hb2 : s.2 t = none := Classical.not_not.1 fun e => hb (.inr e)
    by_cases hrd : (read t pos).isSome
    · obtain ⟨v, hv⟩ := Option.isSome_iff_exists.1 hrd
      refine ⟨(s.1, upd s.2 t (some v)), .inr ⟨rfl, t, .inl ⟨hb1, hb2, h0, pos, v, hv, rfl⟩⟩,
        .inr ⟨rfl, hb1, hb2, v, hv, rfl⟩, fun u hu => ?_, fun k u hu => hu, rfl, rfl⟩
      rcases hu with hu | hu
      · exact .inl (.inl hu)
      · by_cases e : u = t
        · exact .inr e
        · change upd s.2 t (some v) u ≠ none at hu
          rw [upd_ne _ _ e] at hu; exact .inl (.inr hu)
    · obtain ⟨x, e1, e2, e3, e4, e5, e6⟩ := hus.canCall s.1 t pos h1 hb1 h0 ((hc t pos h).resolve_left hrd)
      refine ⟨(x, s.2), .inl ⟨e1, rfl, fun u hu => ?_, fun u hu => (congrFun e6 _).trans (i2 u hu)⟩, .inl ⟨e2, hb2, rfl⟩, fun u hu => ?_, e4, e5, e6⟩
      · rcases e3 u hu with e | e
        · exact h2 u e
        · exact e ▸ hb2
      · rcases hu with hu | hu
        · rcases e3 u hu with e | e
          · exact .inl (.inl e)
          · exact .inr e
        · exact .inl (.inr hu)
end

/-! ### The kinds of levels -/

theorem Wrap.callable {B : CommSys α} {base : W.S → B.S} {procs : Nat} {μ : W.S → Nat → Prop}
    (h : Wrap B W base rank procs μ f) {can : Nat → List Dbl → Prop} (hu : B.toLevelSys.Usable can)
    (hlift : ∀ s y t, W.Reach s → W.stage s (rank t) = 0 → B.step (base s) y → B.busy y t →
      (∀ u, W.stage s (rank u) ≠ 0 → ¬ B.busy y u) → ∃ x, W.step s x ∧ W.stage x = W.stage s ∧ base x = y)
    (hbox : ∀ t pos s x, B.called t pos s x → B.inbox x = B.inbox s) : W.Callable rank can where
  calledBusy := fun t pos s x hc => by
    rw [h.called] at hc
    rw [h.busy, h.busy]
    exact hu.calledBusy _ _ _ _ hc
  returnsBusy := fun t s v hv => by
    rw [h.returns] at hv
    rw [h.busy]
    exact hu.returnsBusy _ _ _ hv
  leaves := fun s x t hr hs hb hn => by
    rw [h.busy] at hb hn
    have hused := h.busyUsed hr hb
    rcases h.step s x hr hs with ⟨e, -⟩ | ⟨e, -⟩ | ⟨e, -⟩
    · obtain ⟨v, hv⟩ := hu.leaves _ _ t (h.used s hr hused) e hb hn
      exact ⟨v, by rw [h.returns]; exact hv⟩
    · exact absurd hused e
    · rw [e] at hn; exact absurd hb hn
  canCall := fun s t pos hr hb h0 hc => by
    rw [h.busy] at hb
    obtain ⟨y, e1, e2, e3, e4⟩ := hu.canCall (base s) t pos (h.used s hr ⟨_, h.ranks t, h0⟩) hb hc
    obtain ⟨x, g1, g2, g3⟩ := hlift s y t hr h0 e1 (hu.calledBusy _ _ _ _ e2).2 fun u hu hbu => by
      rcases e3 u hbu with e | e
      · exact h.idle s u hr hu e
      · rw [e] at hu; exact hu h0
    subst g3
    refine ⟨x, g1, by rw [h.called]; exact e2, fun u => ?_, fun k u => ?_, ?_, g2⟩
    · rw [h.busy, h.busy]; exact e3 u
    · rw [h.uses, h.uses]; exact e4 k u
    · rw [h.inbox, h.inbox]; exact hbox _ _ _ _ e2

theorem callable_cache {c : LevelCfg α} {S : SharedCfg α} {C : MsgParams α} {procs : Nat}
    (h : Opened f.fp f.cc f.nc f.val c) (hP : C.P = c.shared S)
    (hC : LegalMsg C) (hp : ∀ t, C.P.rankT t < procs) :
    (C.closeSys c procs).Callable C.P.rankT fun _ pos => (pos2index c.fp c.axes pos).isSome := by
  obtain ⟨wf, hx, -, -, -⟩ := h.spec
  refine (wrap_cache h hP hC hp).callable (usable_comm_cache wf hx hP hC) (fun s y t hr h0 hs hb hn => ?_) ?_
  · refine ⟨{ s with ms := y }, C92_served hC hp hr _ (hp t) h0 y hs fun u hu => ?_, rfl, rfl⟩
    rw [(CloseReach.inv hC hp hr).idle u hu]
    exact Classical.not_not.1 (hn u hu)
  · rintro t pos s x ⟨st', -, rfl⟩; rfl

theorem callable_full {c : LevelCfg α} {X : XferCfg α} {s0 : FullDist α} {procs : Nat}
    (h : Opened f.fp f.cc f.nc f.val c) (ho : FullOpened c X.F s0) (hw : X.win = false) (hp : ∀ t, X.rankT t < procs)
    {can : Nat → List Dbl → Prop} (hu : (X.commSys c s0.data).toLevelSys.Usable can) :
    (X.closeSys c s0.data procs).Callable X.rankT can := by
  refine (wrap_full h ho hw hp).callable hu (fun s y t hr h0 hs hb hn => ?_) ?_
  · refine ⟨{ s with x := y }, C92_full_served hp hr _ (hp t) h0 y hs fun u hu => ?_, rfl, rfl⟩
    rw [(CloseFullReach.inv hp hr).idle u hu]
    exact Classical.not_not.1 (hn u hu)
  · rintro t pos s x ⟨st', -, rfl⟩; rfl

section
variable {L : LevelSys α} {procs : Nat} {can : Nat → List Dbl → Prop}

theorem wrap_usable (hg : L.Good f) (hu : L.Usable can) (hp : ∀ t, rank t < procs) :
    Wrap L.noComm (L.closeSys rank procs) Prod.fst rank procs (fun s m => m = ∑ r ∈ Finset.range procs, (3 - s.2 r)) f :=
  wrap_level hg (fun t pos y hc => (hu.calledBusy t pos y y hc).1 (hu.calledBusy t pos y y hc).2) hu.returnsBusy hp

theorem callable_level (hg : L.Good f) (hu : L.Usable can) (hp : ∀ t, rank t < procs) :
    (L.closeSys rank procs).Callable rank can :=
  (wrap_usable hg hu hp).callable hu (fun s y t _ h0 hs hb hn => ⟨(y, s.2), .use s.1 y s.2 hs ⟨t, h0, .inr hb⟩ hn, rfl, rfl⟩)
    fun _ _ _ _ _ => rfl
end

end Asagi
