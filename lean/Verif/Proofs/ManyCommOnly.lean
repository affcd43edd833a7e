import Verif.Proofs.ManyCommKinds
import Verif.Proofs.ManyLevelsOnly
/-
Grids that are opened by some of the processes, and used by some threads.
-/
namespace Asagi
open Spec Props
variable {α : Type} {L : CommSys α} {f : OpenedFile α}

/-! ### Some threads only -/

section
variable {team : Nat → Prop}

theorem comm_only_calm {s x : L.S} (h : L.Calm s x) : (L.only team).Calm s x :=
  ⟨⟨h.1, fun t h1 h2 => absurd (h.2 t h1) h2⟩, h.2⟩

theorem comm_only_run {n k : Nat} {s x : (L.only team).S} (h : (L.only team).QuietRun n k s x) : L.QuietRun n k s x := by
  induction h with
  | zero => exact .zero _
  | served _ hq hn ih => exact .served ih ⟨hq.1.1, hq.2⟩ hn
  | refused _ hq hn ih => exact .refused ih ⟨hq.1.1, hq.2⟩ hn

theorem comm_good_only (h : L.Good f) : (L.only team).Good f where
  toSafe := safe_only h.toSafe
  syncStep := fun s x hs => ⟨h.syncStep s x hs.1, hs.2⟩
  empty := h.empty
  tagged := fun s q r hr => h.tagged s q r (only_reach hr)
  msgs := fun s x hr hs => h.msgs s x (only_reach hr) hs.1
  serves := fun s x r hr hs => h.serves s x r (only_reach hr) hs.1
  netcdf := fun s t hr hu => by
    obtain ⟨x, hq, e⟩ := h.netcdf s t (only_reach hr) hu
    exact ⟨x, comm_only_calm hq, e⟩
  mpi := fun s t hr hu => by
    obtain ⟨x, hq, e⟩ := h.mpi s t (only_reach hr) hu
    exact ⟨x, comm_only_calm hq, e⟩
  serve := fun s r hr hu => by
    obtain ⟨x, hq, e⟩ := h.serve s r (only_reach hr) hu
    exact ⟨x, comm_only_calm hq, e⟩
  take := fun s q r tag l hr hn hi => by
    obtain ⟨x, hq, e⟩ := h.take s q r tag l (only_reach hr) hn hi
    exact ⟨x, comm_only_calm hq, e⟩
  free := fun s t hr hb hn hi => by
    obtain ⟨x, hq⟩ := h.free s t (only_reach hr) hb hn hi
    exact ⟨x, comm_only_calm hq⟩
  unchanged := h.unchanged
  bound := fun s hr => by
    obtain ⟨N, K, hN⟩ := h.bound s (only_reach hr)
    exact ⟨N, K, fun n k x hq => hN n k x (comm_only_run hq)⟩
end

/-! ### Some processes only -/

section
variable {R : Ranks}

theorem tr_inbox (L : CommSys α) (hR : ProperRanks R) (s : (L.translate R).S) (q r : Nat) :
    (L.translate R).inbox s (R.global q) (R.global r) = L.inbox s q r := by
  show (match R.rank (R.global q), R.rank (R.global r) with | some q, some r => L.inbox s q r | _, _ => []) = _
  rw [(hR _ _).2 rfl, (hR _ _).2 rfl]

theorem tr_serving (L : CommSys α) (hR : ProperRanks R) (s : (L.translate R).S) (r : Nat) :
    (L.translate R).serving s (R.global r) ↔ L.serving s r := by
  show (match R.rank (R.global r) with | some r => L.serving s r | none => False) ↔ _
  rw [(hR _ _).2 rfl]

/-- Messages are on their way between processes of the communicator only. -/
theorem tr_inside (L : CommSys α) (hR : ProperRanks R) (Q P : Nat) : (∃ q r, R.global q = Q ∧ R.global r = P) ∨
    ∀ x : (L.translate R).S, (L.translate R).inbox x Q P = [] := by
  cases hQ : R.rank Q with
  | none =>
    refine .inr fun x => ?_
    show (match R.rank Q, R.rank P with | some q, some r => L.inbox x q r | _, _ => []) = _
    rw [hQ]
  | some q =>
    cases hP : R.rank P with
    | none =>
      refine .inr fun x => ?_
      show (match R.rank Q, R.rank P with | some q, some r => L.inbox x q r | _, _ => []) = _
      rw [hQ, hP]
    | some r => exact .inl ⟨q, r, (hR _ _).1 hQ, (hR _ _).1 hP⟩

theorem tr_serves (L : CommSys α) (hR : ProperRanks R) {s : (L.translate R).S} {P : Nat} (h : (L.translate R).serving s P) :
    ∃ r, R.global r = P ∧ L.serving s r := by
  change (match R.rank P with | some r => L.serving s r | none => False) at h
  cases hP : R.rank P with
  | none => rw [hP] at h; exact h.elim
  | some r => rw [hP] at h; exact ⟨r, (hR _ _).1 hP, h⟩

theorem tr_same {s x : (L.translate R).S} (h : L.inbox x = L.inbox s) :
    (L.translate R).inbox x = (L.translate R).inbox s := by
  funext Q P
  show (match R.rank Q, R.rank P with | some q, some r => L.inbox x q r | _, _ => []) =
    (match R.rank Q, R.rank P with | some q, some r => L.inbox s q r | _, _ => [])
  rw [h]

theorem tr_run {n k : Nat} {s x : (L.translate R).S} (h : (L.translate R).QuietRun n k s x) : L.QuietRun n k s x := by
  induction h with
  | zero => exact .zero _
  | served _ hq hn ih => exact .served ih hq hn
  | refused _ hq hn ih => exact .refused ih hq hn

theorem good_translate (hR : ProperRanks R) (h : L.Good f) : (L.translate R).Good f where
  toSafe := h.toSafe
  syncStep := h.syncStep
  empty := fun s hs Q P => by
    refine ⟨?_, fun hp => ?_⟩
    · rcases tr_inside L hR Q P with ⟨q, r, rfl, rfl⟩ | e
      · rw [tr_inbox L hR]; exact (h.empty s hs q r).1
      · exact e s
    · obtain ⟨r, -, hr⟩ := tr_serves L hR hp
      exact (h.empty s hs 0 r).2 hr
  tagged := fun s Q P hr tag ht => by
    rcases tr_inside L hR Q P with ⟨q, r, rfl, rfl⟩ | e
    · rw [tr_inbox L hR] at ht
      show tag ∈ (match R.rank (R.global r) with | some r => L.tags r | none => [])
      rw [(hR _ _).2 rfl]
      exact h.tagged s q r hr tag ht
    · rw [e s] at ht; cases ht
  msgs := fun s x hr hs Q P => by
    rcases tr_inside L hR Q P with ⟨q, r, rfl, rfl⟩ | e
    · rw [tr_inbox L hR, tr_inbox L hR]; exact h.msgs s x hr hs q r
    · rw [e s, e x]; exact .inl rfl
  serves := fun s x P hr hs h1 h2 => by
    obtain ⟨r, rfl, h1'⟩ := tr_serves L hR h1
    rw [tr_serving L hR] at h2
    obtain ⟨q, tag, e⟩ := h.serves s x r hr hs h1' h2
    exact ⟨R.global q, tag, by rw [tr_inbox L hR, tr_inbox L hR]; exact e⟩
  netcdf := fun s t hr hu => by
    obtain ⟨x, hq, e1, e2⟩ := h.netcdf s t hr hu
    exact ⟨x, hq, e1, tr_same e2⟩
  mpi := fun s t hr hu => by
    obtain ⟨x, hq, e1, e2⟩ := h.mpi s t hr hu
    exact ⟨x, hq, e1, tr_same e2⟩
  serve := fun s P hr hu => by
    obtain ⟨r, -, hr'⟩ := tr_serves L hR hu
    obtain ⟨x, hq, e⟩ := h.serve s r hr hr'
    exact ⟨x, hq, tr_same e⟩
  take := fun s Q P tag l hr hn hi => by
    rcases tr_inside L hR Q P with ⟨q, r, rfl, rfl⟩ | e
    · rw [tr_inbox L hR] at hi
      obtain ⟨x, hq, e⟩ := h.take s q r tag l hr (fun r hr => hn _ ((tr_serving L hR s r).2 hr)) hi
      refine ⟨x, hq, ?_⟩
      funext Q' P'
      rcases tr_inside L hR Q' P' with ⟨q', r', rfl, rfl⟩ | e'
      · refine (tr_inbox L hR x q' r').trans ?_
        rw [e, upd_apply, upd_apply]
        by_cases e1 : q' = q
        · subst e1
          rw [if_pos rfl, if_pos rfl, upd_apply, upd_apply]
          by_cases e2 : r' = r
          · rw [if_pos e2, if_pos (by rw [e2])]
          · rw [if_neg e2, if_neg fun h => e2 (global_inj hR h)]; exact (tr_inbox L hR s q' r').symm
        · rw [if_neg e1, if_neg fun h => e1 (global_inj hR h)]; exact (tr_inbox L hR s q' r').symm
      · rw [e' x, upd_apply]
        split
        · next e1 =>
          subst e1
          rw [upd_apply]
          split
          · next e2 =>
            subst e2
            have := e' s
            rw [tr_inbox L hR, hi] at this
            cases this
          · exact (e' s).symm
        · exact (e' s).symm
    · rw [e s] at hi; cases hi
  free := fun s t hr hb hn hi => h.free s t hr hb (fun r hr => hn _ ((tr_serving L hR s r).2 hr)) fun q r => by
    rw [← tr_inbox L hR]; exact hi _ _
  unchanged := h.unchanged
  bound := fun s hr => by
    obtain ⟨N, K, hN⟩ := h.bound s hr
    exact ⟨N, K, fun n k x hq => hN n k x (tr_run hq)⟩
end

/-- All kinds of levels have what is needed. -/
theorem good_comm {rank : Nat → Nat} {L : CommSys α} (h : ProperComm rank f L) : L.Good f := by
  induction h with
  | other L h => exact good_noComm (good_proper h)
  | full c X s0 ho hf _ _ => exact good_comm_full ho hf
  | cache c S C ho hP hC _ => exact good_comm_cache ho hP hC
  | some L R rank' team _ hR _ ih => exact comm_good_only (good_translate hR ih)

end Asagi
