import Verif.Proofs.ManyLevels
/-
A level that is used by some threads only has what is needed of a level.
-/
namespace Asagi
open Spec Props
variable {α : Type} {L : LevelSys α} {f : OpenedFile α}

theorem global_inj {R : Ranks} (h : ProperRanks R) {q r : Nat} (e : R.global q = R.global r) : q = r := by
  have := (h _ _).2 e
  rw [(h _ _).2 rfl] at this
  exact (Option.some.inj this).symm

theorem all_proper : ProperRanks .all := fun _ _ => ⟨fun h => (Option.some.inj h).symm, fun h => congrArg some h.symm⟩

/-! ### Some threads only -/

section
variable {team : Nat → Prop}

theorem only_reach {s : L.S} (h : (L.only team).Reach s) : L.Reach s := by
  induction h with
  | init h => exact .init h
  | step _ hs ih => exact .step ih hs.1

theorem only_quiet {s x : L.S} (h : L.Quiet s x) : (L.only team).Quiet s x :=
  ⟨⟨h.1, fun t h1 h2 => absurd (h.2 t h1) h2⟩, h.2⟩

theorem only_run {n : Nat} {s x : (L.only team).S} (h : (L.only team).QuietRun n s x) : L.QuietRun n s x := by
  induction h with
  | zero => exact .zero _
  | succ _ hq ih => exact .succ ih ⟨hq.1.1, hq.2⟩

theorem only_during {t : Nat} {s x : (L.only team).S} (h : (L.only team).During t s x) : L.During t s x := by
  induction h with
  | refl => exact .refl _
  | tail _ hs hb ih => exact .tail ih hs.1 hb

theorem safe_only (h : L.Safe f) : (L.only team).Safe f where
  fresh := h.fresh
  usesBusy := fun s k t hr => h.usesBusy s k t (only_reach hr)
  single := fun s x k t u hr hs => h.single s x k t u (only_reach hr) hs.1
  value := fun s s1 s2 t pos idx v hr hs hc hd =>
    h.value s s1 s2 t pos idx v (only_reach hr) hs.1 hc (only_during hd)

theorem good_only (h : L.Good f) : (L.only team).Good f where
  toSafe := safe_only h.toSafe
  free := fun s t hr hb => by
    obtain ⟨x, hq⟩ := h.free s t (only_reach hr) hb
    exact ⟨x, only_quiet hq⟩
  mpi := fun s t hr hu => by
    obtain ⟨x, hq, e⟩ := h.mpi s t (only_reach hr) hu
    exact ⟨x, only_quiet hq, e⟩
  netcdf := fun s t hr hu => by
    obtain ⟨x, hq, e⟩ := h.netcdf s t (only_reach hr) hu
    exact ⟨x, only_quiet hq, e⟩
  bound := fun s hr => by
    obtain ⟨N, hN⟩ := h.bound s (only_reach hr)
    exact ⟨N, fun n x hq => hN n x (only_run hq)⟩

end

end Asagi
