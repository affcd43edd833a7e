import Verif.Proofs.ManyComm
import Verif.Proofs.ManyLevelsOther
import Verif.Props.MsgCache
/-
Several grids with the same communication threads: the kinds of levels.
-/
namespace Asagi
open Spec Props
variable {α : Type} {f : OpenedFile α}

/-! ### Without communication thread -/

theorem noComm_run {L : LevelSys α} {n k : Nat} {s x : L.noComm.S} (h : L.noComm.QuietRun n k s x) :
    L.QuietRun n s x := by
  induction h with
  | zero => exact .zero _
  | served _ hq _ ih => exact .succ ih hq
  | refused _ hq _ ih => exact .succ ih hq

theorem good_noComm {L : LevelSys α} (h : L.Good f) : L.noComm.Good f where
  toSafe := h.toSafe
  syncStep := fun _ _ h => h
  empty := fun _ _ _ _ => ⟨rfl, id⟩
  tagged := fun _ _ _ _ => nofun
  msgs := fun _ _ _ _ _ _ => .inl rfl
  serves := fun _ _ _ _ _ h => h.elim
  netcdf := fun s t hr hu => by
    obtain ⟨x, h1, h2⟩ := h.netcdf s t hr hu
    exact ⟨x, h1, h2, rfl⟩
  mpi := fun s t hr hu => by
    obtain ⟨x, h1, h2⟩ := h.mpi s t hr hu
    exact ⟨x, h1, h2, rfl⟩
  serve := fun _ _ _ h => h.elim
  take := fun _ _ _ _ _ _ _ h => by cases h
  free := fun s t hr hb _ _ => h.free s t hr hb
  unchanged := fun _ => id
  bound := fun s hr => by
    obtain ⟨N, hN⟩ := h.bound s hr
    exact ⟨N, 0, fun n k x hq => by have := hN n x (noComm_run hq); omega⟩

/-! ### Messages -/

/-- The tags of the messages. -/
def wireTags (w : Nat → Nat → List Msg) (q r : Nat) : List Nat := (w q r).map Msg.tag

theorem wireTags_upd (w : Nat → Nat → List Msg) (q r : Nat) (l : List Msg) :
    wireTags (upd w q (upd (w q) r l)) = upd (wireTags w) q (upd (wireTags w q) r (l.map Msg.tag)) := by
  funext q' r'
  unfold wireTags
  by_cases e1 : q' = q
  · subst e1
    rw [upd_self, upd_self]
    by_cases e2 : r' = r
    · subst e2; rw [upd_self, upd_self]
    · rw [upd_ne _ _ e2, upd_ne _ _ e2]
  · rw [upd_ne _ _ e1, upd_ne _ _ e1]

/-- Nothing, one more message, or one less. -/
def WireStep (w w' : Nat → Nat → List Msg) : Prop :=
  w' = w ∨ (∃ q r m, w' = upd w q (upd (w q) r (w q r ++ [m]))) ∨
    ∃ q r m rest, w q r = m :: rest ∧ w' = upd w q (upd (w q) r rest)

theorem WireStep.tags {w w' : Nat → Nat → List Msg} (h : WireStep w w') (q r : Nat) :
    wireTags w' q r = wireTags w q r ∨ (∃ tag, wireTags w' q r = wireTags w q r ++ [tag]) ∨
      ∃ tag, wireTags w q r = tag :: wireTags w' q r := by
  rcases h with rfl | ⟨q1, r1, m, rfl⟩ | ⟨q1, r1, m, rest, e, rfl⟩
  · exact .inl rfl
  all_goals
    rw [wireTags_upd]
    by_cases e1 : q = q1
    case neg => exact .inl (by rw [upd_ne _ _ e1])
    subst e1
    rw [upd_self]
    by_cases e2 : r = r1
    case neg => exact .inl (by rw [upd_ne _ _ e2])
    subst e2
    rw [upd_self]
  · refine .inr (.inl ⟨m.tag, ?_⟩)
    rw [List.map_append]; rfl
  · refine .inr (.inr ⟨m.tag, ?_⟩)
    unfold wireTags
    rw [e]; rfl

/-! ### Distributed FULL with the communication thread -/

section
variable {c : LevelCfg α} {X : XferCfg α} {data : Nat → Mem α} {x x' : XferSt α}

theorem comm_calm_full : (X.commSys c data).Calm x x' ↔ XferQuiet c X data false x x' :=
  ⟨fun h => ⟨h.1, fun t e => by by_contra hn; exact h.2 t hn e⟩,
   fun h => ⟨h.1, fun t hb e => hb (h.2 t e)⟩⟩

theorem comm_run_full {n k : Nat} {x x' : (X.commSys c data).S} (h : (X.commSys c data).QuietRun n k x x') :
    XferQuietRun c X data true n x x' := by
  induction h with
  | zero => exact .zero _
  | served _ hq _ ih => exact .succ ih (sys_quiet_full.1 hq)
  | refused _ hq _ ih => exact .succ ih (sys_quiet_full.1 hq)

theorem full_wire {early : Bool} (h : XferStep c X data early x x') : WireStep x.wire x'.wire := by
  cases h with
  | send => exact .inr (.inl ⟨_, _, _, rfl⟩)
  | take src r m rest buf h1 h2 => exact .inr (.inr ⟨src, r, m, rest, h2, rfl⟩)
  | _ => exact .inl rfl

theorem full_inbox (h : x'.wire = upd x.wire q (upd (x.wire q) r l)) :
    (X.commSys c data).inbox x' = upd ((X.commSys c data).inbox x) q
      (upd ((X.commSys c data).inbox x q) r (l.map Msg.tag)) := by
  have := wireTags_upd x.wire q r l
  rw [← h] at this
  exact this

theorem good_comm_full {s0 : FullDist α} (h : Opened f.fp f.cc f.nc f.val c) (ho : FullOpened c X.F s0) :
    (X.commSys c s0.data).Good f where
  toSafe := (good_full h ho (.inr rfl)).toSafe
  syncStep := fun _ _ h => XferStep.buffered h
  empty := by rintro s ⟨l, -, rfl⟩ q r; exact ⟨rfl, fun h => h rfl⟩
  tagged := by
    intro s q r hr tag ht
    obtain ⟨m, hm, rfl⟩ := List.mem_map.1 ht
    cases (XferReach.inv hr).1.chan q with
    | none e1 e2 e3 => rw [e2] at hm; cases hm
    | told t b off s k buf e1 e2 e3 e4 e5 e6 => rw [e4] at hm; cases hm
    | asked t b off s k e1 e2 e3 e4 e5 =>
      rw [e4] at hm
      split at hm
      · rw [List.mem_singleton] at hm; subst hm; exact List.mem_singleton.2 rfl
      · cases hm
  msgs := fun s x _ hs q r => (full_wire hs).tags q r
  serves := by
    intro s x r hr hs h1 h2
    have h2 : s.comm r = none := Classical.not_not.1 h2
    change x.comm r ≠ none at h1
    cases hs with
    | take src r' m rest buf g1 g2 g3 =>
      by_cases e : r = r'
      · subst e
        refine ⟨src, m.tag, ?_⟩
        rw [full_inbox (x := s) (q := src) (r := r) (l := rest) rfl, upd_self, upd_self]
        change (s.wire src r).map _ = _
        rw [g2]; rfl
      · exact absurd ((upd_ne s.comm _ e).trans h2) h1
    | answered r' dst tk g1 =>
      change upd s.comm r' none r ≠ none at h1
      rw [upd_apply] at h1
      split at h1
      · exact absurd rfl h1
      · exact absurd h2 h1
    | _ => exact absurd h2 h1
  netcdf := fun _ _ _ hu => hu.elim
  mpi := fun _ _ _ hu => by cases hu.1
  serve := by
    intro s r hr hs
    obtain ⟨x, hq, e⟩ := (XferReach.inv hr).1.go_comm (early := false) hs
    exact ⟨x, comm_calm_full.2 hq, by show (fun q r => (x.wire q r).map _) = _; rw [e]; rfl⟩
  take := by
    intro s q r tag l hr hn hi
    obtain ⟨wf, hx, -⟩ := h.spec
    change (s.wire q r).map _ = _ at hi
    cases hw : s.wire q r with
    | nil => rw [hw] at hi; cases hi
    | cons m rest =>
      rw [hw] at hi
      injection hi with _ hi
      subst hi
      obtain ⟨x, hq, e⟩ := Xfer.go_wire (early := false) wf hx ho hr (Classical.not_not.1 (hn r)) hw
      exact ⟨x, comm_calm_full.2 hq, full_inbox e⟩
  free := by
    intro s t hr hb _ _
    obtain ⟨wf, hx, -⟩ := h.spec
    obtain ⟨x, hq⟩ := Xfer.progress wf hx ho (early := false) hr hb
    exact ⟨x, comm_calm_full.2 hq⟩
  unchanged := fun _ => id
  bound := by
    intro s hr
    obtain ⟨N, hN⟩ := C83_returns h ho hr true
    exact ⟨N, 0, fun n k x hq => by have := (hN n x (comm_run_full hq)).1; omega⟩

end

/-! ### CACHE with the communication thread -/

section
variable {c : LevelCfg α} {C : MsgParams α} {ms ms' : MsgSt α}

theorem comm_calm_cache : (C.commSys c).Calm ms ms' ↔ MsgQuiet C false ms ms' :=
  ⟨fun h => ⟨h.1, fun t e => by by_contra hn; exact h.2 t hn e⟩,
   fun h => ⟨h.1, fun t hb e => hb (h.2 t e)⟩⟩

theorem comm_quiet_cache : (C.commSys c).Quiet ms ms' ↔ MsgQuiet C true ms ms' :=
  ⟨fun h => ⟨h.1, fun t e => by by_contra hn; exact h.2 t hn e⟩,
   fun h => ⟨h.1, fun t hb e => hb (h.2 t e)⟩⟩

theorem comm_run_cache {n k : Nat} {ms ms' : (C.commSys c).S} (h : (C.commSys c).QuietRun n k ms ms') :
    MsgQuietRunF C true n k ms ms' := by
  induction h with
  | zero => exact .zero _
  | served _ hq hn ih => exact .served ih (comm_quiet_cache.1 hq) hn
  | refused _ hq hn ih => exact .refused ih (comm_quiet_cache.1 hq) hn

theorem comm_during_cache {t : Nat} {ms ms' : (C.commSys c).S} (h : (C.commSys c).During t ms ms') :
    MsgDuring C t ms ms' := by
  induction h with
  | refl => exact .refl _
  | tail _ hs hb ih => exact .tail ih hs hb

theorem cache_wire {early : Bool} (h : MsgCacheStep C early ms ms') : WireStep ms.wire ms'.wire := by
  cases h with
  | opSend => exact .inr (.inl ⟨_, _, _, rfl⟩)
  | infoSend => exact .inr (.inl ⟨_, _, _, rfl⟩)
  | xferSend => exact .inr (.inl ⟨_, _, _, rfl⟩)
  | takeInfo src r rnd m rest _ _ h2 => exact .inr (.inr ⟨src, r, m, rest, h2, rfl⟩)
  | takeXfer src r m rest _ _ h2 => exact .inr (.inr ⟨src, r, m, rest, h2, rfl⟩)
  | takeAdd src r m rest _ _ h2 => exact .inr (.inr ⟨src, r, m, rest, h2, rfl⟩)
  | takeDel src r m rest _ _ h2 => exact .inr (.inr ⟨src, r, m, rest, h2, rfl⟩)
  | _ => exact .inl rfl

theorem cache_inbox {q r : Nat} {l : List Msg} (h : ms'.wire = upd ms.wire q (upd (ms.wire q) r l)) :
    (C.commSys c).inbox ms' = upd ((C.commSys c).inbox ms) q
      (upd ((C.commSys c).inbox ms q) r (l.map Msg.tag)) := by
  have := wireTags_upd ms.wire q r l
  rw [← h] at this
  exact this

/-- A step moves one thread of the user, at most. -/
theorem cache_one_user {early : Bool} (hs : MsgCacheStep C early ms ms') :
    ∃ v, ∀ w, w ≠ v → ms'.st.pc (.user w) = ms.st.pc (.user w) := by
  cases hs with
  | plain t st' _ _ hu => exact ⟨t, fun w e => user_other hu (user_ne' e)⟩
  | opSent t => exact ⟨t, fun w e => upd_ne _ _ (user_ne' e)⟩
  | infoRecv t => exact ⟨t, fun w e => upd_ne _ _ (user_ne' e)⟩
  | xferLock t => exact ⟨t, fun w e => upd_ne _ _ (user_ne' e)⟩
  | xferOk t => exact ⟨t, fun w e => upd_ne _ _ (user_ne' e)⟩
  | xferFail t => exact ⟨t, fun w e => upd_ne _ _ (user_ne' e)⟩
  | takeXfer src r m => exact ⟨0, fun w _ => MsgSim.user_pc ms.st.pc r w (.tryDom src m.data 0)⟩
  | work r st' _ hw =>
    cases hw with
    | mk h1 _ _ _ => exact ⟨0, fun w _ => comm_other h1 (Ne.symm (agent_ne r w))⟩
  | refuse r => exact ⟨0, fun w _ => MsgSim.user_pc ms.st.pc r w .idle⟩
  | reply r src b i s => exact ⟨0, fun w _ => MsgSim.user_pc ms.st.pc r w (.sent i s)⟩
  | _ => exact ⟨0, fun w _ => rfl⟩

theorem cache_serves {early : Bool} {r : Nat} (hs : MsgCacheStep C early ms ms')
    (h1 : ms'.st.pc (.comm r) ≠ .idle ∨ ms'.wait r ≠ none) (h2 : ms.st.pc (.comm r) = .idle) (h3 : ms.wait r = none) :
    ∃ q m rest, ms.wire q r = m :: rest ∧ ms'.wire = upd ms.wire q (upd (ms.wire q) r rest) := by
  have same : ms'.st.pc (.comm r) = ms.st.pc (.comm r) → ms'.wait r = ms.wait r → False := by
    intro e1 e2
    rw [e1, e2] at h1
    rcases h1 with h1 | h1
    · exact h1 h2
    · exact h1 h3
  cases hs with
  | plain t st' _ _ hu => exact (same (user_other hu nofun) rfl).elim
  | takeInfo src r' rnd m rest g1 g2 g3 =>
    by_cases e : r = r'
    · subst e; exact ⟨src, m, rest, g3, rfl⟩
    · exact (same rfl (upd_ne _ _ e)).elim
  | takeXfer src r' m rest g1 g2 g3 =>
    by_cases e : r = r'
    · subst e; exact ⟨src, m, rest, g3, rfl⟩
    · exact (same (upd_ne _ _ (by intro e'; injection e' with e'; exact e e')) rfl).elim
  | work r' st' g1 hw =>
    cases hw with
    | mk k1 k2 k3 k4 =>
      have e : r ≠ r' := by rintro rfl; exact k2 h2
      exact (same (comm_other k1 (by intro e'; injection e' with e'; exact e e')) rfl).elim
  | refuse r' src b i g1 g2 g3 =>
    have e : r ≠ r' := by rintro rfl; rw [h2] at g2; cases g2
    exact (same (upd_ne _ _ (by intro e'; injection e' with e'; exact e e')) (upd_ne _ _ e)).elim
  | reply r' src b i s k buf g1 g2 g3 =>
    have e : r ≠ r' := by rintro rfl; rw [h2] at g2; cases g2
    exact (same (upd_ne _ _ (by intro e'; injection e' with e'; exact e e')) (upd_ne _ _ e)).elim
  | answered r' dst tk g1 =>
    have e : r ≠ r' := by rintro rfl; rw [h3] at g1; cases g1
    exact (same rfl (upd_ne _ _ e)).elim
  | opSent t ticket tag x p' => exact (same (upd_ne ms.st.pc p' (agent_ne r t)) rfl).elim
  | infoRecv t b off s m rest e => exact (same (upd_ne ms.st.pc (.own b off s (.xfer e)) (agent_ne r t)) rfl).elim
  | xferLock t b off s e => exact (same (upd_ne ms.st.pc (.own b off s (.ask (ownerRank C.P.rankCache e))) (agent_ne r t)) rfl).elim
  | xferOk t b off s r' m rest buf => exact (same (upd_ne ms.st.pc (.own b off s (.recv buf 0)) (agent_ne r t)) rfl).elim
  | xferFail t b off s => exact (same (upd_ne ms.st.pc (.own b off s .start) (agent_ne r t)) rfl).elim
  | _ => exact (same rfl rfl).elim

theorem good_comm_cache {S : SharedCfg α} (h : Opened f.fp f.cc f.nc f.val c) (hP : C.P = c.shared S)
    (hC : LegalMsg C) : (C.commSys c).Good f where
  fresh := by rintro s t ⟨l, -, rfl⟩ h; exact h rfl
  usesBusy := by
    intro s k t hr hu
    cases k with
    | mpi => exact hu.elim
    | netcdf =>
      obtain ⟨b, off, sl, k, hp, -⟩ := reading_load hu
      intro e; rw [hp] at e; cases e
  single := by
    intro s x k t u hr hs h1 h2 h3 h4
    cases k with
    | mpi => exact h1.elim
    | netcdf =>
      obtain ⟨v, hv⟩ := cache_one_user hs
      have e1 : t = v := by
        by_contra e; refine h2 ?_; change (s.st.pc (.user t)).reading; rw [← hv t e]; exact h1
      have e2 : u = v := by
        by_contra e; refine h4 ?_; change (s.st.pc (.user u)).reading; rw [← hv u e]; exact h3
      rw [e1, e2]
  value := by
    intro s s1 s2 t pos idx v hr hs hc hd hv hp
    exact C82_value h S hP hC hr t pos idx hp hc (comm_during_cache hd) v hv
  syncStep := fun _ _ h => MsgCacheStep.buffered h
  empty := by
    rintro s ⟨l, -, rfl⟩ q r
    refine ⟨rfl, ?_⟩
    rintro (h | h) <;> exact h rfl
  tagged := by
    intro s q r hr tag ht
    obtain ⟨m, hm, rfl⟩ := List.mem_map.1 ht
    obtain ⟨a, is, xs, -, h2⟩ := MsgReach.sim hC hr
    exact (h2.tags q r m hm).1
  msgs := fun s x _ hs q r => (cache_wire hs).tags q r
  serves := by
    intro s x r hr hs h1 h2
    rw [show (C.commSys c).serving s r = (s.st.pc (.comm r) ≠ .idle ∨ s.wait r ≠ none) from rfl, not_or] at h2
    obtain ⟨q, m, rest, e1, e2⟩ := cache_serves hs h1 (Classical.not_not.1 h2.1) (Classical.not_not.1 h2.2)
    refine ⟨q, m.tag, ?_⟩
    rw [cache_inbox e2, upd_self, upd_self]
    change (s.wire q r).map _ = _
    rw [e1]; rfl
  netcdf := by
    intro s t hr hu
    obtain ⟨st', hs, -, -, e3⟩ := reading_step (P := C.P) hu
    obtain ⟨a, is, xs, -, h2⟩ := MsgReach.sim hC hr
    obtain ⟨b, off, sl, k, hp, -⟩ := reading_load hu
    have hp : s.st.pc (.user t) = _ := hp
    have hu' := h2.users t
    rw [hp] at hu'
    have hc := (out_of_pc hu' rfl nofun nofun).2
    refine ⟨{ s with st := st' }, comm_calm_cache.2 ⟨.plain s t st' hc (by rw [hp]; nofun) hs,
      (quiet_user hs e3).2⟩, fun k u hk => ?_, rfl⟩
    cases k with
    | mpi => exact hk
    | netcdf =>
      by_cases e : u = t
      · subst e; exact hu
      · change (st'.pc (.user u)).reading at hk
        rw [user_other hs (user_ne' e)] at hk; exact hk
  mpi := fun _ _ _ hu => hu.elim
  serve := by
    intro s r hr hs
    obtain ⟨a, is, xs, h1, h2⟩ := MsgReach.sim hC hr
    obtain ⟨x, hq, e⟩ : ∃ x, MsgQuiet C false s x ∧ x.wire = s.wire := by
      by_cases hw : s.wait r = none
      · exact h2.go_comm (DistInv.reach hC.legal.domains hC.legal.size hC.legal.hand h1) hw
          (hs.resolve_right fun hn => hn hw)
      · exact h2.go_wait hC hw
    exact ⟨x, comm_calm_cache.2 hq, by show (fun q r => (x.wire q r).map _) = _; rw [e]; rfl⟩
  take := by
    intro s q r tag l hr hn hi
    change (s.wire q r).map _ = _ at hi
    have hn := hn r
    rw [show (C.commSys c).serving s r = (s.st.pc (.comm r) ≠ .idle ∨ s.wait r ≠ none) from rfl, not_or] at hn
    obtain ⟨a, is, xs, -, h2⟩ := MsgReach.sim hC hr
    cases hw : s.wire q r with
    | nil => rw [hw] at hi; cases hi
    | cons m rest =>
      rw [hw] at hi
      injection hi with _ hi
      subst hi
      obtain ⟨x, hq, e⟩ := h2.go_wire (early := false) (Classical.not_not.1 hn.2) (Classical.not_not.1 hn.1) hw
      exact ⟨x, comm_calm_cache.2 hq, cache_inbox e⟩
  free := by
    intro s t hr hb _ _
    obtain ⟨x, hq⟩ := C82_no_deadlock hC hr false t hb
    exact ⟨x, comm_calm_cache.2 hq⟩
  unchanged := by
    rintro s ⟨r, q, m, e, -⟩
    have := congrArg List.length e
    simp at this
  bound := by
    intro s hr
    obtain ⟨K, hK⟩ := C82_only_refusals_partial hC
    obtain ⟨N, hN⟩ := hK s hr
    exact ⟨N, K, fun n k x hq => (hN true n k x (comm_run_cache hq)).1⟩

end

end Asagi
