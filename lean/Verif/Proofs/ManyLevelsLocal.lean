import Verif.Proofs.ManyLevelsOther
import Verif.Proofs.ManyLevelsOnly
/-
If no thread is inside of the MPI library, a thread in a getter waits for threads of its own process only.
-/
namespace Asagi
open Spec Props

/-- If no thread of a level has `mpiLock`, a getter can continue without a thread of another process that gets it. -/
def LevelSys.Local {α : Type} (rank : Nat → Nat) (L : LevelSys α) : Prop :=
  ∀ s t, L.Reach s → L.busy s t → (∀ u, ¬ L.uses .mpi s u) →
    ∃ x, L.Quiet s x ∧ ∀ v, L.uses .mpi x v → rank v = rank t

section
variable {β : Type} {P : DistParams β} {st : DistState β}

theorem rankOf_numa {r i : Nat} (hi : i < P.domains) : P.rankOf (r * P.domains + i) = r := by
  unfold DistParams.rankOf
  rw [Nat.mul_comm, Nat.mul_add_div (by omega), Nat.div_eq_of_lt hi, Nat.add_zero]

/-- A thread of process `r` can continue. -/
def DistGo (P : DistParams β) (st : DistState β) (r : Nat) : Prop :=
  ∃ u st', UserStep P u st st' ∧ st.pc (.user u) ≠ .idle ∧ P.rankT u = r

theorem exec_go {t b off s : Nat} {ph : Phase β} (hp : st.pc (.user t) = .own b off s ph)
    (hx : ∃ st', execOwn P st t 0 b off s ph = some st') : DistGo P st (P.rankT t) := by
  obtain ⟨st', hx⟩ := hx
  exact ⟨t, st', execOwn_sound hp hx, by rw [hp]; nofun, rfl⟩

theorem own_go (h : DistInv P st) (hm : P.mode ≠ .thread) (hd : P.mode = .window → ∀ b, st.dl b = none)
    {t b off s : Nat} {ph : Phase β} (hp : st.pc (.user t) = .own b off s ph) : DistGo P st (P.rankT t) := by
  refine exec_go hp ?_
  cases ph with
  | del old =>
    cases old with
    | none => exact ⟨_, rfl⟩
    | some o =>
      cases hw : P.mode with
      | none => simp only [execOwn, hw]; exact ⟨_, rfl⟩
      | thread => exact absurd hw hm
      | window => simp only [execOwn, hw, hd hw o]; exact ⟨_, rfl⟩
  | delLocked o => exact ⟨_, rfl⟩
  | numa i =>
    simp only [execOwn]; repeat' split
    all_goals exact ⟨_, rfl⟩
  | numaCm i =>
    simp only [execOwn]; repeat' split
    all_goals exact ⟨_, rfl⟩
  | numaCopy i s' k => simp only [execOwn]; split <;> exact ⟨_, rfl⟩
  | add =>
    cases hw : P.mode with
    | none => simp only [execOwn, hw]; exact ⟨_, rfl⟩
    | thread => exact absurd hw hm
    | window => simp only [execOwn, hw, hd hw b]; exact ⟨_, rfl⟩
  | addLocked => exact ⟨_, rfl⟩
  | start =>
    cases hw : P.mode with
    | none => simp only [execOwn, hw]; exact ⟨_, rfl⟩
    | thread => exact absurd hw hm
    | window => simp only [execOwn, hw, hd hw b]; exact ⟨_, rfl⟩
  | xfer e =>
    cases e with
    | negSucc n => exact ⟨_, rfl⟩
    | ofNat e =>
      cases hw : P.mode with
      | none => exact absurd ((h.phase t b off s _ hp).2 hw) (by simp)
      | window => simp only [execOwn, hw]; exact ⟨_, rfl⟩
      | thread => exact absurd hw hm
  | copy e k => simp only [execOwn]; split <;> exact ⟨_, rfl⟩
  | ask r => exact absurd (h.phase t b off s _ hp) hm
  | recv buf k => exact absurd (h.phase t b off s _ hp).1 hm
  | load k => simp only [execOwn]; split <;> exact ⟨_, rfl⟩
  | fin => cases hw : P.mode <;> simp only [execOwn, hw] <;> exact ⟨_, rfl⟩
  | use => exact ⟨_, rfl⟩
  | out v => exact ⟨_, rfl⟩

theorem lk_go (h : DistInv P st) (hm : P.mode ≠ .thread) (hd : P.mode = .window → ∀ b, st.dl b = none)
    (hc : ∀ r, st.pc (.comm r) = .idle) {d s : Nat} {a : Agent} (hk : st.lk (d, s) = some a) :
    DistGo P st (P.rankOf d) := by
  have ho := (h.lk _ a).1 hk
  cases a with
  | comm r => rw [hc r] at ho; exact ho.elim
  | user t =>
    cases hp : st.pc (.user t) with
    | own b off s' ph =>
      rw [hp] at ho
      have hg := own_go h hm hd hp
      rcases ho with e | e
      · injection e with e1 _; subst e1; exact hg
      · cases ph with
        | numaCopy i s2 k =>
          injection e with e1 _
          rw [e1, rankOf_numa (h.phase t b off s' _ hp).1]; exact hg
        | _ => exact e.elim
    | _ => rw [hp] at ho; exact ho.elim

theorem slot_go (h : DistInv P st) (hm : P.mode ≠ .thread) (hd : P.mode = .window → ∀ b, st.dl b = none)
    (hc : ∀ r, st.pc (.comm r) = .idle) {t b off s : Nat} {old : Option Nat}
    (hp : st.pc (.user t) = .wantSlot b off s old) : DistGo P st (P.rankT t) := by
  cases hk : st.lk (P.dom t, s) with
  | some a => exact lk_go h hm hd hc hk
  | none => exact ⟨t, _, .lockSlot st t b off s old hp hk, by rw [hp]; nofun, rfl⟩

/-- If no entry of the directory is locked, a thread waits for threads of its own process only. -/
theorem dist_go (h : DistInv P st) (hm : P.mode ≠ .thread) (hd : P.mode = .window → ∀ b, st.dl b = none)
    (hc : ∀ r, st.pc (.comm r) = .idle) {t : Nat} (hn : st.pc (.user t) ≠ .idle) : DistGo P st (P.rankT t) := by
  obtain ⟨k1, k2, k3, k4⟩ := h.kind t
  cases hp : st.pc (.user t) with
  | idle => exact absurd hp hn
  | wantCm b off =>
    cases hk : st.cm (P.dom t) with
    | some a =>
      have ho := (h.cm _ a).1 hk
      cases a with
      | comm r => rw [hc r] at ho; exact ho.elim
      | user u =>
        cases hu : st.pc (.user u) with
        | own b' off' s' ph =>
          rw [hu] at ho
          have hg := own_go h hm hd hu
          cases ph with
          | numaCm i =>
            have e : P.rankT t = P.rankT u := by
              unfold DistParams.rankT
              rw [show P.dom t = _ from ho, rankOf_numa (h.phase u b' off' s' _ hu).1]
            rw [e]; exact hg
          | _ => exact ho.elim
        | wantSlot b' off' s' old =>
          rw [hu] at ho
          have e : P.rankT t = P.rankT u := by
            unfold DistParams.rankT
            rw [show P.dom t = _ from ho]
          rw [e]; exact slot_go h hm hd hc hu
        | _ => rw [hu] at ho; exact ho.elim
    | none =>
      obtain ⟨h0, inv, -⟩ := h.lists (P.dom t)
      obtain ⟨c', s, old, hg, -⟩ := inv.get b
      exact ⟨t, _, .lookup st t b off s c' old hp hk hg, hn, rfl⟩
  | wantSlot b off s old => exact slot_go h hm hd hc hp
  | own b off s ph => exact own_go h hm hd hp
  | tryDom u b i => exact absurd hp (k1 _ _ _)
  | tryCm u b i => exact absurd hp (k2 _ _ _)
  | send u b i s k buf => exact absurd hp (k3 _ _ _ _ _ _)
  | sent i s => exact absurd hp (k4 _ _)

end

section
variable {α : Type} {f : OpenedFile α} {c : LevelCfg α}

theorem local_win {S : SharedCfg α} {C : WinParams α} (ho : Opened f.fp f.cc f.nc f.val c) (hP : C.P = c.shared S)
    (hC : LegalWin C) : (C.sys c).Local C.P.rankT := by
  intro ws t h hb hu
  cases hlib : C.lib with
  | false =>
    obtain ⟨x, hq⟩ := (good_win ho hP hC).free ws t h hb
    exact ⟨x, hq, fun v hv => by have := hv.1; rw [hlib] at this; cases this⟩
  | true =>
    obtain ⟨h1, h2, hL⟩ := WinReach.all hC.dist hC.legal hC.window h
    obtain ⟨Q, hQ⟩ := MtxInv.reachable h2
    have hI := DistInv.reach hC.legal.domains hC.legal.size hC.legal.hand h1
    have hm : C.P.mode ≠ .thread := by rw [hC.window]; nofun
    -- nobody is in the library
    have free : ∀ r, ws.mtx.proc r = none := by
      intro r
      cases hr : ws.mtx.proc r with
      | none => rfl
      | some T =>
        obtain ⟨e1, e2⟩ := (hQ.proc _ _).1 hr
        obtain ⟨u, rfl⟩ := hL.busy T (by intro e; rw [e] at e1; cases e1)
        exact absurd ⟨hlib, by rw [show C.P.rankT u = r from e2]; exact hr⟩ (hu u)
    have out : ∀ T, ws.mtx.pc T = .idle ∨ ∃ l, ws.mtx.pc T = .wantProc l := by
      intro T
      have e : (ws.mtx.pc T).hasProc true = false := by
        cases hx : (ws.mtx.pc T).hasProc true with
        | false => rfl
        | true =>
          have := (hQ.proc T.rank T).2 ⟨by rw [show C.M.lib = true from hlib]; exact hx, rfl⟩
          rw [free] at this; cases this
      have e2 := hQ.lib T hlib
      cases hx : ws.mtx.pc T with
      | idle => exact .inl rfl
      | wantProc l => exact .inr ⟨l, rfl⟩
      | reProc l | relProc l => rw [hx] at e2; cases e2
      | _ => rw [hx] at e; cases e
    have entry : ∀ u, (ws.st.pc (.user u)).entryOf = none := by
      intro u
      have hk := hL.link u
      rcases out (C.thr u) with e | ⟨l, e⟩
      · rw [e] at hk; exact hk
      · rw [e] at hk; exact wants_entry hk
    have hd : C.P.mode = .window → ∀ b, ws.st.dl b = none := by
      intro _ b
      cases hx : ws.st.dl b with
      | none => rfl
      | some a =>
        have hy := (hI.dl b a).1 hx
        cases a with
        | comm r => exact hy.elim
        | user u =>
          have he := entry u
          cases hp : ws.st.pc (.user u) with
          | own b' off s ph =>
            rw [hp] at he hy
            have hy := hy.2
            change dlPhase b' ph = none at he
            rw [he] at hy; cases hy
          | _ => rw [hp] at hy; exact hy.elim
    obtain ⟨u, st', hs, hne, hr⟩ := dist_go hI hm hd (comm_idle hC.legal hm h1) hb
    have same : ∀ v, (C.sys c).uses .mpi ws v → C.P.rankT v = C.P.rankT t := fun v hv => absurd hv (hu v)
    cases hw : (ws.st.pc (.user u)).wantsEntry with
    | none =>
      have hl : (ws.st.pc (.user u)).leavesLib = false := by
        cases hl : (ws.st.pc (.user u)).leavesLib with
        | false => rfl
        | true =>
          obtain ⟨l, hl⟩ := leaves_entry hl
          rw [entry u] at hl; cases hl
      exact ⟨_, sys_quiet_win.2 ⟨.plain ws u st' (hL.live u hne) hw hl hs, (quiet_user hs hne).2⟩, same⟩
    | some l =>
      rcases out (C.thr u) with e | ⟨l', e⟩
      · exact ⟨_, sys_quiet_win.2 ⟨.call ws u l _ hw e (upd_self ..) (.call ws.mtx _ l (hL.live u hne) e),
          fun _ h => h⟩, same⟩
      · have hch : ∀ T, upd ws.mtx.pc (C.thr u) (.wantWin l') T ≠ ws.mtx.pc T → T = C.thr u := by
          intro T hT
          by_contra h'
          exact hT (upd_ne _ _ h')
        refine ⟨_, sys_quiet_win.2 ⟨.inside ws _ (.proc ws.mtx (C.thr u) l' e (free _)) (fun e' => ?_)
          (fun T hT => ?_), fun _ h => h⟩, fun v hv => ?_⟩
        · have := congrFun e' (C.thr u)
          rw [e] at this
          change upd ws.mtx.pc (C.thr u) (.wantWin l') (C.thr u) = _ at this
          rw [upd_self] at this; cases this
        · rw [hch T hT, e]; rfl
        · have hv := hv.2
          change upd ws.mtx.proc (C.thr u).rank (some (C.thr u)) _ = _ at hv
          rw [upd_apply] at hv
          split at hv
          · next e3 => rw [e3]; exact hr
          · rw [free] at hv; cases hv

theorem local_full {X : XferCfg α} {s0 : FullDist α} {lib : Bool} (h : Opened f.fp f.cc f.nc f.val c)
    (ho : FullOpened c X.F s0) : (X.sys c s0.data lib).Local X.rankT := by
  intro x t hr hb hu
  obtain ⟨wf, hx, -⟩ := h.spec
  cases lib with
  | false =>
    obtain ⟨y, hq⟩ := Xfer.progress wf hx ho (early := true) hr hb
    exact ⟨y, sys_quiet_full.2 hq, fun v hv => by cases hv.1⟩
  | true =>
    obtain ⟨hi, hf⟩ := XferReach.inv hr
    have hout : ∀ u, x.call u = .out := by
      intro u
      by_contra h3
      exact hu u ⟨rfl, (hi.hold u h3).1⟩
    have hI := ho.legal.inv (hf.dist wf hx ho)
    have same : ∀ v, (X.sys c s0.data true).uses .mpi x v → X.rankT v = X.rankT t := fun v hv => absurd hv (hu v)
    obtain ⟨u, st', hs, hne, hru⟩ := dist_go hI nofun nofun (comm_idle ho.legal nofun (hf.dist wf hx ho)) hb
    have hru : X.rankT u = X.rankT t := hru
    by_cases hl : ∃ b off s k, x.st.pc (.user u) = .own b off s (.load k) ∧ k < c.totalBlockSize
    · obtain ⟨b, off, s, k, g1, g2⟩ := hl
      obtain ⟨hbt, src, f1, f2⟩ := XferReach.source wf hx ho hr g1
      have hget : src[k]? = some src[k] := List.getElem?_eq_getElem (by omega)
      by_cases hm : X.F.trans ≠ .no ∧ X.home c b = X.rankT u
      · refine ⟨_, sys_quiet_full.2 (xquiet_of_own (.near x u b off s k src src[k] (hout u) g1 g2 hm.1 hm.2 ?_ hget)
          hne (p := .own b off s (.load (k + 1))) rfl), same⟩
        unfold fullSource at f1
        rw [if_pos hm] at f1; exact f1
      · have hmpi : X.F.hasMpi = true := by
          unfold fullSource at f1
          rw [if_neg hm] at f1
          split at f1
          · next h => exact h
          · cases f1
        have hk : k = 0 := by
          rcases XferReach.whole hr u b off s k (hout u) g1 hm with hk | hk
          · exact hk
          · omega
        subst hk
        have hmx : x.mx (X.rankT u) = none := by
          cases he : x.mx (X.rankT u) with
          | none => rfl
          | some v => exact absurd (hout v) (hi.owner _ _ he).2
        refine ⟨_, sys_quiet_full.2 (xquiet_of_same (.lock x u b off s (hout u) g1 hm hmpi hmx) rfl), fun v hv => ?_⟩
        have hv := hv.2
        change upd x.mx (X.rankT u) (some u) _ = _ at hv
        rw [upd_apply] at hv
        split at hv
        · next e => rw [e]; exact hru
        · exact absurd (hout v) (hi.owner _ _ hv).2
    · exact ⟨_, sys_quiet_full.2 ⟨.other x u st' (hout u) hne (fun b off s k hp => by
          by_contra hk
          exact hl ⟨b, off, s, k, hp, by omega⟩) hs, (quiet_user hs hne).2⟩, same⟩

/-- The threads inside of getters may use the level. -/
theorem only_team {L : LevelSys α} {team : Nat → Prop} (hf : ∀ s t, L.start s → ¬ L.busy s t) {s : L.S}
    (h : (L.only team).Reach s) {t : Nat} (hb : L.busy s t) : team t := by
  induction h with
  | init h => exact absurd hb (hf _ t h)
  | @step s s' _ hs ih =>
    by_cases e : L.busy s t
    · exact ih e
    · exact hs.2 t hb e

/-- Every kind of level. -/
theorem local_proper {rank : Nat → Nat} {L : LevelSys α} (h : ProperLevel rank f L) : L.Local rank := by
  induction h with
  | cacheWindow c S C ho hP hC hr =>
    intro s t h1 h2 h3
    obtain ⟨x, hq, hx⟩ := local_win ho hP hC s t h1 h2 h3
    exact ⟨x, hq, fun v hv => by rw [← hr v, ← hr t]; exact hx v hv⟩
  | cache c S ho hl hm _ =>
    intro s t h1 h2 _
    obtain ⟨x, hq⟩ := (good_dist ho hl hm).free s t h1 h2
    exact ⟨x, hq, fun v hv => hv.elim⟩
  | full c X s0 lib ho hf _ hr =>
    intro s t h1 h2 h3
    obtain ⟨x, hq, hx⟩ := local_full ho hf s t h1 h2 h3
    exact ⟨x, hq, fun v hv => by rw [← hr v, ← hr t]; exact hx v hv⟩
  | passThrough c slot r team buf0 ho _ h1 h2 =>
    intro s t h3 h4 _
    obtain ⟨x, hq⟩ := (good_pass ho h1 h2).free s t h3 h4
    exact ⟨x, hq, fun v hv => hv.elim⟩
  | some L R rank' team hL hR hteam ih =>
    intro s t h1 h2 h3
    obtain ⟨x, hq, hx⟩ := ih s t (only_reach h1) h2 h3
    refine ⟨x, only_quiet hq, fun v hv => ?_⟩
    have hg := good_proper hL
    have hb : L.busy x v := hg.usesBusy x .mpi v (.step (only_reach h1) hq.1) hv
    have hf := hg.fresh
    rw [← hteam v (only_team hf h1 (hq.2 v hb)), ← hteam t (only_team hf h1 h2), hx v hv]
end

end Asagi
