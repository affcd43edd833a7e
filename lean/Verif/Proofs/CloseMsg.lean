import Verif.Proofs.MsgCacheLive
import Verif.Proofs.MsgCacheBuf
import Verif.Spec.CloseMsg
/-
Invariant of closing a cached grid with the communication thread.
-/
namespace Asagi
open Spec
variable {β : Type} {C : MsgParams β} {procs : Nat}

/-- No getter is active: only updates of the directory are on their way. -/
structure Quiescent (C : MsgParams β) (ms : MsgSt β) : Prop where
  users : ∀ t, ms.st.pc (.user t) = .idle
  wire : ∀ q r, ∀ m ∈ ms.wire q r, m.tag = C.addTag ∨ m.tag = C.delTag
  mail : ∀ r q, ms.mail r q = []
  comm : ∀ r, ms.st.pc (.comm r) = .idle ∨ ∃ i s, ms.st.pc (.comm r) = .sent i s

theorem MsgReach.quiescent (hC : LegalMsg C) {ms : MsgSt β} (h : MsgReach C ms)
    (hi : ∀ t, ms.st.pc (.user t) = .idle) : Quiescent C ms := by
  obtain ⟨a, is, xs, h1, h2⟩ := MsgReach.sim hC h
  have hD := DistInv.reach hC.legal.domains hC.legal.size hC.legal.hand h1
  have hout : ∀ t, awaitsInfo (ms.call t) = false ∧ awaitsXfer (ms.call t) = false := fun t => by
    have hu := h2.users t
    rw [hi t] at hu
    constructor
    · cases e : awaitsInfo (ms.call t) with
      | false => rfl
      | true => obtain ⟨b, off, s, h, -⟩ := hu.info e; cases h
    · cases e : awaitsXfer (ms.call t) with
      | false => rfl
      | true => obtain ⟨b, off, s, r, h, -⟩ := hu.xfer e; cases h
  have his : ∀ q, is q = .none := fun q => by
    cases e : is q with
    | none => rfl
    | _ => exact absurd (h2.ist q _ (by rw [e]; rfl)).2 (by rw [(hout _).1]; nofun)
  have hxs : ∀ q, xs q = .none := fun q => by
    cases e : xs q with
    | none => rfl
    | _ => exact absurd (h2.xst q _ (by rw [e]; rfl)).2 (by rw [(hout _).2]; nofun)
  refine ⟨hi, fun q r m hm => ?_, fun r q => ?_, fun r => ?_⟩
  · have h3 := (h2.tags q r m hm).1
    have h4 : C.infoWire (ms.wire q r) = [] := by rw [h2.wireI, his]; rfl
    have h5 : C.xferWire (ms.wire q r) = [] := by rw [h2.wireX, hxs]; rfl
    simp only [MsgParams.infoWire, MsgParams.xferWire, List.map_eq_nil_iff, List.filter_eq_nil_iff,
      decide_eq_true_eq] at h4 h5
    simp only [List.mem_cons, List.not_mem_nil, or_false] at h3
    rcases h3 with h3 | h3 | h3
    · exact absurd h3 (h4 m hm)
    · exact absurd h3 (h5 m hm)
    · exact h3
  · have h4 : infoMail (ms.mail r q) = [] := by rw [h2.mailI, his]; rfl
    have h5 : xferMail (ms.mail r q) = [] := by rw [h2.mailX, hxs]; rfl
    simp only [infoMail, xferMail, List.map_eq_nil_iff, List.filter_eq_nil_iff,
      decide_eq_true_eq] at h4 h5
    refine List.eq_nil_iff_forall_not_mem.2 fun m hm => h5 m hm (h4 m hm)
  · have h3 := h2.comm r
    have h4 := hD.kindC r
    cases e : ms.st.pc (.comm r) with
    | idle => exact .inl rfl
    | sent i s => exact .inr ⟨i, s, rfl⟩
    | tryDom q b i => rw [e] at h3; obtain ⟨t, h5, -⟩ := h3; rw [hxs] at h5; cases h5
    | tryCm q b i => rw [e] at h3; obtain ⟨t, h5, -⟩ := h3; rw [hxs] at h5; cases h5
    | send q b i s k buf => rw [e] at h3; obtain ⟨t, h5, -⟩ := h3; rw [hxs] at h5; cases h5
    | wantCm b off => rw [e] at h3; exact absurd h3 (h4.1 b off)
    | wantSlot b off s old => rw [e] at h3; exact absurd h3 (h4.2.1 b off s old)
    | own b off s ph => rw [e] at h3; exact absurd h3 (h4.2.2 b off s ph)

/-- What can happen while no getter is active and none is called. -/
inductive CalmStep (early : Bool) (ms : MsgSt β) : MsgSt β → Prop
  | take (src r : Nat) (m : Msg) (rest : List Msg) (dir : Nat → List Int) : ms.listens r →
      ms.wire src r = m :: rest →
      CalmStep early ms { ms.take src r rest with st := { ms.st with dir := dir } }
  | release (r i s : Nat) (lk : Nat × Nat → Option Agent) : ms.wait r = none →
      ms.st.pc (.comm r) = .sent i s →
      CalmStep early ms { ms with st := { ms.st with lk := lk, pc := upd ms.st.pc (.comm r) .idle } }
  | answered (r : Nat) : ms.wait r ≠ none → CalmStep early ms { ms with wait := upd ms.wait r none }

theorem Quiescent.calm (hC : LegalMsg C) {early : Bool} {ms ms' : MsgSt β} (h : Quiescent C ms)
    (hs : MsgCacheStep C early ms ms') (hp : ∀ t, ms'.st.pc (.user t) = .idle) :
    CalmStep early ms ms' := by
  have hu := h.users
  have hn := hC.tags
  simp only [List.nodup_cons, List.mem_cons, List.not_mem_nil, or_false, not_or, not_false_iff,
    List.nodup_nil, and_true] at hn
  have no : ∀ {t b off s ph}, ms.st.pc (.user t) = .own b off s ph → False := fun {t} _ _ _ _ e => by
    rw [hu t] at e; cases e
  cases hs with
  | plain t st' _ _ hs =>
    have h1 := hu t
    have h2 := hp t
    cases hs with
    | call _ _ b off => dsimp only at h2; rw [upd_self] at h2; cases h2
    | _ => simp_all
  | opSend t b off s ph tag x p' _ e => exact (no e).elim
  | opSent t ticket tag x p' _ e => rw [hu t] at e; cases e
  | infoLock t b off s _ e => exact (no e).elim
  | infoSend t b off s _ e => exact (no e).elim
  | infoSent t ticket b off s _ e => exact (no e).elim
  | infoRecv t b off s m rest e' _ e => exact (no e).elim
  | xferLock t b off s e' _ e => exact (no e).elim
  | xferSend t b off s r _ e => exact (no e).elim
  | xferSent t ticket b off s r _ e => exact (no e).elim
  | xferOk t b off s r m rest buf _ e => exact (no e).elim
  | xferFail t b off s r m rest _ e => exact (no e).elim
  | takeInfo src r rnd m rest _ _ e1 e2 =>
    have := h.wire src r m (by rw [e1]; exact List.mem_cons_self)
    rw [e2] at this; omega
  | takeXfer src r m rest _ _ e1 e2 =>
    have := h.wire src r m (by rw [e1]; exact List.mem_cons_self)
    rw [e2] at this; omega
  | takeAdd src r m rest e1 e2 e3 e4 => exact .take src r m rest _ ⟨e1, e2⟩ e3
  | takeDel src r m rest e1 e2 e3 e4 => exact .take src r m rest _ ⟨e1, e2⟩ e3
  | work r st' e1 hw =>
    obtain ⟨hw, hne, hb, hnet⟩ := hw
    have h1 := h.comm r
    rcases h1 with h1 | ⟨i, s, h1⟩
    · exact absurd h1 hne
    · cases hw with
      | release _ _ i' s' e => exact .release r i s _ e1 h1
      | _ => simp_all
  | refuse r src b i _ e => rcases h.comm r with h1 | ⟨i, s, h1⟩ <;> (rw [e] at h1; cases h1)
  | reply r src b i s k buf _ e => rcases h.comm r with h1 | ⟨i, s, h1⟩ <;> (rw [e] at h1; cases h1)
  | answered r dst ticket e => exact .answered r (by rw [e]; nofun)

theorem mem_take {ms : MsgSt β} {src r : Nat} {m : Msg} {rest : List Msg}
    (h : ms.wire src r = m :: rest) {q r' : Nat} {x : Msg} (hx : x ∈ (ms.take src r rest).wire q r') :
    x ∈ ms.wire q r' := by
  simp only [MsgSt.take, upd_apply] at hx
  split at hx
  · next e =>
    subst e
    rw [upd_apply] at hx
    split at hx
    · next e => subst e; rw [h]; exact List.mem_cons_of_mem _ hx
    · exact hx
  · exact hx

theorem Quiescent.calmStep {early : Bool} {ms ms' : MsgSt β} (h : Quiescent C ms)
    (hs : CalmStep early ms ms') : Quiescent C ms' := by
  cases hs with
  | take src r m rest dir h1 h2 =>
    exact ⟨h.users, fun q r' x hx => h.wire q r' x (mem_take h2 hx), h.mail, h.comm⟩
  | release r i s lk h1 h2 =>
    refine ⟨fun t => h.users t, h.wire, h.mail, fun r' => ?_⟩
    simp only [upd_apply]
    split
    · exact .inl rfl
    · exact h.comm r'
  | answered r h1 => exact ⟨h.users, h.wire, h.mail, h.comm⟩

theorem Quiescent.drop {ms : MsgSt β} (h : Quiescent C ms) {src r : Nat} {m : Msg} {rest : List Msg}
    (h2 : ms.wire src r = m :: rest) : Quiescent C (ms.take src r rest) :=
  ⟨h.users, fun q r' x hx => h.wire q r' x (mem_take h2 hx), h.mail, h.comm⟩

/-! ### The invariant -/

structure CloseInv (C : MsgParams β) (procs : Nat) (s : CloseSt β) : Prop where
  idle : ∀ t, s.stage (C.rankT t) ≠ 0 → s.ms.st.pc (.user t) = .idle
  out : ∀ r, procs ≤ r → s.stage r = 0
  used : (∃ q, q < procs ∧ s.stage q = 0) → MsgReach C s.ms
  all : (∀ q, q < procs → s.stage q ≠ 0) → Quiescent C s.ms
  bar : ∀ r, 2 ≤ s.stage r → ∀ q, q < procs → s.stage q ≠ 0
  done : ∀ r, 7 ≤ s.stage r → s.ms.listens r
  le : ∀ r, s.stage r ≤ 8

theorem CloseInv.start (hp : ∀ t, C.rankT t < procs) {c : CacheList}
    (hc : CacheList.init C.P.size C.P.handDiff = some c) : CloseInv C procs (CloseSt.start C c) where
  idle := fun _ h => absurd rfl h
  out := fun _ _ => rfl
  used := fun _ => .init ⟨c, hc, rfl⟩
  all := fun h => absurd rfl (h _ (hp 0))
  bar := fun _ h => absurd h (Nat.not_le_of_lt (Nat.succ_pos _))
  done := fun _ h => absurd h (Nat.not_le_of_lt (Nat.succ_pos _))
  le := fun _ => Nat.zero_le _

/-- The stage of one process grows. -/
theorem CloseInv.grow {s : CloseSt β} (h : CloseInv C procs s) {r k : Nat} (h0 : s.stage r ≠ 0)
    (hk : s.stage r < k) (h8 : k ≤ 8) (hb : 2 ≤ k → ∀ q, q < procs → s.stage q ≠ 0)
    (hd : 7 ≤ k → s.ms.listens r) : CloseInv C procs { s with stage := upd s.stage r k } := by
  have hz : ∀ q, upd s.stage r k q ≠ 0 ↔ s.stage q ≠ 0 := fun q => by
    rw [upd_apply]; split
    · next e => subst e; exact ⟨fun _ => h0, fun _ => by omega⟩
    · exact Iff.rfl
  have hz' : ∀ q, upd s.stage r k q = 0 ↔ s.stage q = 0 := fun q => by have := hz q; omega
  refine ⟨fun t ht => h.idle t ((hz _).1 ht), fun q hq => (hz' q).2 (h.out q hq),
    fun ⟨q, h1, h2⟩ => h.used ⟨q, h1, (hz' q).1 h2⟩, fun ha => h.all fun q hq => (hz q).1 (ha q hq),
    fun q hq p hp => (hz p).2 ?_, fun q hq => ?_, fun q => ?_⟩
  all_goals simp only [upd_apply] at *
  · split at hq
    · exact hb hq p hp
    · exact h.bar q hq p hp
  · split at hq
    · next e => subst e; exact hd hq
    · exact h.done q hq
  · split
    · exact h8
    · exact h.le q

theorem registered_stage {stage tag : Nat} (hm : tag ∈ [C.infoTag, C.xferTag, C.addTag, C.delTag])
    (h : ¬ C.registered stage tag) : 4 ≤ stage := by
  simp only [List.mem_cons, List.not_mem_nil, or_false] at hm
  simp only [MsgParams.registered, not_or, not_and] at h
  rcases hm with e | e | e | e
  · have := h.1 e; omega
  · have := h.2.1 e; omega
  · have := h.2.2.1 e; omega
  · have := h.2.2.2 e; omega

theorem registered_lt {stage tag : Nat} (h : C.registered stage tag) : stage < 7 := by
  rcases h with h | h | h | h <;> omega

theorem CloseInv.step (hC : LegalMsg C) (hp : ∀ t, C.rankT t < procs) {early : Bool}
    {s s' : CloseSt β} (h : CloseInv C procs s) (hs : CloseMsgStep C procs early s s') :
    CloseInv C procs s' := by
  cases hs with
  | use ms' hm hu ht =>
    have hcalm : (∀ q, q < procs → s.stage q ≠ 0) → CalmStep early s.ms ms' := fun ha =>
      (h.all ha).calm hC hm fun t => (hu t (ha _ (hp t))).trans (h.idle t (ha _ (hp t)))
    refine ⟨fun t h0 => (hu t h0).trans (h.idle t h0), h.out,
      fun he => .step (h.used he) hm.buffered, fun ha => (h.all ha).calmStep (hcalm ha), h.bar,
      fun r hr => ?_, h.le⟩
    have hr' : 7 ≤ s.stage r := hr
    have hl := h.done r hr
    cases hcalm (h.bar r (by omega)) with
    | take src r' m rest dir h1 h2 => exact hl
    | release r' i s lk h1 h2 =>
      refine ⟨?_, hl.2⟩
      show upd _ _ _ _ = _
      rw [upd_apply]; split
      · rfl
      · exact hl.1
    | answered r' h1 =>
      refine ⟨hl.1, ?_⟩
      show upd _ _ _ _ = _
      rw [upd_apply]; split
      · rfl
      · exact hl.2
  | drop src r m rest h1 h2 h3 =>
    refine ⟨h.idle, h.out, fun he => ?_, fun ha => (h.all ha).drop h2, h.bar, h.done, h.le⟩
    obtain ⟨a, is, xs, -, g⟩ := MsgReach.sim hC (h.used he)
    have := registered_stage (g.tags src r m (by rw [h2]; exact List.mem_cons_self)).1 h3
    obtain ⟨q, e1, e2⟩ := he
    exact absurd e2 (h.bar r (by omega) q e1)
  | call r h1 h2 h3 =>
    have hidle : ∀ t, upd s.stage r 1 (C.rankT t) ≠ 0 → s.ms.st.pc (.user t) = .idle := fun t ht => by
      rw [upd_apply] at ht
      split at ht
      · next e => exact h3 t e
      · exact h.idle t ht
    have hreach : MsgReach C s.ms := h.used ⟨r, h1, h2⟩
    refine ⟨hidle, fun q hq => ?_, fun _ => hreach,
      fun ha => hreach.quiescent hC fun t => hidle t (ha _ (hp t)), fun q hq p hp' => ?_, fun q hq => ?_,
      fun q => ?_⟩
    all_goals simp only [upd_apply] at *
    · split
      · omega
      · exact h.out q hq
    · split at hq
      · omega
      · exact absurd h2 (h.bar q hq r h1)
    · split at hq
      · omega
      · exact h.done q hq
    · split
      · omega
      · exact h.le q
  | pass r h1 h2 =>
    exact h.grow (by omega) (by omega) (by omega) (fun _ q hq => by have := h2 q hq; omega)
      (fun e => by omega)
  | freeList r h1 =>
    exact h.grow (by omega) (by omega) (by omega) (fun _ => h.bar r (by omega)) (fun e => by omega)
  | unregister r k h1 h2 h3 =>
    exact h.grow (by omega) (by omega) (by omega) (fun _ => h.bar r (by omega)) (fun _ => h3)
  | free r h1 =>
    exact h.grow (by omega) (by omega) (by omega) (fun _ => h.bar r (by omega))
      (fun _ => h.done r (by omega))

theorem CloseMsgStep.buffered {early : Bool} {s s' : CloseSt β} (h : CloseMsgStep C procs early s s') :
    CloseMsgStep C procs true s s' := by
  cases h with
  | use ms' h1 h2 h3 => exact .use s ms' h1.buffered h2 h3
  | drop src r m rest h1 h2 h3 => exact .drop s src r m rest h1 h2 h3
  | call r h1 h2 h3 => exact .call s r h1 h2 h3
  | pass r h1 h2 => exact .pass s r h1 h2
  | freeList r h1 => exact .freeList s r h1
  | unregister r k h1 h2 h3 => exact .unregister s r k h1 h2 h3
  | free r h1 => exact .free s r h1

theorem CloseReach.inv (hC : LegalMsg C) (hp : ∀ t, C.rankT t < procs) {s : CloseSt β}
    (h : CloseReach C procs s) : CloseInv C procs s := by
  induction h with
  | init h => obtain ⟨c, hc, rfl⟩ := h; exact .start hp hc
  | step _ hs ih => exact ih.step hC hp hs

/-- Before `close` is called anywhere, everything is as in `Verif.Model.MsgCache`. -/
theorem MsgReach.open_ (hC : LegalMsg C) {ms : MsgSt β} (h : MsgReach C ms) :
    CloseReach C procs { ms, stage := fun _ => 0 } := by
  induction h with
  | init h => obtain ⟨c, hc, rfl⟩ := h; exact .init ⟨c, hc, rfl⟩
  | @step ms ms' hr hs ih =>
    refine .step ih (.use { ms, stage := fun _ => 0 } ms' hs (fun t h0 => absurd rfl h0) fun src r m rest e _ => ?_)
    obtain ⟨a, is, xs, -, g⟩ := MsgReach.sim hC hr
    have hm := (g.tags src r m (by dsimp only at e; rw [e]; exact List.mem_cons_self)).1
    apply Classical.byContradiction
    intro hn
    exact absurd (registered_stage hm hn) (by show ¬ 4 ≤ 0; decide)

/-! ### The length of executions -/

/-- Messages on their way. -/
def MsgSt.wVal (ms : MsgSt β) (x : Nat × Nat) : Nat := (ms.wire x.1 x.2).length

/-- What a communication thread still has to do. -/
def MsgSt.cVal (ms : MsgSt β) (r : Nat) : Nat :=
  (match ms.st.pc (.comm r) with | .idle => 0 | _ => 1) + (match ms.wait r with | none => 0 | some _ => 1)

def MsgSt.Rest (ms : MsgSt β) (m : Nat) : Prop :=
  ∃ (W : Finset (Nat × Nat)) (R : Finset Nat), Supp W ms.wVal ∧ Supp R ms.cVal ∧
    (∑ x ∈ W, ms.wVal x) + (∑ r ∈ R, ms.cVal r) = m

/-- At most one pair of processes and one communication thread change. -/
theorem MsgSt.Rest.change {ms ms' : MsgSt β} {m : Nat} (hm : ms.Rest m) (x : Nat × Nat) (r : Nat)
    (hw : ∀ y, y ≠ x → ms'.wVal y = ms.wVal y) (hc : ∀ q, q ≠ r → ms'.cVal q = ms.cVal q) :
    ∃ m', ms'.Rest m' ∧ m' + ms.wVal x + ms.cVal r = m + ms'.wVal x + ms'.cVal r := by
  obtain ⟨W, R, h1, h2, h3⟩ := hm
  obtain ⟨a1, a2⟩ := sum_change h1 hw
  obtain ⟨b1, b2⟩ := sum_change h2 hc
  exact ⟨_, ⟨_, _, a1, b1, rfl⟩, by omega⟩

theorem cVal_congr {ms ms' : MsgSt β} {r : Nat} (h1 : ms'.st.pc (.comm r) = ms.st.pc (.comm r))
    (h2 : ms'.wait r = ms.wait r) : ms'.cVal r = ms.cVal r := by
  unfold MsgSt.cVal; rw [h1, h2]

theorem post_wVal (ms : MsgSt β) (q r tag data : Nat) (y : Nat × Nat) (hy : y ≠ (q, r)) :
    (ms.post q r tag data).wVal y = ms.wVal y := by
  unfold MsgSt.wVal
  rw [post_other ms tag data fun e => hy (Prod.ext e.1 e.2)]

theorem take_wVal (ms : MsgSt β) (q r : Nat) (l : List Msg) (y : Nat × Nat) (hy : y ≠ (q, r)) :
    (ms.take q r l).wVal y = ms.wVal y := by
  unfold MsgSt.wVal
  rw [take_other ms l fun e => hy (Prod.ext e.1 e.2)]

/-- One step changes at most one pair of processes and one communication thread. -/
theorem MsgCacheStep.change {early : Bool} {ms ms' : MsgSt β} (h : MsgCacheStep C early ms ms') :
    ∃ (x : Nat × Nat) (r : Nat), (∀ y, y ≠ x → ms'.wVal y = ms.wVal y) ∧
      ∀ q, q ≠ r → ms'.cVal q = ms.cVal q := by
  cases h with
  | plain t st' _ _ hs =>
    exact ⟨(0, 0), 0, fun _ _ => rfl, fun q _ => cVal_congr (user_other hs nofun) rfl⟩
  | opSend t b off s ph tag x p' => exact ⟨_, 0, post_wVal ms _ _ _ _, fun _ _ => rfl⟩
  | opSent t ticket tag x p' =>
    exact ⟨(0, 0), 0, fun _ _ => rfl, fun q _ => cVal_congr (upd_uc (pc := ms.st.pc) (t := t) (p := p')) rfl⟩
  | infoLock t b off s => exact ⟨(0, 0), 0, fun _ _ => rfl, fun _ _ => rfl⟩
  | infoSend t b off s => exact ⟨_, 0, post_wVal ms _ _ _ _, fun _ _ => rfl⟩
  | infoSent t ticket b off s => exact ⟨(0, 0), 0, fun _ _ => rfl, fun _ _ => rfl⟩
  | infoRecv t b off s m rest e' =>
    exact ⟨(0, 0), 0, fun _ _ => rfl,
      fun q _ => cVal_congr (upd_ne ms.st.pc (.own b off s (.xfer e')) (agent_ne q t)) rfl⟩
  | xferLock t b off s e' =>
    exact ⟨(0, 0), 0, fun _ _ => rfl,
      fun q _ => cVal_congr (upd_ne ms.st.pc (.own b off s (.ask (ownerRank C.P.rankCache e'))) (agent_ne q t)) rfl⟩
  | xferSend t b off s r => exact ⟨_, 0, post_wVal ms _ _ _ _, fun _ _ => rfl⟩
  | xferSent t ticket b off s r => exact ⟨(0, 0), 0, fun _ _ => rfl, fun _ _ => rfl⟩
  | xferOk t b off s r m rest buf =>
    exact ⟨(0, 0), 0, fun _ _ => rfl,
      fun q _ => cVal_congr (upd_ne ms.st.pc (.own b off s (.recv buf 0)) (agent_ne q t)) rfl⟩
  | xferFail t b off s r m rest =>
    exact ⟨(0, 0), 0, fun _ _ => rfl,
      fun q _ => cVal_congr (upd_ne ms.st.pc (.own b off s .start) (agent_ne q t)) rfl⟩
  | takeInfo src r rnd m rest =>
    exact ⟨(src, r), r, take_wVal ms _ _ _, fun q hq => cVal_congr rfl (upd_ne _ _ hq)⟩
  | takeXfer src r m rest =>
    exact ⟨(src, r), r, take_wVal ms _ _ _, fun q hq => cVal_congr (upd_ne _ _ (comm_ne' hq)) rfl⟩
  | takeAdd src r m rest => exact ⟨(src, r), r, take_wVal ms _ _ _, fun _ _ => rfl⟩
  | takeDel src r m rest => exact ⟨(src, r), r, take_wVal ms _ _ _, fun _ _ => rfl⟩
  | work r st' e1 hw =>
    obtain ⟨hw, -, -, -⟩ := hw
    exact ⟨(0, 0), r, fun _ _ => rfl, fun q hq => cVal_congr (comm_other hw (comm_ne' hq)) rfl⟩
  | refuse r src b i =>
    exact ⟨(0, 0), r, fun _ _ => rfl,
      fun q hq => cVal_congr (upd_ne _ _ (comm_ne' hq)) (upd_ne _ _ hq)⟩
  | reply r src b i s k buf =>
    exact ⟨(0, 0), r, fun _ _ => rfl,
      fun q hq => cVal_congr (upd_ne _ _ (comm_ne' hq)) (upd_ne _ _ hq)⟩
  | answered r dst ticket e =>
    exact ⟨(0, 0), r, fun _ _ => rfl, fun q hq => cVal_congr rfl (upd_ne _ _ hq)⟩

theorem CloseReach.rest {s : CloseSt β} (h : CloseReach C procs s) : ∃ m, s.ms.Rest m := by
  induction h with
  | init h =>
    obtain ⟨c, -, rfl⟩ := h
    exact ⟨0, ∅, ∅, fun _ _ => rfl, fun _ _ => rfl, rfl⟩
  | step _ hs ih =>
    obtain ⟨m, hm⟩ := ih
    cases hs with
    | use ms' h1 =>
      obtain ⟨x, r, h2, h3⟩ := h1.change
      obtain ⟨m', h4, -⟩ := hm.change x r h2 h3
      exact ⟨m', h4⟩
    | drop src r m rest =>
      obtain ⟨m', h4, -⟩ := hm.change (src, r) r (take_wVal _ src r rest) (fun _ _ => rfl)
      exact ⟨m', h4⟩
    | _ => exact ⟨m, hm⟩

/-- The messages and replies that remain become fewer. -/
theorem CalmStep.less {early : Bool} {ms ms' : MsgSt β} (h : CalmStep early ms ms') {m : Nat}
    (hm : ms.Rest m) : ∃ m', ms'.Rest m' ∧ m' + 1 = m := by
  cases h with
  | take src r x rest dir h1 h2 =>
    obtain ⟨m', h4, h5⟩ := hm.change (ms' := { ms.take src r rest with st := { ms.st with dir := dir } })
      (src, r) r (take_wVal _ src r rest) (fun _ _ => rfl)
    refine ⟨m', h4, ?_⟩
    have e1 : ms.wVal (src, r) = rest.length + 1 := by simp only [MsgSt.wVal, h2, List.length_cons]
    have e2 : MsgSt.wVal { ms.take src r rest with st := { ms.st with dir := dir } } (src, r) =
      rest.length := by simp only [MsgSt.wVal, MsgSt.take, upd_self]
    have e3 : MsgSt.cVal { ms.take src r rest with st := { ms.st with dir := dir } } r = ms.cVal r := rfl
    omega
  | release r i s lk h1 h2 =>
    obtain ⟨m', h4, h5⟩ := hm.change (ms' := { ms with
        st := { ms.st with lk := lk, pc := upd ms.st.pc (.comm r) .idle } })
      (0, 0) r (fun _ _ => rfl) (fun q hq => cVal_congr (upd_ne _ _ (comm_ne' hq)) rfl)
    refine ⟨m', h4, ?_⟩
    have e1 : ms.cVal r = 1 := by simp only [MsgSt.cVal, h1, h2]
    have e2 : MsgSt.cVal { ms with
        st := { ms.st with lk := lk, pc := upd ms.st.pc (.comm r) .idle } } r = 0 := by
      simp only [MsgSt.cVal, h1, upd_self]
    have e3 : MsgSt.wVal { ms with
        st := { ms.st with lk := lk, pc := upd ms.st.pc (.comm r) .idle } } (0, 0) = ms.wVal (0, 0) := rfl
    omega
  | answered r h1 =>
    obtain ⟨m', h4, h5⟩ := hm.change (ms' := { ms with wait := upd ms.wait r none })
      (0, 0) r (fun _ _ => rfl) (fun q hq => cVal_congr rfl (upd_ne _ _ hq))
    refine ⟨m', h4, ?_⟩
    have e1 : ms.cVal r = MsgSt.cVal { ms with wait := upd ms.wait r none } r + 1 := by
      cases e : ms.wait r with
      | none => exact absurd e h1
      | some x => simp only [MsgSt.cVal, e, upd_self]
    have e3 : MsgSt.wVal { ms with wait := upd ms.wait r none } (0, 0) = ms.wVal (0, 0) := rfl
    omega

/-- Steps of `close` that remain. -/
def CloseSt.remain (procs : Nat) (s : CloseSt β) : Nat := ∑ r ∈ Finset.range procs, (8 - s.stage r)

theorem remain_grow {s : CloseSt β} {r k : Nat} (hr : r < procs) (hk : s.stage r < k) (h8 : k ≤ 8) :
    CloseSt.remain procs { s with stage := upd s.stage r k } + 1 ≤ s.remain procs := by
  unfold CloseSt.remain
  rw [← Finset.add_sum_erase _ _ (Finset.mem_range.2 hr),
    ← Finset.add_sum_erase (Finset.range procs) (fun q => 8 - s.stage q) (Finset.mem_range.2 hr)]
  have : ∑ x ∈ (Finset.range procs).erase r, (8 - upd s.stage r k x) =
      ∑ x ∈ (Finset.range procs).erase r, (8 - s.stage x) :=
    Finset.sum_congr rfl fun x hx => by rw [upd_ne _ _ (Finset.ne_of_mem_erase hx)]
  simp only [this, upd_self]
  omega

/-- Every step brings the end of `close` nearer, once all processes have called it. -/
theorem CloseInv.less (hC : LegalMsg C) (hp : ∀ t, C.rankT t < procs) {early : Bool}
    {s s' : CloseSt β} (h : CloseInv C procs s) (ha : ∀ q, q < procs → s.stage q ≠ 0)
    (hs : CloseMsgStep C procs early s s') {m : Nat} (hm : s.ms.Rest m) :
    (∀ q, q < procs → s'.stage q ≠ 0) ∧
      ∃ m', s'.ms.Rest m' ∧ m' + s'.remain procs + 1 ≤ m + s.remain procs := by
  have grow : ∀ {r k : Nat}, s.stage r ≠ 0 → s.stage r < k → k ≤ 8 →
      (∀ q, q < procs → upd s.stage r k q ≠ 0) ∧
      ∃ m', s.ms.Rest m' ∧
        m' + CloseSt.remain procs { s with stage := upd s.stage r k } + 1 ≤ m + s.remain procs := by
    intro r k h0 hk h8
    have hr : r < procs := by
      by_cases e : r < procs
      · exact e
      · exact absurd (h.out r (by omega)) h0
    refine ⟨fun q hq => ?_, m, hm, ?_⟩
    · rw [upd_apply]; split
      · omega
      · exact ha q hq
    · have := remain_grow (s := s) hr hk h8
      omega
  cases hs with
  | use ms' h1 hu ht =>
    refine ⟨ha, ?_⟩
    obtain ⟨m', h2, h3⟩ := ((h.all ha).calm hC h1 fun t =>
      (hu t (ha _ (hp t))).trans (h.idle t (ha _ (hp t)))).less hm
    refine ⟨m', h2, ?_⟩
    have : CloseSt.remain procs { s with ms := ms' } = s.remain procs := rfl
    omega
  | drop src r x rest h1 h2 h3 =>
    refine ⟨ha, ?_⟩
    obtain ⟨m', h4, h5⟩ := (CalmStep.take (early := true) src r x rest s.ms.st.dir h1 h2).less hm
    refine ⟨m', h4, ?_⟩
    have : CloseSt.remain procs { s with ms := s.ms.take src r rest } = s.remain procs := rfl
    omega
  | call r h1 h2 h3 => exact absurd h2 (ha r h1)
  | pass r h1 h2 => exact grow (by omega) (by omega) (by omega)
  | freeList r h1 => exact grow (by omega) (by omega) (by omega)
  | unregister r k h1 h2 h3 => exact grow (by omega) (by omega) (by omega)
  | free r h1 => exact grow (by omega) (by omega) (by omega)

/-- Something can happen until all processes have closed the grid. -/
theorem CloseInv.go {early : Bool} {s : CloseSt β} (h : CloseInv C procs s)
    (ha : ∀ q, q < procs → s.stage q ≠ 0) {r : Nat} (hr : r < procs) (h8 : s.stage r ≠ 8) :
    ∃ s', CloseMsgStep C procs early s s' := by
  have hq := h.all ha
  have h1 := ha r hr
  have h2 := h.le r
  have hl : s.ms.listens r ∨ ∃ s', CloseMsgStep C procs early s s' := by
    cases hw : s.ms.wait r with
    | some x =>
      obtain ⟨dst, k⟩ := x
      exact .inr ⟨_, .use s _ (.answered s.ms r dst k hw (.inr (by rw [hq.mail]; nofun)))
        (fun _ _ => rfl) (fun src r' m rest e1 e2 => by
          dsimp only at e2
          rw [e1] at e2
          exact absurd (congrArg List.length e2) (by simp))⟩
    | none =>
      rcases hq.comm r with hc | ⟨i, k, hc⟩
      · exact .inl ⟨hc, hw⟩
      · exact .inr ⟨_, .use s _ (.work s.ms r _ hw ⟨.release s.ms.st r i k hc, by rw [hc]; nofun, rfl, rfl⟩)
          (fun t _ => upd_cu (pc := s.ms.st.pc) (r := r) (p := .idle)) (fun src r' m rest e1 e2 => by
          dsimp only at e2
          rw [e1] at e2
          exact absurd (congrArg List.length e2) (by simp))⟩
  rcases hl with hl | hl
  · have : s.stage r = 1 ∨ s.stage r = 2 ∨ (3 ≤ s.stage r ∧ s.stage r < 7) ∨ s.stage r = 7 := by omega
    rcases this with e | e | e | e
    · exact ⟨_, .pass s r e fun q hq => by have := ha q hq; omega⟩
    · exact ⟨_, .freeList s r e⟩
    · exact ⟨_, .unregister s r (s.stage r - 3) (by omega) (by omega) hl⟩
    · exact ⟨_, .free s r e⟩
  · exact hl

end Asagi
