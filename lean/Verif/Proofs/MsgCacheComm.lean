import Verif.Proofs.MsgCacheStep
/-
The caches with the communication thread and the implemented messages: steps of the communication
threads.
-/
namespace Asagi
open Spec
variable {β : Type} {C : MsgParams β}

theorem UserOk.ofInfo {t : Nat} {c : CallPc} {p pa : Pc β} {i : InfoStage} {x : XferStage β}
    (h : InfoOk C t p pa i) (hc : awaitsInfo c = true) : UserOk C t c p pa i x := by
  cases c <;> first | exact h | cases hc

theorem UserOk.ofXfer {t : Nat} {c : CallPc} {p pa : Pc β} {i : InfoStage} {x : XferStage β}
    (h : XferOk t p pa x) (hc : awaitsXfer c = true) : UserOk C t c p pa i x := by
  cases c <;> first | exact h | cases hc

/-- A step of a communication thread without messages is possible whatever the other threads and the
messages are. -/
theorem work_frame {P : DistParams β} {r : Nat} {st st' a : DistState β} {xs : Nat → XferStage β}
    (hs : CommWork P r st st') (h0 : ∀ t, st.box t = none) (hsame : SameMem st a)
    (hp : CommOk xs r (st.pc (.comm r)) (a.pc (.comm r))) :
    ∃ pa', CommStep P r a { st' with
      pc := upd a.pc (.comm r) pa', net := a.net, box := a.box } ∧
    CommOk xs r (st'.pc (.comm r)) pa' ∧
    st'.pc = upd st.pc (.comm r) (st'.pc (.comm r)) ∧
    (st'.pc (.comm r)).asker = (st.pc (.comm r)).asker := by
  obtain ⟨hs, hi, hb, hn⟩ := hs
  rw [hsame.eq] at hp ⊢
  change CommOk xs r _ ((a.under st).pc _) at hp
  cases hs with
  | deliver _ _ src b op rest h1 h2 => exact absurd h1 hi
  | accept _ _ t b off s h1 h2 h3 => exact absurd h1 hi
  | fail _ _ t b i h1 h2 =>
    have := congrFun hb t
    dsimp only at this
    rw [upd_self, h0] at this; cases this
  | busy _ _ t b i h1 h2 h3 =>
    rw [h1] at hp
    obtain ⟨u, e1, e2⟩ := hp
    refine ⟨.tryDom u b (i + 1), .busy (a.under st) r u b i e2 h2 h3, ?_, ?_, ?_⟩
    · simp only [upd_self]; exact ⟨u, e1, rfl⟩
    · simp only [upd_self]
    · simp only [upd_self]; rw [h1]; rfl
  | «try» _ _ t b i h1 h2 h3 h4 =>
    rw [h1] at hp
    obtain ⟨u, e1, e2⟩ := hp
    refine ⟨.tryCm u b i, .try (a.under st) r u b i e2 h2 h3 h4, ?_, ?_, ?_⟩
    · simp only [upd_self]; exact ⟨u, e1, rfl⟩
    · simp only [upd_self]
    · simp only [upd_self]; rw [h1]; rfl
  | miss _ _ t b i h1 h2 =>
    rw [h1] at hp
    obtain ⟨u, e1, e2⟩ := hp
    refine ⟨.tryDom u b (i + 1), .miss (a.under st) r u b i e2 h2, ?_, ?_, ?_⟩
    · simp only [upd_self]; exact ⟨u, e1, rfl⟩
    · simp only [upd_self]
    · simp only [upd_self]; rw [h1]; rfl
  | hit _ _ t b i s h1 h2 h3 =>
    rw [h1] at hp
    obtain ⟨u, e1, e2⟩ := hp
    refine ⟨.send u b i s 0 (fun _ => P.zero), .hit (a.under st) r u b i s e2 h2 h3, ?_, ?_, ?_⟩
    · simp only [upd_self]; exact ⟨u, e1, rfl⟩
    · simp only [upd_self]
    · simp only [upd_self]; rw [h1]; rfl
  | cell _ _ t b i s k buf h1 h2 =>
    rw [h1] at hp
    obtain ⟨u, e1, e2⟩ := hp
    refine ⟨_, .cell (a.under st) r u b i s k buf e2 h2, ?_, ?_, ?_⟩
    · simp only [upd_self]; exact ⟨u, e1, rfl⟩
    · simp only [upd_self]
    · simp only [upd_self]; rw [h1]; rfl
  | reply _ _ t b i s k buf h1 h2 =>
    have := congrFun hb t
    dsimp only at this
    rw [upd_self, h0] at this; cases this
  | release _ _ i s h1 =>
    rw [h1] at hp
    refine ⟨.idle, .release (a.under st) r i s hp, ?_, ?_, ?_⟩
    · simp only [upd_self]; exact rfl
    · simp only [upd_self]
    · simp only [upd_self]; rw [h1]; rfl

theorem work_not_refused {a a' : DistState β}
    (hb : a'.box = a.box) : ¬ Refused a a' := by
  rintro ⟨u, h1, h2⟩
  rw [hb] at h2; exact h1 h2

theorem deliver_not_refused {a a' : DistState β} {u : Nat} {v : Nat → β}
    (hb : a'.box = upd a.box u (some (some v))) : ¬ Refused a a' := by
  rintro ⟨t, h1, h2⟩
  rw [hb] at h2
  by_cases e : t = u
  · subst e; rw [upd_self] at h2; cases h2
  · rw [upd_ne _ _ e] at h2; exact h1 h2

namespace MsgSim
variable {ms ms' : MsgSt β} {a a' : DistState β} {is is' : Nat → InfoStage} {xs xs' : Nat → XferStage β}

theorem comm_idle (h : MsgSim C ms a is xs) {r : Nat} (hr : ms.st.pc (.comm r) = .idle) :
    a.pc (.comm r) = .idle := by
  have := h.comm r
  rw [hr] at this; exact this

theorem user_pc (pc : Agent → Pc β) (r t : Nat) (p : Pc β) :
    upd pc (.comm r) p (.user t) = pc (.user t) := upd_ne _ _ (Ne.symm (agent_ne r t))

theorem comm_pc (pc : Agent → Pc β) (r t : Nat) (p : Pc β) :
    upd pc (.user t) p (.comm r) = pc (.comm r) := upd_ne _ _ (agent_ne r t)

theorem comm_ne {r r' : Nat} (h : r' ≠ r) (pc : Agent → Pc β) (p : Pc β) :
    upd pc (.comm r) p (.comm r') = pc (.comm r') := upd_ne _ _ fun e => h (by injection e)

/-- A communication thread works on a request. -/
theorem step_work (h : MsgSim C ms a is xs) {r : Nat} {st' : DistState β}
    (h2 : CommWork C.P r ms.st st') (e : ms' = { ms with st := st' }) :
    ∃ a' is' xs', StepRes C ms ms' a a' ∧ MsgSim C ms' a' is' xs' := by
  obtain ⟨pa', f1, f2, f3, f4⟩ := work_frame h2 h.box0 h.same (h.comm r)
  have hb : st'.box = ms.st.box := by cases h2; assumption
  subst e
  have hu : ∀ t, st'.pc (.user t) = ms.st.pc (.user t) := fun t => by rw [f3, user_pc]
  refine ⟨_, is, xs, .inr ⟨.comm r f1, .comm (r := r) rfl hu fun _ _ => rfl,
    fun hr => absurd hr (work_not_refused rfl)⟩, ?_⟩
  exact { h with
    same := ⟨rfl, rfl, rfl, rfl, rfl, rfl, rfl⟩
    users := fun t => by
      dsimp only; rw [user_pc, hu]; exact h.users t
    box0 := fun t => by dsimp only; rw [hb]; exact h.box0 t
    comm := fun r' => by
      dsimp only
      by_cases e : r' = r
      · subst e; rw [upd_self]; exact f2
      · rw [f3, comm_ne e, comm_ne e]; exact h.comm r'
    work := fun q t b r' hq => by
      dsimp only
      have := h.work q t b r' hq
      by_cases e : r' = r
      · subst e; rw [f4]; exact this
      · rw [f3, comm_ne e]; exact this }

/-- `MPI_Test` reports the end of a send. -/
theorem step_answered (h : MsgSim C ms a is xs) {r dst ticket : Nat}
    (h1 : ms.wait r = some (dst, ticket)) (e : ms' = { ms with wait := upd ms.wait r none }) :
    ∃ a' is' xs', StepRes C ms ms' a a' ∧ MsgSim C ms' a' is' xs' := by
  subst e
  refine ⟨a, is, xs, .inl ⟨rfl, 0, r, fun _ _ => rfl, fun r' hr => ?_, ?_⟩, { h with }⟩
  · have : upd ms.wait r none r' = ms.wait r' := upd_ne _ _ hr
    unfold MsgSt.rPot
    simp only [this]
  · have e1 : MsgSt.tPot { ms with wait := upd ms.wait r none } 0 = ms.tPot 0 := rfl
    have e2 : MsgSt.rPot { ms with wait := upd ms.wait r none } r = 0 := by simp [MsgSt.rPot]
    have e3 : ms.rPot r = 1 := by simp [MsgSt.rPot, h1]
    omega

/-- Wires without a message. -/
theorem take_ticks (hk : ∀ q r, ∀ m ∈ ms.wire q r, m.ticket = k → m.tag = g)
    {src r : Nat} {m0 : Msg} {rest : List Msg} (hw : ms.wire src r = m0 :: rest) :
    ∀ q r', ∀ m ∈ (ms.take src r rest).wire q r', m.ticket = k → m.tag = g :=
  fun q r' m hm he => hk q r' m (take_mem hw hm) he

/-- An update of the directory arrives. -/
theorem step_update (h : MsgSim C ms a is xs) {src r : Nat} {m : Msg} {rest : List Msg}
    {b : Nat} {op : DictOp} (h1 : ms.st.pc (.comm r) = .idle) (h3 : ms.wire src r = m :: rest)
    (hop : C.infoWire [m] = [] ∧ C.xferWire [m] = [] ∧ C.ops src r [m] = [(b, op)])
    (e : ms' = { ms.take src r rest with
        st := { ms.st with dir := upd ms.st.dir b (dictStep (ms.st.dir b) op) } }) :
    ∃ a' is' xs', StepRes C ms ms' a a' ∧ MsgSim C ms' a' is' xs' := by
  obtain ⟨w1, w2, w3⟩ := hop
  have hn : a.net src r = (b, op) :: C.ops src r rest := by
    rw [h.net, h3, (wire_cons m rest src r).2.2, w3]; rfl
  have f1 := CommStep.deliver (P := C.P) a r src b op _ (h.comm_idle h1) hn
  subst e
  refine ⟨_, is, xs, .inr ⟨.comm r f1, .comm (r := r) rfl (fun _ => rfl) fun _ _ => rfl,
    fun hr => absurd hr (work_not_refused rfl)⟩, ?_⟩
  exact { h with
    same := ⟨h.same.cl, h.same.cm, h.same.lk, h.same.data, by dsimp only; rw [h.same.dir],
      h.same.dl, h.same.blk⟩
    net := fun q r' => by
      dsimp only
      by_cases e : q = src ∧ r' = r
      · obtain ⟨rfl, rfl⟩ := e
        rw [take_self, upd_self, upd_self]
      · rw [take_other _ _ e, ← h.net]
        by_cases e1 : q = src
        · subst e1; rw [upd_self, upd_ne _ _ (fun x => e ⟨rfl, x⟩)]
        · rw [upd_ne _ _ e1]
    wireI := fun q r' => by
      dsimp only
      by_cases e : q = src ∧ r' = r
      · obtain ⟨rfl, rfl⟩ := e
        have := h.wireI q r'
        rw [h3, (wire_cons m rest 0 0).1, w1] at this
        rw [take_self]; exact this
      · rw [take_other _ _ e, ← h.wireI]
    wireX := fun q r' => by
      dsimp only
      by_cases e : q = src ∧ r' = r
      · obtain ⟨rfl, rfl⟩ := e
        have := h.wireX q r'
        rw [h3, (wire_cons m rest 0 0).2.1, w2] at this
        rw [take_self]; exact this
      · rw [take_other _ _ e, ← h.wireX]
    tags := fun q r' m' hm => h.tags q r' m' (take_mem h3 hm)
    tickI := fun t k hk => ⟨(h.tickI t k hk).1, take_ticks (h.tickI t k hk).2 h3⟩
    tickX := fun t k hk => ⟨(h.tickX t k hk).1, take_ticks (h.tickX t k hk).2 h3⟩ }

theorem step_takeAdd (hC : LegalMsg C) (h : MsgSim C ms a is xs) {src r : Nat} {m : Msg}
    {rest : List Msg} (h1 : ms.st.pc (.comm r) = .idle) (h3 : ms.wire src r = m :: rest)
    (h4 : m.tag = C.addTag)
    (e : ms' = { ms.take src r rest with
        st := { ms.st with
          dir := upd ms.st.dir (C.opBlock r m.data)
            (dictAdd (ms.st.dir (C.opBlock r m.data)) (C.opEntry src m.data)) } }) :
    ∃ a' is' xs', StepRes C ms ms' a a' ∧ MsgSim C ms' a' is' xs' :=
  h.step_update h1 h3 (wire_add hC m src r h4) e

theorem step_takeDel (hC : LegalMsg C) (h : MsgSim C ms a is xs) {src r : Nat} {m : Msg}
    {rest : List Msg} (h1 : ms.st.pc (.comm r) = .idle) (h3 : ms.wire src r = m :: rest)
    (h4 : m.tag = C.delTag)
    (e : ms' = { ms.take src r rest with
        st := { ms.st with
          dir := upd ms.st.dir (C.opBlock r m.data)
            (dictDelete (ms.st.dir (C.opBlock r m.data)) (C.opEntry src m.data)) } }) :
    ∃ a' is' xs', StepRes C ms ms' a a' ∧ MsgSim C ms' a' is' xs' :=
  h.step_update h1 h3 (wire_del hC m src r h4) e

/-- A request for an entry is that of the thread that waits for it. -/
theorem asked_info (h : MsgSim C ms a is xs) {src r d : Nat} {l : List Nat}
    (hl : C.infoWire (ms.wire src r) = d :: l) :
    l = [] ∧ ∃ t b off s, is src = .asked t b ∧ C.rankT t = src ∧ C.P.home b = r ∧ d = C.doff b ∧
      awaitsInfo (ms.call t) = true ∧ ms.st.pc (.user t) = .own b off s .start ∧
      a.pc (.user t) = .own b off s .start ∧ C.P.home b ≠ C.rankT t := by
  rw [h.wireI] at hl
  cases hi : is src with
  | none => rw [hi] at hl; cases hl
  | told t b e => rw [hi] at hl; cases hl
  | asked t b =>
    rw [hi] at hl
    change (if C.P.home b = r then _ else _) = _ at hl
    split at hl
    · rename_i hh
      injection hl with hd hl
      obtain ⟨e1, e2⟩ := h.ist src t (by rw [hi]; rfl)
      obtain ⟨b', off, s, e3, e4, e5⟩ := (h.users t).info e2
      rw [e1, hi] at e5
      rcases e5 with ⟨e5, e6⟩ | ⟨_, e5, _⟩
      · injection e5 with _ e5
        subst e5
        exact ⟨hl.symm, t, b, off, s, rfl, e1, hh, hd.symm, e2, e3, e6.trans e3, e4⟩
      · cases e5
    · cases hl

/-- The communication thread answers a request for an entry. -/
theorem step_takeInfo (hC : LegalMsg C) (h : MsgSim C ms a is xs) (hD : DistInv C.P a)
    {src r rnd : Nat} {m : Msg} {rest : List Msg} (h1 : ms.st.pc (.comm r) = .idle)
    (h3 : ms.wire src r = m :: rest) (h4 : m.tag = C.infoTag)
    (e : ms' = MsgSt.answer (ms.take src r rest) r src (C.tagOffset + 0)
        (.entry (dictFetch (ms.st.dir (C.blockAt r m.data)) rnd))) :
    ∃ a' is' xs', StepRes C ms ms' a a' ∧ MsgSim C ms' a' is' xs' := by
  obtain ⟨w1, w2, w3⟩ := wire_info hC m src r h4
  have hl : C.infoWire (ms.wire src r) = m.data :: C.infoWire rest := by
    rw [h3, (wire_cons m rest 0 0).1, w1]; rfl
  obtain ⟨hr, t, b, off, s, hi, ht, hh, hd, hc, hp, ha, hne⟩ := h.asked_info hl
  have hv := (hD.own t b off s _ ha).1
  have hb : C.blockAt r m.data = b := by rw [hd, ← hh]; exact hC.entry b off hv
  rw [hC.first, hb, ← h.same.dir] at e
  have f1 := UserStep.startThread (P := C.P) a t b off s rnd ha hC.thread
    (.inr (by rw [hh]; exact h.comm_idle h1))
  generalize dictFetch (a.dir b) rnd = ent at e f1
  subst e
  subst ht
  refine ⟨_, upd is (C.rankT t) (.told t b ent), xs, .inr ⟨.user t f1,
    .comm (r := r) rfl (fun _ => rfl) fun r' hr => upd_ne _ _ hr,
    fun hr => absurd hr (user_not_refused f1)⟩, ?_⟩
  exact { h with
    same := ⟨h.same.cl, h.same.cm, h.same.lk, h.same.data, h.same.dir, h.same.dl, h.same.blk⟩
    users := h.users' hD t (by
        refine UserOk.ofInfo ?_ hc
        rw [upd_self]
        refine ⟨b, off, s, hp, hne, .inr ⟨ent, rfl, ?_⟩⟩
        simp only [DistState.goto, upd_self]) (fun _ _ => rfl) (fun _ _ => rfl)
        (fun u hu => upd_ne _ _ (user_ne' hu))
        (.inr ⟨awaitsInfo_holds hc, fun q hq => upd_ne _ _ hq⟩) (.inl rfl)
    ist := h.ist_set (ms' := MsgSt.answer (ms.take (C.rankT t) r rest) r (C.rankT t) 0 (.entry ent)) t
      (fun _ _ => rfl) _ (by
      intro u hu
      injection hu with hu; exact ⟨hu.symm, hc⟩)
    comm := fun r' => by
      simp only [DistState.goto]; rw [comm_pc]; exact h.comm r'
    net := fun q r' => by
      show a.net q r' = C.ops q r' ((ms.take (C.rankT t) r rest).wire q r')
      by_cases e : q = C.rankT t ∧ r' = r
      · obtain ⟨rfl, rfl⟩ := e
        rw [take_self, h.net, h3, (wire_cons m rest _ _).2.2, w3]; rfl
      · rw [take_other _ _ e, ← h.net]
    wireI := fun q r' => by
      show C.infoWire ((ms.take (C.rankT t) r rest).wire q r') = _
      by_cases e : q = C.rankT t ∧ r' = r
      · obtain ⟨rfl, rfl⟩ := e
        rw [take_self, hr, upd_self]; rfl
      · rw [take_other _ _ e, h.wireI]
        by_cases e1 : q = C.rankT t
        · subst e1
          rw [upd_self, hi]
          exact if_neg fun x => e ⟨rfl, x.symm.trans hh⟩
        · rw [upd_ne _ _ e1]
    wireX := fun q r' => by
      show C.xferWire ((ms.take (C.rankT t) r rest).wire q r') = _
      by_cases e : q = C.rankT t ∧ r' = r
      · obtain ⟨rfl, rfl⟩ := e
        have := h.wireX (C.rankT t) r'
        rw [h3, (wire_cons m rest 0 0).2.1, w2] at this
        rw [take_self]; exact this
      · rw [take_other _ _ e, ← h.wireX]
    mailI := fun q r' => by
      by_cases e : r' = r ∧ q = C.rankT t
      · obtain ⟨rfl, rfl⟩ := e
        rw [answer_self, (mail_append _ _).1, (mail_one _).1, upd_self]
        have := h.mailI (C.rankT t) r'
        rw [hi] at this
        show infoMail (ms.mail r' (C.rankT t)) ++ _ = _
        rw [this]
        exact (if_pos hh).symm
      · rw [answer_other _ _ _ e]
        show infoMail (ms.mail r' q) = _
        rw [h.mailI]
        by_cases e1 : q = C.rankT t
        · subst e1
          rw [upd_self, hi]
          exact (if_neg fun x => e ⟨x.symm.trans hh, rfl⟩).symm
        · rw [upd_ne _ _ e1]
    mailX := fun q r' => by
      rw [← h.mailX]
      by_cases e : r' = r ∧ q = C.rankT t
      · obtain ⟨rfl, rfl⟩ := e
        rw [answer_self, (mail_append _ _).2, (mail_one _).2]
        exact List.append_nil _
      · rw [answer_other _ _ _ e]; rfl
    tags := fun q r' m' hm => by
      have := h.tags q r' m' (take_mem h3 hm)
      exact ⟨this.1, Nat.lt_succ_of_lt this.2⟩
    tickI := fun t k hk =>
      ⟨Nat.lt_succ_of_lt (h.tickI t k hk).1, take_ticks (h.tickI t k hk).2 h3⟩
    tickX := fun t k hk =>
      ⟨Nat.lt_succ_of_lt (h.tickX t k hk).1, take_ticks (h.tickX t k hk).2 h3⟩ }

/-- A request for a block is that of the thread that waits for it. -/
theorem asked_xfer (h : MsgSim C ms a is xs) {src r d : Nat} {l : List Nat}
    (hl : C.xferWire (ms.wire src r) = d :: l) :
    l = [] ∧ ∃ t off s, xs src = .asked t d r ∧ C.rankT t = src ∧
      awaitsXfer (ms.call t) = true ∧ ms.st.pc (.user t) = .own d off s (.ask r) ∧
      a.pc (.user t) = .own d off s (.ask r) := by
  rw [h.wireX] at hl
  cases hi : xs src with
  | none => rw [hi] at hl; cases hl
  | working => rw [hi] at hl; cases hl
  | told t b e => rw [hi] at hl; cases hl
  | asked t b r' =>
    rw [hi] at hl
    change (if r' = r then _ else _) = _ at hl
    split at hl
    · rename_i hh
      injection hl with hd hl
      subst hh hd
      obtain ⟨e1, e2⟩ := h.xst src t (by rw [hi]; rfl)
      obtain ⟨b', off, s, r2, e3, e4, e5⟩ := (h.users t).xfer e2
      rw [e1, hi] at e5
      rcases e5 with e5 | e5 | ⟨_, e5⟩
      · injection e5 with _ e5 e6
        subst e5 e6
        exact ⟨hl.symm, t, off, s, rfl, e1, e2, e3, e4.trans e3⟩
      · cases e5
      · cases e5
    · cases hl

/-- A communication thread starts to work on a request for a block. -/
theorem step_takeXfer (hC : LegalMsg C) (h : MsgSim C ms a is xs) (hD : DistInv C.P a)
    {src r : Nat} {m : Msg} {rest : List Msg} (h1 : ms.st.pc (.comm r) = .idle)
    (h3 : ms.wire src r = m :: rest) (h4 : m.tag = C.xferTag)
    (e : ms' = { ms.take src r rest with
        st := { ms.st with pc := upd ms.st.pc (.comm r) (.tryDom src m.data 0) } }) :
    ∃ a' is' xs', StepRes C ms ms' a a' ∧ MsgSim C ms' a' is' xs' := by
  obtain ⟨w1, w2, w3⟩ := wire_xfer hC m src r h4
  have hl : C.xferWire (ms.wire src r) = m.data :: C.xferWire rest := by
    rw [h3, (wire_cons m rest 0 0).2.1, w2]; rfl
  obtain ⟨hr, t, off, s, hx, ht, hc, hp, ha⟩ := h.asked_xfer hl
  generalize m.data = b at e hx hp ha
  have hb : a.box t = none := by rw [h.box, ht, hx]; rfl
  have f1 := CommStep.accept (P := C.P) a r t b off s (h.comm_idle h1) ha hb
  subst e
  subst ht
  refine ⟨_, is, upd xs (C.rankT t) (.working t b r), .inr ⟨.comm r f1,
    .comm (r := r) rfl (fun u => user_pc ms.st.pc r u (.tryDom (C.rankT t) b 0)) fun r' hr => rfl,
    fun hr => absurd hr (work_not_refused rfl)⟩, ?_⟩
  exact { h with
    same := ⟨h.same.cl, h.same.cm, h.same.lk, h.same.data, h.same.dir, h.same.dl, h.same.blk⟩
    users := h.users' hD t (by
        dsimp only
        rw [user_pc, user_pc]
        refine UserOk.ofXfer ?_ hc
        rw [upd_self]
        exact ⟨b, off, s, r, hp, ha.trans hp.symm, .inr (.inl rfl)⟩) (fun _ _ => rfl)
        (fun u _ => user_pc ms.st.pc r u (.tryDom (C.rankT t) b 0)) (fun u _ => user_pc a.pc r u (.tryDom t b 0)) (.inl rfl)
        (.inr ⟨awaitsXfer_holds hc, fun q hq => upd_ne _ _ hq⟩)
    box := h.box_keep t _ (by intro u _; rw [hx]; rfl)
    xst := h.xst_set t (fun _ _ => rfl) _ (by
      intro u hu
      injection hu with hu; exact ⟨hu.symm, hc⟩)
    comm := fun r' => by
      dsimp only
      by_cases e : r' = r
      · subst e; rw [upd_self, upd_self]; exact ⟨t, by rw [upd_self], rfl⟩
      · rw [comm_ne e, comm_ne e]
        refine (h.comm r').congr ?_
        intro q u b' _ hq
        refine upd_ne _ _ ?_
        rintro rfl
        rw [hx] at hq; cases hq
    work := fun q u b' r' hq => by
      dsimp only
      by_cases e1 : q = C.rankT t
      · subst e1
        rw [upd_self] at hq
        injection hq with _ _ hq
        subst hq
        rw [upd_self]; rfl
      · rw [upd_ne _ _ e1] at hq
        have := h.work q u b' r' hq
        by_cases e : r' = r
        · subst e; rw [h1] at this; cases this
        · rw [comm_ne e]; exact this
    net := fun q r' => by
      show a.net q r' = C.ops q r' ((ms.take (C.rankT t) r rest).wire q r')
      by_cases e : q = C.rankT t ∧ r' = r
      · obtain ⟨rfl, rfl⟩ := e
        rw [take_self, h.net, h3, (wire_cons m rest _ _).2.2, w3]; rfl
      · rw [take_other _ _ e, ← h.net]
    wireI := fun q r' => by
      show C.infoWire ((ms.take (C.rankT t) r rest).wire q r') = _
      by_cases e : q = C.rankT t ∧ r' = r
      · obtain ⟨rfl, rfl⟩ := e
        have := h.wireI (C.rankT t) r'
        rw [h3, (wire_cons m rest 0 0).1, w1] at this
        rw [take_self]; exact this
      · rw [take_other _ _ e, ← h.wireI]
    wireX := fun q r' => by
      show C.xferWire ((ms.take (C.rankT t) r rest).wire q r') = _
      by_cases e : q = C.rankT t ∧ r' = r
      · obtain ⟨rfl, rfl⟩ := e
        rw [take_self, hr, upd_self]; rfl
      · rw [take_other _ _ e, h.wireX]
        by_cases e1 : q = C.rankT t
        · subst e1
          rw [upd_self, hx]
          exact if_neg fun x => e ⟨rfl, x.symm⟩
        · rw [upd_ne _ _ e1]
    mailX := fun q r' => by
      show xferMail (ms.mail r' q) = _
      rw [h.mailX]
      by_cases e1 : q = C.rankT t
      · subst e1; rw [upd_self, hx]; rfl
      · rw [upd_ne _ _ e1]
    tags := fun q r' m' hm => h.tags q r' m' (take_mem h3 hm)
    tickI := fun t k hk => ⟨(h.tickI t k hk).1, take_ticks (h.tickI t k hk).2 h3⟩
    tickX := fun t k hk => ⟨(h.tickX t k hk).1, take_ticks (h.tickX t k hk).2 h3⟩ }

/-- The answer to a request for a block is sent. -/
theorem step_finish (h : MsgSim C ms a is xs) (hD : DistInv C.P a) {r src t b g : Nat}
    {v : Option (Nat → β)} {val : RepVal β} {p p' : Pc β} (h1 : ms.st.pc (.comm r) = p)
    (hp : p.asker = some src) (hp' : p'.asker = none) (hx : xs src = .working t b r)
    (hok : CommOk xs r p' p')
    (hg : g ≠ 0) (hv : ((g, val) : Nat × RepVal β) = match v with
      | none => (2, .ack)
      | some buf => (1, .block buf))
    (hstep : CommStep C.P r a { a with
      box := upd a.box t (some v), pc := upd a.pc (.comm r) p' })
    (hr : v = none → val = .ack)
    (e : ms' = { ms.answer r src g val with
        st := { ms.st with pc := upd ms.st.pc (.comm r) p' } }) :
    ∃ a' is' xs', StepRes C ms ms' a a' ∧ MsgSim C ms' a' is' xs' := by
  obtain ⟨ht, hc⟩ := h.xst src t (by rw [hx]; rfl)
  subst e
  subst ht
  refine ⟨_, is, upd xs (C.rankT t) (.told t b r v), .inr ⟨.comm r hstep,
    .comm (r := r) rfl (fun u => user_pc ms.st.pc r u p') fun r' hr => upd_ne _ _ hr, fun hf => ?_⟩, ?_⟩
  · cases v with
    | none => exact ⟨r, C.rankT t, ⟨g, ms.next, val⟩, answer_self .., hr rfl⟩
    | some buf => exact absurd hf (deliver_not_refused rfl)
  exact { h with
    same := ⟨h.same.cl, h.same.cm, h.same.lk, h.same.data, h.same.dir, h.same.dl, h.same.blk⟩
    users := h.users' hD t (by
        dsimp only
        rw [user_pc, user_pc]
        refine UserOk.ofXfer ?_ hc
        rw [upd_self]
        obtain ⟨b', off, s, r', e3, e4, e5⟩ := (h.users t).xfer hc
        rw [hx] at e5
        rcases e5 with e5 | e5 | ⟨_, e5⟩
        · cases e5
        · injection e5 with _ e5 e6
          subst e5 e6
          exact ⟨b, off, s, r, e3, e4, .inr (.inr ⟨v, rfl⟩)⟩
        · cases e5) (fun _ _ => rfl)
        (fun u _ => user_pc ms.st.pc r u p') (fun u _ => user_pc a.pc r u p') (.inl rfl)
        (.inr ⟨awaitsXfer_holds hc, fun q hq => upd_ne _ _ hq⟩)
    box := fun u => by
      dsimp only
      by_cases e : u = t
      · subst e; rw [upd_self, upd_self]; exact (if_pos rfl).symm
      · rw [upd_ne _ _ e, h.box]
        by_cases e1 : C.rankT u = C.rankT t
        · rw [e1, upd_self, hx]; exact (if_neg fun y => e y.symm).symm
        · rw [upd_ne _ _ e1]
    xst := h.xst_set (ms' := ms.answer r (C.rankT t) g val) t (fun _ _ => rfl) _ (by
      intro u hu
      injection hu with hu; exact ⟨hu.symm, hc⟩)
    comm := fun r' => by
      dsimp only
      by_cases e : r' = r
      · subst e; rw [upd_self, upd_self]
        refine hok.congr ?_
        intro q u b' hq
        rw [hp'] at hq; cases hq
      · rw [comm_ne e, comm_ne e]
        refine (h.comm r').congr ?_
        intro q u b' _ hq
        refine upd_ne _ _ ?_
        rintro rfl
        rw [hx] at hq; injection hq with _ _ hq; exact e hq.symm
    work := fun q u b' r' hq => by
      dsimp only
      by_cases e1 : q = C.rankT t
      · subst e1; rw [upd_self] at hq; cases hq
      · rw [upd_ne _ _ e1] at hq
        have := h.work q u b' r' hq
        by_cases e : r' = r
        · subst e; rw [h1, hp] at this; injection this with this; exact absurd this.symm e1
        · rw [comm_ne e]; exact this
    wireX := fun q r' => by
      show C.xferWire (ms.wire q r') = _
      rw [h.wireX]
      by_cases e1 : q = C.rankT t
      · subst e1; rw [upd_self, hx]; rfl
      · rw [upd_ne _ _ e1]
    mailI := fun q r' => by
      rw [← h.mailI]
      show infoMail ((ms.answer r (C.rankT t) g val).mail r' q) = _
      by_cases e : r' = r ∧ q = C.rankT t
      · obtain ⟨rfl, rfl⟩ := e
        rw [answer_self, (mail_append _ _).1, (mail_one _).1, if_neg hg]
        exact List.append_nil _
      · rw [answer_other _ _ _ e]
    mailX := fun q r' => by
      show xferMail ((ms.answer r (C.rankT t) g val).mail r' q) = _
      by_cases e : r' = r ∧ q = C.rankT t
      · obtain ⟨rfl, rfl⟩ := e
        rw [answer_self, (mail_append _ _).2, (mail_one _).2, if_neg hg, upd_self, h.mailX, hx]
        show [(g, val)] = _
        rw [hv]
        exact (if_pos rfl).symm
      · rw [answer_other _ _ _ e, h.mailX]
        by_cases e1 : q = C.rankT t
        · subst e1
          rw [upd_self, hx]
          exact (if_neg fun x => e ⟨x.symm, rfl⟩).symm
        · rw [upd_ne _ _ e1]
    tags := fun q r' m' hm => ⟨(h.tags q r' m' hm).1, Nat.lt_succ_of_lt (h.tags q r' m' hm).2⟩
    tickI := fun t k hk => ⟨Nat.lt_succ_of_lt (h.tickI t k hk).1, (h.tickI t k hk).2⟩
    tickX := fun t k hk => ⟨Nat.lt_succ_of_lt (h.tickX t k hk).1, (h.tickX t k hk).2⟩ }

theorem step_refuse (hC : LegalMsg C) (h : MsgSim C ms a is xs) (hD : DistInv C.P a)
    {r src b i : Nat} (h1 : ms.st.pc (.comm r) = .tryDom src b i) (h2 : C.P.domains ≤ i)
    (e : ms' = { ms.answer r src (C.tagOffset + 2) .ack with
        st := { ms.st with pc := upd ms.st.pc (.comm r) .idle } }) :
    ∃ a' is' xs', StepRes C ms ms' a a' ∧ MsgSim C ms' a' is' xs' := by
  have hc := h.comm r
  rw [h1] at hc
  obtain ⟨t, hx, ha⟩ := hc
  rw [hC.first] at e
  exact h.step_finish hD (v := none) (p' := .idle) h1 rfl rfl hx rfl (by omega) rfl
    (.fail a r t b i ha h2) (fun _ => rfl) e

theorem step_reply (hC : LegalMsg C) (h : MsgSim C ms a is xs) (hD : DistInv C.P a)
    {r src b i s k : Nat} {buf : Nat → β} (h1 : ms.st.pc (.comm r) = .send src b i s k buf)
    (h2 : C.P.cells ≤ k)
    (e : ms' = { ms.answer r src (C.tagOffset + 1) (.block buf) with
        st := { ms.st with pc := upd ms.st.pc (.comm r) (.sent i s) } }) :
    ∃ a' is' xs', StepRes C ms ms' a a' ∧ MsgSim C ms' a' is' xs' := by
  have hc := h.comm r
  rw [h1] at hc
  obtain ⟨t, hx, ha⟩ := hc
  rw [hC.first] at e
  exact h.step_finish hD (v := some buf) (p' := .sent i s) h1 rfl rfl hx rfl (by omega) rfl
    (.reply a r t b i s k buf ha h2) (by nofun) e

/-! ### All steps -/

theorem step (hC : LegalMsg C) (h : MsgSim C ms a is xs) (hD : DistInv C.P a) (hB : BlockInv C.P a)
    {early : Bool} (hs : MsgCacheStep C early ms ms') :
    ∃ a' is' xs', StepRes C ms ms' a a' ∧ MsgSim C ms' a' is' xs' := by
  cases hs with
  | plain t st' h1 h2 h3 => exact h.step_plain hC hD h1 h2 h3
  | opSend t b off s ph tag x p' h1 h2 h3 h4 => exact h.step_opSend hC hD hB h1 h2 h3 h4 rfl
  | opSent t ticket tag x p' h1 h2 h3 => exact h.step_opSent hD h1 h2 rfl
  | infoLock t b off s h1 h2 h3 h4 => exact h.step_infoLock hD h1 h2 h3 h4 rfl
  | infoSend t b off s h1 h2 => exact h.step_infoSend hC hD h1 h2 rfl
  | infoSent t ticket b off s h1 h2 h3 => exact h.step_infoSent hD h1 rfl
  | infoRecv t b off s m rest e h1 h2 h3 h4 => exact h.step_infoRecv hD h1 h2 h3 h4 rfl
  | xferLock t b off s e h1 h2 h3 => exact h.step_xferLock hC hD h1 h2 h3 rfl
  | xferSend t b off s r h1 h2 => exact h.step_xferSend hC hD h1 h2 rfl
  | xferSent t ticket b off s r h1 h2 h3 => exact h.step_xferSent hD h1 rfl
  | xferOk t b off s r m rest buf h1 h2 h3 h4 => exact h.step_xferOk hC hD h1 h2 h3 h4 rfl
  | xferFail t b off s r m rest h1 h2 h3 h4 => exact h.step_xferFail hC hD h1 h2 h3 rfl
  | takeInfo src r rnd m rest h1 h2 h3 h4 => exact h.step_takeInfo hC hD h1 h3 h4 rfl
  | takeXfer src r m rest h1 h2 h3 h4 => exact h.step_takeXfer hC hD h1 h3 h4 rfl
  | takeAdd src r m rest h1 h2 h3 h4 => exact h.step_takeAdd hC h1 h3 h4 rfl
  | takeDel src r m rest h1 h2 h3 h4 => exact h.step_takeDel hC h1 h3 h4 rfl
  | work r st' h1 h2 => exact h.step_work h2 rfl
  | refuse r src b i h1 h2 h3 => exact h.step_refuse hC hD h2 h3 rfl
  | reply r src b i s k buf h1 h2 h3 => exact h.step_reply hC hD h2 h3 rfl
  | answered r dst ticket h1 h2 => exact h.step_answered h1 rfl

end MsgSim

/-- Every state of the caches with messages is a state of the caches of `Verif.Model.CacheDist`. -/
theorem MsgReach.sim (hC : LegalMsg C) {ms : MsgSt β} (h : MsgReach C ms) :
    ∃ a is xs, DistReach C.P a ∧ MsgSim C ms a is xs := by
  induction h with
  | init h =>
    obtain ⟨c, hc, rfl⟩ := h
    refine ⟨DistState.start C.P c, fun _ => .none, fun _ => .none, .init ⟨c, hc, rfl⟩, ?_⟩
    exact {
      same := ⟨rfl, rfl, rfl, rfl, rfl, rfl, rfl⟩
      users := fun t => ⟨rfl, by nofun⟩
      box := fun _ => rfl
      box0 := fun _ => rfl
      info := fun q t => by simp [MsgSt.start, holdsInfo]
      ist := by nofun
      xst := by nofun
      comm := fun _ => rfl
      work := by nofun
      net := fun _ _ => rfl
      wireI := fun _ _ => rfl
      wireX := fun _ _ => rfl
      mailI := fun _ _ => rfl
      mailX := fun _ _ => rfl
      tags := by nofun
      tickI := by nofun
      tickX := by nofun }
  | step hr hs ih =>
    obtain ⟨a, is, xs, h1, h2⟩ := ih
    obtain ⟨a', is', xs', h3, h4⟩ := h2.step hC
      (DistInv.reach hC.legal.domains hC.legal.size hC.legal.hand h1) (BlockInv.reach hC.legal h1) hs
    rcases h3 with ⟨rfl, -⟩ | ⟨h3, -⟩
    · exact ⟨a', is', xs', h1, h4⟩
    · exact ⟨a', is', xs', .step h1 h3, h4⟩

end Asagi
