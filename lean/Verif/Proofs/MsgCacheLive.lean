import Verif.Proofs.MsgCacheComm
/-
The caches with the communication thread and the implemented messages: somebody can always continue,
and only refused requests prolong an execution.
-/
namespace Asagi
open Spec
variable {β : Type} {C : MsgParams β}

/-- What is possible if MPI does not buffer messages is also possible if it does. -/
theorem MsgCacheStep.buffered {early : Bool} {ms ms' : MsgSt β} (h : MsgCacheStep C early ms ms') :
    MsgCacheStep C true ms ms' := by
  cases h with
  | plain t st' h1 h2 h3 => exact .plain _ t st' h1 h2 h3
  | opSend t b off s ph tag x p' h1 h2 h3 h4 => exact .opSend _ t b off s ph tag x p' h1 h2 h3 h4
  | opSent t ticket tag x p' h1 h2 h3 => exact .opSent _ t ticket tag x p' h1 h2 (.inl rfl)
  | infoLock t b off s h1 h2 h3 h4 => exact .infoLock _ t b off s h1 h2 h3 h4
  | infoSend t b off s h1 h2 => exact .infoSend _ t b off s h1 h2
  | infoSent t ticket b off s h1 h2 h3 => exact .infoSent _ t ticket b off s h1 h2 (.inl rfl)
  | infoRecv t b off s m rest e h1 h2 h3 h4 => exact .infoRecv _ t b off s m rest e h1 h2 h3 h4
  | xferLock t b off s e h1 h2 h3 => exact .xferLock _ t b off s e h1 h2 h3
  | xferSend t b off s r h1 h2 => exact .xferSend _ t b off s r h1 h2
  | xferSent t ticket b off s r h1 h2 h3 => exact .xferSent _ t ticket b off s r h1 h2 (.inl rfl)
  | xferOk t b off s r m rest buf h1 h2 h3 h4 => exact .xferOk _ t b off s r m rest buf h1 h2 h3 h4
  | xferFail t b off s r m rest h1 h2 h3 h4 => exact .xferFail _ t b off s r m rest h1 h2 h3 h4
  | takeInfo src r rnd m rest h1 h2 h3 h4 => exact .takeInfo _ src r rnd m rest h1 h2 h3 h4
  | takeXfer src r m rest h1 h2 h3 h4 => exact .takeXfer _ src r m rest h1 h2 h3 h4
  | takeAdd src r m rest h1 h2 h3 h4 => exact .takeAdd _ src r m rest h1 h2 h3 h4
  | takeDel src r m rest h1 h2 h3 h4 => exact .takeDel _ src r m rest h1 h2 h3 h4
  | work r st' h1 h2 => exact .work _ r st' h1 h2
  | refuse r src b i h1 h2 h3 => exact .refuse _ r src b i h1 h2 h3
  | reply r src b i s k buf h1 h2 h3 => exact .reply _ r src b i s k buf h1 h2 h3
  | answered r dst ticket h1 h2 => exact .answered _ r dst ticket h1 (.inl rfl)

/-! ### Replies that can be received -/

theorem takeRep_of_mem (g : Nat) : ∀ l : List (Rep β), (∃ m ∈ l, m.tag = g) →
    ∃ m rest, TakeRep l g m rest
  | [], ⟨m, h, _⟩ => by cases h
  | x :: l, ⟨m, h, e⟩ => by
    by_cases hx : x.tag = g
    · exact ⟨x, l, [], l, rfl, rfl, hx, by nofun⟩
    · have hm : m ∈ l := by
        rcases List.mem_cons.1 h with rfl | h
        · exact absurd e hx
        · exact h
      obtain ⟨m', rest, l1, l2, h1, h2, h3, h4⟩ := takeRep_of_mem g l ⟨m, hm, e⟩
      refine ⟨m', x :: rest, x :: l1, l2, by rw [h1]; rfl, by rw [h2]; rfl, h3, ?_⟩
      intro y hy
      rcases List.mem_cons.1 hy with rfl | hy
      · exact hx
      · exact h4 y hy

theorem takeInfo_of {l : List (Rep β)} {v : RepVal β} (h : infoMail l = [v]) :
    ∃ m rest, TakeRep l 0 m rest ∧ m.val = v := by
  have hm : v ∈ infoMail l := by rw [h]; exact List.mem_cons_self
  unfold infoMail at hm
  obtain ⟨m, h1, h2⟩ := List.mem_map.1 hm
  obtain ⟨h3, h4⟩ := List.mem_filter.1 h1
  obtain ⟨m', rest, ht⟩ := takeRep_of_mem 0 l ⟨m, h3, of_decide_eq_true h4⟩
  refine ⟨m', rest, ht, ?_⟩
  have := ht.info.1
  rw [h] at this
  injection this with this; exact this.symm

theorem takeXfer_of {l : List (Rep β)} {g : Nat} {v : RepVal β} (hg : g ≠ 0)
    (h : xferMail l = [(g, v)]) : ∃ m rest, TakeRep l g m rest ∧ m.val = v := by
  have hm : (g, v) ∈ xferMail l := by rw [h]; exact List.mem_cons_self
  unfold xferMail at hm
  obtain ⟨m, h1, h2⟩ := List.mem_map.1 hm
  obtain ⟨h3, h4⟩ := List.mem_filter.1 h1
  injection h2 with h2 h5
  obtain ⟨m', rest, ht⟩ := takeRep_of_mem g l ⟨m, h3, h2⟩
  refine ⟨m', rest, ht, ?_⟩
  have := (ht.xfer hg h rfl).1
  injection this with _ this; exact this.symm

/-- A thread with an entry needs the mutex for transfers. -/
theorem xfer_blk {P : DistParams β} {a a' : DistState β} {t b off s e : Nat} (hm : P.mode = .thread)
    (hp : a.pc (.user t) = .own b off s (.xfer (e : Int))) (hs : UserStep P t a a') :
    a.blk (P.rankT t) = none := by
  cases hs with
  | xferThread _ _ _ _ _ _ _ _ h3 => exact h3
  | xferNone _ _ b' off' s' e' h1 h2 =>
    rw [hp] at h1
    injection h1 with _ _ _ h1
    injection h1 with h1
    omega
  | xferWin _ _ _ _ _ _ _ h2 => rw [hm] at h2; cases h2
  | _ => simp_all

namespace MsgSim
variable {ms ms' : MsgSt β} {a a' : DistState β} {is is' : Nat → InfoStage} {xs xs' : Nat → XferStage β}
  {early : Bool}

/-- Threads that are not inside of a getter. -/
theorem idle_iff (h : MsgSim C ms a is xs) (t : Nat) :
    a.pc (.user t) = .idle ↔ ms.st.pc (.user t) = .idle := by
  have hu := h.users t
  cases hc : ms.call t with
  | out => rw [hc] at hu; rw [hu.1]
  | sendOp k =>
    rw [hc] at hu
    obtain ⟨tag, o, h1, -⟩ := hu
    generalize ms.st.pc (.user t) = p at h1
    generalize a.pc (.user t) = pa at h1
    unfold Pc.update at h1
    split at h1
    · injection h1 with h1; injection h1 with _ h1; injection h1 with _ h1; subst h1; simp
    · injection h1 with h1; injection h1 with _ h1; injection h1 with _ h1; subst h1; simp
    · injection h1 with h1; injection h1 with _ h1; injection h1 with _ h1; subst h1; simp
    · cases h1
  | reqInfo => rw [hc] at hu; rw [hu.1]
  | sendInfo | waitInfo =>
    rw [hc] at hu
    obtain ⟨b, off, s, h1, -, ⟨-, h2⟩ | ⟨e, -, h2⟩⟩ := hu <;> rw [h2, h1]
    simp
  | reqXfer => rw [hc] at hu; rw [hu.1]
  | sendXfer | waitXfer =>
    rw [hc] at hu
    obtain ⟨b, off, s, r, h1, h2, -⟩ := hu
    rw [h2]

/-- Steps that do not move threads of the user. -/
theorem quiet_of_same (hs : MsgCacheStep C early ms ms')
    (hp : ∀ t, ms'.st.pc (.user t) = ms.st.pc (.user t)) : MsgQuiet C early ms ms' :=
  ⟨hs, fun t ht => by rw [hp]; exact ht⟩

theorem quiet_of_own (hs : MsgCacheStep C early ms ms') {t : Nat} (hn : ms.st.pc (.user t) ≠ .idle)
    {p : Pc β} (hp : ms'.st.pc = upd ms.st.pc (.user t) p) : MsgQuiet C early ms ms' :=
  ⟨hs, fun u hu => by
    rw [hp]
    by_cases e : u = t
    · subst e; exact absurd hu hn
    · rw [upd_ne _ _ (user_ne' e)]; exact hu⟩

/-- A reply to a request for an entry, or the thread that waits for it. -/
theorem go_info (h : MsgSim C ms a is xs) {q t b : Nat} {e : Int} (hi : is q = .told t b e) :
    ∃ ms', MsgQuiet C early ms ms' ∧ ms'.wire = ms.wire := by
  obtain ⟨hq, hc⟩ := h.ist q t (by rw [hi]; rfl)
  subst hq
  obtain ⟨b', off, s, e1, e2, e3⟩ := (h.users t).info hc
  rw [hi] at e3
  rcases e3 with ⟨e3, -⟩ | ⟨e', e3, -⟩
  · cases e3
  injection e3 with _ e3 e4
  subst e3 e4
  have hn : ms.st.pc (.user t) ≠ .idle := by rw [e1]; nofun
  cases hp : ms.call t with
  | sendInfo k =>
    refine ⟨_, quiet_of_same (.infoSent ms t k b off s hp e1 (.inr fun m hm he => ?_)) fun _ => rfl, rfl⟩
    have ht := (h.tickI t k hp).2 _ _ m hm he
    have hw := h.wireI (C.rankT t) (C.P.home b)
    rw [hi] at hw
    have : m.data ∈ C.infoWire (ms.wire (C.rankT t) (C.P.home b)) :=
      List.mem_map.2 ⟨m, List.mem_filter.2 ⟨hm, decide_eq_true ht⟩, rfl⟩
    rw [hw] at this; cases this
  | waitInfo =>
    have hm := h.mailI (C.rankT t) (C.P.home b)
    rw [hi] at hm
    change _ = (if C.P.home b = C.P.home b then _ else _) at hm
    rw [if_pos rfl] at hm
    obtain ⟨m, rest, h1, h2⟩ := takeInfo_of hm
    exact ⟨_, quiet_of_own (.infoRecv ms t b off s m rest e hp e1 h1 h2) hn
      (p := .own b off s (.xfer e)) rfl, rfl⟩
  | _ => rw [hp] at hc; cases hc

/-- A reply to a request for a block, or the thread that waits for it. -/
theorem go_xfer (hC : LegalMsg C) (h : MsgSim C ms a is xs) {q t b r : Nat} {v : Option (Nat → β)}
    (hx : xs q = .told t b r v) : ∃ ms', MsgQuiet C early ms ms' ∧ ms'.wire = ms.wire := by
  obtain ⟨hq, hc⟩ := h.xst q t (by rw [hx]; rfl)
  subst hq
  obtain ⟨b', off, s, r', e1, e2, e3⟩ := (h.users t).xfer hc
  rw [hx] at e3
  rcases e3 with e3 | e3 | ⟨v', e3⟩
  · cases e3
  · cases e3
  injection e3 with _ e3 e4 e5
  subst e3 e4 e5
  have hn : ms.st.pc (.user t) ≠ .idle := by rw [e1]; nofun
  cases hp : ms.call t with
  | sendXfer k =>
    refine ⟨_, quiet_of_same (.xferSent ms t k b off s r hp e1 (.inr fun m hm he => ?_)) fun _ => rfl, rfl⟩
    have ht := (h.tickX t k hp).2 _ _ m hm he
    have hw := h.wireX (C.rankT t) r
    rw [hx] at hw
    have : m.data ∈ C.xferWire (ms.wire (C.rankT t) r) :=
      List.mem_map.2 ⟨m, List.mem_filter.2 ⟨hm, decide_eq_true ht⟩, rfl⟩
    rw [hw] at this; cases this
  | waitXfer =>
    have hm := h.mailX (C.rankT t) r
    rw [hx] at hm
    change _ = (if r = r then _ else _) at hm
    rw [if_pos rfl] at hm
    cases v with
    | none =>
      obtain ⟨m, rest, h1, h2⟩ := takeXfer_of (by omega) hm
      exact ⟨_, quiet_of_own (.xferFail ms t b off s r m rest hp e1 (by rw [hC.first]; exact h1) h2)
        hn (p := .own b off s .start) rfl, rfl⟩
    | some buf =>
      obtain ⟨m, rest, h1, h2⟩ := takeXfer_of (by omega) hm
      exact ⟨_, quiet_of_own (.xferOk ms t b off s r m rest buf hp e1
        (by rw [hC.first]; exact h1) h2) hn (p := .own b off s (.recv buf 0)) rfl, rfl⟩
  | _ => rw [hp] at hc; cases hc

/-- A communication thread that waits for the end of its send, or the receiver, can continue. -/
theorem go_wait (hC : LegalMsg C) (h : MsgSim C ms a is xs) {r : Nat} (hr : ms.wait r ≠ none) :
    ∃ ms', MsgQuiet C early ms ms' ∧ ms'.wire = ms.wire := by
  cases hw : ms.wait r with
  | none => exact absurd hw hr
  | some p =>
    obtain ⟨dst, ticket⟩ := p
    cases hm : ms.mail r dst with
    | nil =>
      exact ⟨_, quiet_of_same (.answered ms r dst ticket hw (.inr (by rw [hm]; nofun))) fun _ => rfl, rfl⟩
    | cons m l =>
      by_cases ht : m.tag = 0
      · have hi := h.mailI dst r
        rw [hm] at hi
        cases hs : is dst with
        | told t b e => exact h.go_info hs
        | none => rw [hs] at hi; simp [infoMail, ht, InfoStage.tells] at hi
        | asked t b => rw [hs] at hi; simp [infoMail, ht, InfoStage.tells] at hi
      · have hi := h.mailX dst r
        rw [hm] at hi
        cases hs : xs dst with
        | told t b r' v => exact h.go_xfer hC hs
        | none => rw [hs] at hi; simp [xferMail, ht, XferStage.tells] at hi
        | asked t b => rw [hs] at hi; simp [xferMail, ht, XferStage.tells] at hi
        | working t b => rw [hs] at hi; simp [xferMail, ht, XferStage.tells] at hi

/-- A communication thread that works on a request can continue. -/
theorem go_comm (h : MsgSim C ms a is xs) (hD : DistInv C.P a) {r : Nat} (hw : ms.wait r = none)
    (hr : ms.st.pc (.comm r) ≠ .idle) : ∃ ms', MsgQuiet C early ms ms' ∧ ms'.wire = ms.wire := by
  have hc := h.comm r
  obtain ⟨k1, k2, k3⟩ := hD.kindC r
  have wk : ∀ {st' : DistState β}, CommStep C.P r ms.st st' → st'.box = ms.st.box →
      st'.net = ms.st.net → ∃ ms', MsgQuiet C early ms ms' ∧ ms'.wire = ms.wire :=
    fun hs h1 h2 => ⟨_, quiet_of_same (.work ms r _ hw ⟨hs, hr, h1, h2⟩)
      fun t => comm_other hs (Ne.symm (agent_ne r t)), rfl⟩
  cases hp : ms.st.pc (.comm r) with
  | idle => exact absurd hp hr
  | wantCm b off => rw [hp] at hc; exact absurd hc (k1 b off)
  | wantSlot b off s old => rw [hp] at hc; exact absurd hc (k2 b off s old)
  | own b off s ph => rw [hp] at hc; exact absurd hc (k3 b off s ph)
  | tryDom q b i =>
    by_cases h1 : C.P.domains ≤ i
    · exact ⟨_, quiet_of_same (.refuse ms r q b i hw hp h1) fun t => user_pc ms.st.pc r t .idle, rfl⟩
    · have h1 : i < C.P.domains := by omega
      by_cases h2 : C.P.noop = true ∨ ms.st.cm (r * C.P.domains + i) ≠ none
      · exact wk (.busy ms.st r q b i hp h1 h2) rfl rfl
      · rw [not_or] at h2
        exact wk (.try ms.st r q b i hp h1 (by simpa using h2.1) (Classical.not_not.1 h2.2)) rfl rfl
  | tryCm q b i =>
    by_cases h1 : ∃ s, (ms.st.cl (r * C.P.domains + i)).peek b = some s ∧
        ms.st.lk (r * C.P.domains + i, s) = none
    · obtain ⟨s, h1, h2⟩ := h1
      exact wk (.hit ms.st r q b i s hp h1 h2) rfl rfl
    · exact wk (.miss ms.st r q b i hp fun s h2 h3 => h1 ⟨s, h2, h3⟩) rfl rfl
  | send q b i s k buf =>
    by_cases h1 : k < C.P.cells
    · exact wk (.cell ms.st r q b i s k buf hp h1) rfl rfl
    · exact ⟨_, quiet_of_same (.reply ms r q b i s k buf hw hp (by omega))
        fun t => user_pc ms.st.pc r t (.sent i s), rfl⟩
  | sent i s => exact wk (.release ms.st r i s hp) rfl rfl

/-- A message that arrives at an idle communication thread is taken. -/
theorem go_wire (h : MsgSim C ms a is xs) {q r : Nat} (hw : ms.wait r = none)
    (hr : ms.st.pc (.comm r) = .idle) {m : Msg} {rest : List Msg} (hm : ms.wire q r = m :: rest) :
    ∃ ms', MsgQuiet C early ms ms' ∧ ms'.wire = upd ms.wire q (upd (ms.wire q) r rest) := by
    have ht := (h.tags q r m (by rw [hm]; exact List.mem_cons_self)).1
    simp only [List.mem_cons, List.not_mem_nil, or_false] at ht
    rcases ht with ht | ht | ht | ht
    · exact ⟨_, quiet_of_same (.takeInfo ms q r 0 m rest hr hw hm ht) fun _ => rfl, rfl⟩
    · exact ⟨_, quiet_of_same (.takeXfer ms q r m rest hr hw hm ht)
        fun t => user_pc ms.st.pc r t (.tryDom q m.data 0), rfl⟩
    · exact ⟨_, quiet_of_same (.takeAdd ms q r m rest hr hw hm ht) fun _ => rfl, rfl⟩
    · exact ⟨_, quiet_of_same (.takeDel ms q r m rest hr hw hm ht) fun _ => rfl, rfl⟩

/-- If no message is on the way and the communication threads have nothing to do, then a thread in a
function that sends or receives can continue. -/
theorem go_call (hC : LegalMsg C) (h : MsgSim C ms a is xs) (hc : ∀ r, ms.st.pc (.comm r) = .idle)
    (hw : ∀ q r, ms.wire q r = []) {t : Nat} (ht : ms.call t ≠ .out) :
    ∃ ms', MsgQuiet C early ms ms' := by
  have hu := h.users t
  have hsent : ∀ q r k, ms.sent early q r k := fun q r k => .inr (by rw [hw]; nofun)
  cases hp : ms.call t with
  | out => exact absurd hp ht
  | sendOp k =>
    rw [hp] at hu
    obtain ⟨tag, o, h1, -⟩ := hu
    refine ⟨_, quiet_of_own (.opSent ms t k tag o _ hp h1 (hsent ..)) ?_ (p := a.pc (.user t)) rfl⟩
    intro e
    rw [e] at h1; cases h1
  | reqInfo =>
    rw [hp] at hu
    obtain ⟨-, ⟨b, off, s, h1, -⟩, -⟩ := hu
    exact ⟨_, quiet_of_same (.infoSend ms t b off s hp h1) fun _ => rfl⟩
  | sendInfo k =>
    rw [hp] at hu
    obtain ⟨b, off, s, h1, -⟩ := hu
    exact ⟨_, quiet_of_same (.infoSent ms t k b off s hp h1 (hsent ..)) fun _ => rfl⟩
  | waitInfo =>
    rw [hp] at hu
    obtain ⟨b, off, s, h1, -, ⟨h2, -⟩ | ⟨e, h2, -⟩⟩ := hu
    · have := h.wireI (C.rankT t) (C.P.home b)
      rw [h2, hw] at this
      change _ = (if C.P.home b = C.P.home b then _ else _) at this
      rw [if_pos rfl] at this; cases this
    · obtain ⟨ms', hq, -⟩ := h.go_info (early := early) h2
      exact ⟨ms', hq⟩
  | reqXfer =>
    rw [hp] at hu
    obtain ⟨-, ⟨b, off, s, r, h1⟩, -⟩ := hu
    exact ⟨_, quiet_of_same (.xferSend ms t b off s r hp h1) fun _ => rfl⟩
  | sendXfer k =>
    rw [hp] at hu
    obtain ⟨b, off, s, r, h1, -⟩ := hu
    exact ⟨_, quiet_of_same (.xferSent ms t k b off s r hp h1 (hsent ..)) fun _ => rfl⟩
  | waitXfer =>
    rw [hp] at hu
    obtain ⟨b, off, s, r, h1, -, h2 | h2 | ⟨v, h2⟩⟩ := hu
    · have := h.wireX (C.rankT t) r
      rw [h2, hw] at this
      change _ = (if r = r then _ else _) at this
      rw [if_pos rfl] at this; cases this
    · have := h.work _ _ _ _ h2
      rw [hc] at this; cases this
    · obtain ⟨ms', hq, -⟩ := h.go_xfer (early := early) hC h2
      exact ⟨ms', hq⟩

/-- Somebody can continue, if a thread is inside of a getter. -/
theorem progress (hC : LegalMsg C) (h : MsgSim C ms a is xs) (hD : DistInv C.P a) {t : Nat}
    (hn : ms.st.pc (.user t) ≠ .idle) : ∃ ms', MsgQuiet C early ms ms' := by
  by_cases h1 : ∀ r, ms.wait r = none
  case neg =>
    obtain ⟨r, h1⟩ := not_forall.1 h1
    obtain ⟨ms', hq, -⟩ := h.go_wait (early := early) hC h1
    exact ⟨ms', hq⟩
  by_cases h2 : ∀ r, ms.st.pc (.comm r) = .idle
  case neg =>
    obtain ⟨r, h2⟩ := not_forall.1 h2
    obtain ⟨ms', hq, -⟩ := h.go_comm (early := early) hD (h1 r) h2
    exact ⟨ms', hq⟩
  by_cases h3 : ∀ q r, ms.wire q r = []
  case neg =>
    obtain ⟨q, h3⟩ := not_forall.1 h3
    obtain ⟨r, h3⟩ := not_forall.1 h3
    cases hm : ms.wire q r with
    | nil => exact absurd hm h3
    | cons m rest =>
      obtain ⟨ms', hq, -⟩ := h.go_wire (early := early) (h1 r) (h2 r) hm
      exact ⟨ms', hq⟩
  by_cases h4 : ∀ t, ms.call t = .out
  case neg =>
    obtain ⟨u, h4⟩ := not_forall.1 h4
    exact h.go_call hC h2 h3 h4
  have hu : ∀ u, a.pc (.user u) = ms.st.pc (.user u) ∧
      ∀ b off s r, ms.st.pc (.user u) ≠ .own b off s (.ask r) := fun u => by
    have := h.users u
    rw [h4] at this; exact this
  obtain ⟨a', hq⟩ := hD.progress (t := t) (by rw [(hu t).1]; exact hn)
  rcases quiet_cases hq with ⟨u, hs, hi⟩ | ⟨r, hs⟩
  · rw [(hu u).1] at hi
    have hsame : SameMem a ms.st := ⟨h.same.cl.symm, h.same.cm.symm, h.same.lk.symm,
      h.same.data.symm, h.same.dir.symm, h.same.dl.symm, h.same.blk.symm⟩
    by_cases ht : C.talks u (ms.st.pc (.user u))
    · cases hp : ms.st.pc (.user u) with
      | own b off s ph =>
        rw [hp] at ht
        cases ph with
        | del old =>
          cases old with
          | none => exact ht.elim
          | some o =>
            exact ⟨_, quiet_of_same (.opSend ms u b off s _ C.delTag o _ (h4 u) hp rfl ht) fun _ => rfl⟩
        | add =>
          exact ⟨_, quiet_of_same (.opSend ms u b off s _ C.addTag b _ (h4 u) hp rfl ht) fun _ => rfl⟩
        | fin =>
          exact ⟨_, quiet_of_same (.opSend ms u b off s _ C.addTag b _ (h4 u) hp rfl ht) fun _ => rfl⟩
        | start =>
          refine ⟨_, quiet_of_same (.infoLock ms u b off s (h4 u) hp ht ?_) fun _ => rfl⟩
          cases hf : ms.info (C.rankT u) with
          | none => rfl
          | some u' =>
            have := ((h.info _ u').1 hf).2
            rw [h4] at this; cases this
        | xfer e =>
          obtain ⟨e', rfl⟩ := Int.eq_ofNat_of_zero_le ht
          have hb := xfer_blk hC.thread ((hu u).1.trans hp) hs
          rw [h.same.blk] at hb
          exact ⟨_, quiet_of_own (.xferLock ms u b off s e' (h4 u) hp hb) hi
            (p := .own b off s (.ask (ownerRank C.P.rankCache e'))) rfl⟩
        | ask r => exact absurd hp ((hu u).2 b off s r)
        | _ => exact ht.elim
      | _ => rw [hp] at ht; exact ht.elim
    · obtain ⟨f1, -, -, f4, -⟩ := plain_frame hC.thread rfl hs (by rw [(hu u).1]; exact ht) hsame
        (hu u).1.symm
      exact ⟨_, quiet_of_own (.plain ms u _ (h4 u) ht f1) hi rfl⟩
  · have hidle : a.pc (.comm r) = .idle := h.comm_idle (h2 r)
    cases hs with
    | deliver _ _ src b op rest e1 e2 => rw [h.net, h3] at e2; cases e2
    | accept _ _ u b off s e1 e2 => rw [(hu u).1] at e2; exact absurd e2 ((hu u).2 b off s r)
    | fail _ _ t b i e1 => rw [hidle] at e1; cases e1
    | busy _ _ t b i e1 => rw [hidle] at e1; cases e1
    | «try» _ _ t b i e1 => rw [hidle] at e1; cases e1
    | miss _ _ t b i e1 => rw [hidle] at e1; cases e1
    | hit _ _ t b i s e1 => rw [hidle] at e1; cases e1
    | cell _ _ t b i s k buf e1 => rw [hidle] at e1; cases e1
    | reply _ _ t b i s k buf e1 => rw [hidle] at e1; cases e1
    | release _ _ i s e1 => rw [hidle] at e1; cases e1

end MsgSim

/-! ### The length of executions -/

/-- The steps that only concern messages, until the next step of the caches: at most `m`. -/
def MsgSt.Pot (ms : MsgSt β) (m : Nat) : Prop :=
  ∃ T R : Finset Nat, Supp T ms.tPot ∧ Supp R ms.rPot ∧
    (∑ t ∈ T, ms.tPot t) + (∑ r ∈ R, ms.rPot r) = m

section
variable {ms ms' : MsgSt β} {m : Nat}

theorem rPot_le (ms : MsgSt β) (r : Nat) : ms.rPot r ≤ 1 := by
  unfold MsgSt.rPot; split <;> omega

theorem PotUp.pot (h : PotUp ms ms') (hp : ms.Pot m) : ∃ m', ms'.Pot m' ∧ m' ≤ m + 7 := by
  obtain ⟨t, r, h1, h2⟩ := h
  obtain ⟨T, R, g1, g2, g3⟩ := hp
  obtain ⟨a1, a2⟩ := sum_change g1 h1
  obtain ⟨b1, b2⟩ := sum_change g2 h2
  refine ⟨_, ⟨_, _, a1, b1, rfl⟩, ?_⟩
  have : ms'.tPot t ≤ 6 := CallPc.pot_le _ _
  have := rPot_le ms' r
  omega

theorem PotDown.pot (h : PotDown ms ms') (hp : ms.Pot m) : ∃ m', ms'.Pot m' ∧ m' + 1 ≤ m := by
  obtain ⟨t, r, h1, h2, h3⟩ := h
  obtain ⟨T, R, g1, g2, g3⟩ := hp
  obtain ⟨a1, a2⟩ := sum_change g1 h1
  obtain ⟨b1, b2⟩ := sum_change g2 h2
  exact ⟨_, ⟨_, _, a1, b1, rfl⟩, by omega⟩

end

theorem MsgReach.pot (hC : LegalMsg C) {ms : MsgSt β} (h : MsgReach C ms) : ∃ m, ms.Pot m := by
  induction h with
  | init h =>
    obtain ⟨c, -, rfl⟩ := h
    exact ⟨0, ∅, ∅, fun _ _ => rfl, fun _ _ => rfl, rfl⟩
  | step hr hs ih =>
    obtain ⟨m, hm⟩ := ih
    obtain ⟨a, is, xs, h1, h2⟩ := MsgReach.sim hC hr
    obtain ⟨a', is', xs', h3, -⟩ := h2.step hC
      (DistInv.reach hC.legal.domains hC.legal.size hC.legal.hand h1) (BlockInv.reach hC.legal h1) hs
    rcases h3 with ⟨-, h3⟩ | ⟨-, h3, -⟩
    · obtain ⟨m', h4, -⟩ := h3.pot hm; exact ⟨m', h4⟩
    · obtain ⟨m', h4, -⟩ := h3.pot hm; exact ⟨m', h4⟩

/-- The execution of the caches of `Verif.Model.CacheDist` for an execution with messages. -/
theorem msgQuietRun_sim (hC : LegalMsg C) {early : Bool} {ms ms' : MsgSt β} {a : DistState β}
    {is : Nat → InfoStage} {xs : Nat → XferStage β} {n f m : Nat} (h : MsgReach C ms)
    (ha : DistReach C.P a) (hs : MsgSim C ms a is xs) (hm : ms.Pot m)
    (hq : MsgQuietRunF C early n f ms ms') :
    MsgReach C ms' ∧ ∃ a' is' xs' k g m', DistReach C.P a' ∧ MsgSim C ms' a' is' xs' ∧ ms'.Pot m' ∧
      QuietRunF C.P k g a a' ∧ g ≤ f ∧ n + m' ≤ m + 8 * k := by
  have key : ∀ {ms1 ms2 : MsgSt β} {n f f' : Nat}, (MsgReach C ms1 ∧ ∃ a' is' xs' k g m',
        DistReach C.P a' ∧ MsgSim C ms1 a' is' xs' ∧ ms1.Pot m' ∧
        QuietRunF C.P k g a a' ∧ g ≤ f ∧ n + m' ≤ m + 8 * k) → MsgQuiet C early ms1 ms2 →
      f ≤ f' → (MsgRefused ms1 ms2 → f + 1 ≤ f') →
      MsgReach C ms2 ∧ ∃ a' is' xs' k g m',
        DistReach C.P a' ∧ MsgSim C ms2 a' is' xs' ∧ ms2.Pot m' ∧
        QuietRunF C.P k g a a' ∧ g ≤ f' ∧ n + 1 + m' ≤ m + 8 * k := by
    rintro ms1 ms2 n f f' ⟨h1, a1, is1, xs1, k, g, m1, e1, e2, e3, e4, e5, e6⟩ hq hf hrf
    refine ⟨.step h1 hq.1.buffered, ?_⟩
    obtain ⟨a2, is2, xs2, h3, h4⟩ := e2.step hC
      (DistInv.reach hC.legal.domains hC.legal.size hC.legal.hand e1) (BlockInv.reach hC.legal e1) hq.1
    rcases h3 with ⟨rfl, h3⟩ | ⟨h3, h5, h6⟩
    · obtain ⟨m2, h7, h8⟩ := h3.pot e3
      exact ⟨a2, is2, xs2, k, g, m2, e1, h4, h7, e4, by omega, by omega⟩
    · obtain ⟨m2, h7, h8⟩ := h5.pot e3
      have hqa : Quiet C.P a1 a2 :=
        ⟨h3, fun t ht => (h4.idle_iff t).2 (hq.2 t ((e2.idle_iff t).1 ht))⟩
      by_cases hr : Refused a1 a2
      · have := hrf (h6 hr)
        exact ⟨a2, is2, xs2, k + 1, g + 1, m2, .step e1 h3, h4, h7, .refused e4 hqa hr, by omega,
          by omega⟩
      · exact ⟨a2, is2, xs2, k + 1, g, m2, .step e1 h3, h4, h7, .served e4 hqa hr, by omega, by omega⟩
  induction hq with
  | zero => exact ⟨h, a, is, xs, 0, 0, m, ha, hs, hm, .zero _, by omega, by omega⟩
  | served hr hq hn ih =>
    exact key (ih h hs hm) hq (Nat.le_refl _) fun hx => absurd hx hn
  | refused hr hq hn ih =>
    exact key (ih h hs hm) hq (Nat.le_succ _) fun _ => Nat.le_refl _

end Asagi
