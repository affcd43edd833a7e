import Verif.Proofs.MsgCacheFrame
import Verif.Spec.MsgCache
import Verif.Proofs.CacheDistRetry
/-
The caches with the communication thread and the implemented messages behave like those of
`Verif.Model.CacheDist`, where requests know their thread and replies find it.
-/
namespace Asagi
open Spec
variable {β : Type} {C : MsgParams β}

/-! ### The request of a process for an entry, and for a block -/

inductive InfoStage where
  | none
  | asked (t b : Nat)
  | told (t b : Nat) (e : Int)

inductive XferStage (β : Type) where
  | none
  | asked (t b r : Nat)
  | working (t b r : Nat)
  | told (t b r : Nat) (v : Option (Nat → β))

def InfoStage.thread : InfoStage → Option Nat
  | .none => Option.none
  | .asked t _ | .told t _ _ => some t

def XferStage.thread : XferStage β → Option Nat
  | .none => Option.none
  | .asked t _ _ | .working t _ _ | .told t _ _ _ => some t

/-- Messages to process `r`. -/
def InfoStage.asks (C : MsgParams β) (r : Nat) : InfoStage → List Nat
  | .asked _ b => if C.P.home b = r then [C.doff b] else []
  | _ => []

/-- Replies of process `r`. -/
def InfoStage.tells (C : MsgParams β) (r : Nat) : InfoStage → List (RepVal β)
  | .told _ b e => if C.P.home b = r then [.entry e] else []
  | _ => []

def XferStage.asks (r : Nat) : XferStage β → List Nat
  | .asked _ b r' => if r' = r then [b] else []
  | _ => []

def XferStage.tells (r : Nat) : XferStage β → List (Nat × RepVal β)
  | .told _ _ r' v => if r' = r then [match v with
      | Option.none => (2, .ack)
      | some buf => (1, .block buf)] else []
  | _ => []

def XferStage.boxOf (t : Nat) : XferStage β → Option (Option (Nat → β))
  | .told t' _ _ v => if t' = t then some v else Option.none
  | _ => Option.none

/-! ### Messages by kind -/

def MsgParams.infoWire (C : MsgParams β) (l : List Msg) : List Nat :=
  (l.filter fun m => decide (m.tag = C.infoTag)).map Msg.data

def MsgParams.xferWire (C : MsgParams β) (l : List Msg) : List Nat :=
  (l.filter fun m => decide (m.tag = C.xferTag)).map Msg.data

/-- The updates of the directory in the messages from `q` to `r`. -/
def MsgParams.op (C : MsgParams β) (q r : Nat) (m : Msg) : Option (Nat × DictOp) :=
  if m.tag = C.addTag then some (C.opBlock r m.data, .add (C.opEntry q m.data))
  else if m.tag = C.delTag then some (C.opBlock r m.data, .delete (C.opEntry q m.data))
  else none

def MsgParams.ops (C : MsgParams β) (q r : Nat) (l : List Msg) : List (Nat × DictOp) :=
  l.filterMap (C.op q r)

def infoMail (l : List (Rep β)) : List (RepVal β) :=
  (l.filter fun m => decide (m.tag = 0)).map Rep.val

def xferMail (l : List (Rep β)) : List (Nat × RepVal β) :=
  (l.filter fun m => decide (m.tag ≠ 0)).map fun m => (m.tag, m.val)

/-! ### Threads -/

def holdsInfo : CallPc → Bool
  | .reqInfo | .sendInfo _ | .waitInfo => true
  | _ => false

def awaitsInfo : CallPc → Bool
  | .sendInfo _ | .waitInfo => true
  | _ => false

def holdsXfer : CallPc → Bool
  | .reqXfer | .sendXfer _ | .waitXfer => true
  | _ => false

def awaitsXfer : CallPc → Bool
  | .sendXfer _ | .waitXfer => true
  | _ => false

theorem awaitsInfo_holds {c : CallPc} (h : awaitsInfo c = true) : holdsInfo c = true := by
  cases c <;> first | rfl | cases h

theorem awaitsXfer_holds {c : CallPc} (h : awaitsXfer c = true) : holdsXfer c = true := by
  cases c <;> first | rfl | cases h

/-- The thread waits for the reply to its request for an entry. -/
def InfoOk (C : MsgParams β) (t : Nat) (p pa : Pc β) (i : InfoStage) : Prop :=
  ∃ b off s, p = .own b off s .start ∧ C.P.home b ≠ C.rankT t ∧
    ((i = .asked t b ∧ pa = p) ∨ ∃ e, i = .told t b e ∧ pa = .own b off s (.xfer e))

/-- The thread waits for the reply to its request for a block. -/
def XferOk (t : Nat) (p pa : Pc β) (x : XferStage β) : Prop :=
  ∃ b off s r, p = .own b off s (.ask r) ∧ pa = p ∧
    (x = .asked t b r ∨ x = .working t b r ∨ ∃ v, x = .told t b r v)

/-- The position `p` of thread `t` and its position `pa` in `Verif.Model.CacheDist`. -/
def UserOk (C : MsgParams β) (t : Nat) (c : CallPc) (p pa : Pc β) (i : InfoStage) (x : XferStage β) :
    Prop :=
  match c with
  | .out => pa = p ∧ ∀ b off s r, p ≠ .own b off s (.ask r)
  | .sendOp _ => ∃ tag o, p.update C = some (tag, o, pa) ∧ C.P.home o ≠ C.rankT t
  | .reqInfo => pa = p ∧ (∃ b off s, p = .own b off s .start ∧ C.P.home b ≠ C.rankT t) ∧ i = .none
  | .sendInfo _ | .waitInfo => InfoOk C t p pa i
  | .reqXfer => pa = p ∧ (∃ b off s r, p = .own b off s (.ask r)) ∧ x = .none
  | .sendXfer _ | .waitXfer => XferOk t p pa x

theorem UserOk.congr {t : Nat} {c : CallPc} {p pa : Pc β} {i i' : InfoStage} {x x' : XferStage β}
    (h : UserOk C t c p pa i x) (hi : holdsInfo c = true → i' = i) (hx : holdsXfer c = true → x' = x) :
    UserOk C t c p pa i' x' := by
  cases c <;> simp only [holdsInfo, holdsXfer, reduceCtorEq, forall_const, false_implies] at hi hx <;>
    first | exact h | (subst hi; exact h) | (subst hx; exact h)

theorem UserOk.info {t : Nat} {c : CallPc} {p pa : Pc β} {i : InfoStage} {x : XferStage β}
    (h : UserOk C t c p pa i x) (hc : awaitsInfo c = true) : InfoOk C t p pa i := by
  cases c <;> first | exact h | cases hc

theorem UserOk.xfer {t : Nat} {c : CallPc} {p pa : Pc β} {i : InfoStage} {x : XferStage β}
    (h : UserOk C t c p pa i x) (hc : awaitsXfer c = true) : XferOk t p pa x := by
  cases c <;> first | exact h | cases hc

/-- A thread that holds the mutex for transfers is at the request. -/
theorem UserOk.ask {t : Nat} {c : CallPc} {p pa : Pc β} {i : InfoStage} {x : XferStage β}
    (h : UserOk C t c p pa i x) (hc : holdsXfer c = true) :
    ∃ b off s r, pa = .own b off s (.ask r) := by
  cases c with
  | reqXfer => obtain ⟨rfl, h, -⟩ := h; exact h
  | sendXfer | waitXfer =>
    obtain ⟨b, off, s, r, rfl, rfl, -⟩ := h; exact ⟨b, off, s, r, rfl⟩
  | _ => cases hc

/-! ### Communication threads -/

/-- The process whose request is handled. -/
def Pc.asker : Pc β → Option Nat
  | .tryDom q _ _ | .tryCm q _ _ | .send q _ _ _ _ _ => some q
  | _ => none

/-- The position `p` of the communication thread of process `r`, and its position in
`Verif.Model.CacheDist`. -/
def CommOk (xs : Nat → XferStage β) (r : Nat) (p pa : Pc β) : Prop :=
  match p with
  | .tryDom q b i => ∃ t, xs q = .working t b r ∧ pa = .tryDom t b i
  | .tryCm q b i => ∃ t, xs q = .working t b r ∧ pa = .tryCm t b i
  | .send q b i s k buf => ∃ t, xs q = .working t b r ∧ pa = .send t b i s k buf
  | p => pa = p

theorem CommOk.congr {xs xs' : Nat → XferStage β} {r : Nat} {p pa : Pc β} (h : CommOk xs r p pa)
    (he : ∀ q t b, p.asker = some q → xs q = .working t b r → xs' q = xs q) : CommOk xs' r p pa := by
  cases p with
  | tryDom q b i => obtain ⟨t, h1, h2⟩ := h; exact ⟨t, (he q t b rfl h1).trans h1, h2⟩
  | tryCm q b i => obtain ⟨t, h1, h2⟩ := h; exact ⟨t, (he q t b rfl h1).trans h1, h2⟩
  | send q b i s k buf => obtain ⟨t, h1, h2⟩ := h; exact ⟨t, (he q t b rfl h1).trans h1, h2⟩
  | _ => exact h

/-! ### The simulation -/

structure MsgSim (C : MsgParams β) (ms : MsgSt β) (a : DistState β) (is : Nat → InfoStage)
    (xs : Nat → XferStage β) : Prop where
  same : SameMem ms.st a
  users : ∀ t, UserOk C t (ms.call t) (ms.st.pc (.user t)) (a.pc (.user t)) (is (C.rankT t))
    (xs (C.rankT t))
  box : ∀ t, a.box t = (xs (C.rankT t)).boxOf t
  box0 : ∀ t, ms.st.box t = none
  info : ∀ q t, ms.info q = some t ↔ C.rankT t = q ∧ holdsInfo (ms.call t) = true
  ist : ∀ q t, (is q).thread = some t → C.rankT t = q ∧ awaitsInfo (ms.call t) = true
  xst : ∀ q t, (xs q).thread = some t → C.rankT t = q ∧ awaitsXfer (ms.call t) = true
  comm : ∀ r, CommOk xs r (ms.st.pc (.comm r)) (a.pc (.comm r))
  work : ∀ q t b r, xs q = .working t b r → (ms.st.pc (.comm r)).asker = some q
  net : ∀ q r, a.net q r = C.ops q r (ms.wire q r)
  wireI : ∀ q r, C.infoWire (ms.wire q r) = (is q).asks C r
  wireX : ∀ q r, C.xferWire (ms.wire q r) = (xs q).asks r
  mailI : ∀ q r, infoMail (ms.mail r q) = (is q).tells C r
  mailX : ∀ q r, xferMail (ms.mail r q) = (xs q).tells r
  tags : ∀ q r, ∀ m ∈ ms.wire q r, m.tag ∈ [C.infoTag, C.xferTag, C.addTag, C.delTag] ∧
    m.ticket < ms.next
  tickI : ∀ t k, ms.call t = .sendInfo k → k < ms.next ∧
    ∀ q r, ∀ m ∈ ms.wire q r, m.ticket = k → m.tag = C.infoTag
  tickX : ∀ t k, ms.call t = .sendXfer k → k < ms.next ∧
    ∀ q r, ∀ m ∈ ms.wire q r, m.ticket = k → m.tag = C.xferTag

theorem user_ne' {t u : Nat} (h : u ≠ t) : Agent.user u ≠ Agent.user t := fun e => h (by injection e)

/-! ### Lists of messages -/

theorem wire_append (l l' : List Msg) (q r : Nat) :
    C.infoWire (l ++ l') = C.infoWire l ++ C.infoWire l' ∧
    C.xferWire (l ++ l') = C.xferWire l ++ C.xferWire l' ∧
    C.ops q r (l ++ l') = C.ops q r l ++ C.ops q r l' := by
  simp [MsgParams.infoWire, MsgParams.xferWire, MsgParams.ops]

theorem wire_cons (m : Msg) (l : List Msg) (q r : Nat) :
    C.infoWire (m :: l) = C.infoWire [m] ++ C.infoWire l ∧
    C.xferWire (m :: l) = C.xferWire [m] ++ C.xferWire l ∧
    C.ops q r (m :: l) = C.ops q r [m] ++ C.ops q r l := wire_append [m] l q r

theorem wire_info (hC : LegalMsg C) (m : Msg) (q r : Nat) (h : m.tag = C.infoTag) :
    C.infoWire [m] = [m.data] ∧ C.xferWire [m] = [] ∧ C.ops q r [m] = [] := by
  have ht := hC.tags
  simp only [List.nodup_cons, List.mem_cons, List.not_mem_nil, not_or, or_false] at ht
  obtain ⟨⟨h1, h2, h3⟩, ⟨h4, h5⟩, h6, -⟩ := ht
  simp [MsgParams.infoWire, MsgParams.xferWire, MsgParams.ops, MsgParams.op, *]

theorem wire_xfer (hC : LegalMsg C) (m : Msg) (q r : Nat) (h : m.tag = C.xferTag) :
    C.infoWire [m] = [] ∧ C.xferWire [m] = [m.data] ∧ C.ops q r [m] = [] := by
  have ht := hC.tags
  simp only [List.nodup_cons, List.mem_cons, List.not_mem_nil, not_or, or_false] at ht
  obtain ⟨⟨h1, h2, h3⟩, ⟨h4, h5⟩, h6, -⟩ := ht
  simp [MsgParams.infoWire, MsgParams.xferWire, MsgParams.ops, MsgParams.op, Ne.symm h1, *]

theorem wire_add (hC : LegalMsg C) (m : Msg) (q r : Nat) (h : m.tag = C.addTag) :
    C.infoWire [m] = [] ∧ C.xferWire [m] = [] ∧
      C.ops q r [m] = [(C.opBlock r m.data, .add (C.opEntry q m.data))] := by
  have ht := hC.tags
  simp only [List.nodup_cons, List.mem_cons, List.not_mem_nil, not_or, or_false] at ht
  obtain ⟨⟨h1, h2, h3⟩, ⟨h4, h5⟩, h6, -⟩ := ht
  simp [MsgParams.infoWire, MsgParams.xferWire, MsgParams.ops, MsgParams.op, h, Ne.symm h2,
    Ne.symm h4]

theorem wire_del (hC : LegalMsg C) (m : Msg) (q r : Nat) (h : m.tag = C.delTag) :
    C.infoWire [m] = [] ∧ C.xferWire [m] = [] ∧
      C.ops q r [m] = [(C.opBlock r m.data, .delete (C.opEntry q m.data))] := by
  have ht := hC.tags
  simp only [List.nodup_cons, List.mem_cons, List.not_mem_nil, not_or, or_false] at ht
  obtain ⟨⟨h1, h2, h3⟩, ⟨h4, h5⟩, h6, -⟩ := ht
  simp [MsgParams.infoWire, MsgParams.xferWire, MsgParams.ops, MsgParams.op, h, Ne.symm h3,
    Ne.symm h5, Ne.symm h6]

theorem mail_append (l l' : List (Rep β)) :
    infoMail (l ++ l') = infoMail l ++ infoMail l' ∧ xferMail (l ++ l') = xferMail l ++ xferMail l' := by
  simp [infoMail, xferMail]

theorem mail_one (m : Rep β) :
    infoMail [m] = (if m.tag = 0 then [m.val] else []) ∧
    xferMail [m] = if m.tag = 0 then [] else [(m.tag, m.val)] := by
  by_cases h : m.tag = 0 <;> simp [infoMail, xferMail, h]

theorem TakeRep.info {l rest : List (Rep β)} {m : Rep β} (h : TakeRep l 0 m rest) :
    infoMail l = m.val :: infoMail rest ∧ xferMail rest = xferMail l := by
  obtain ⟨l1, l2, rfl, rfl, h1, h2⟩ := h
  have e : infoMail l1 = [] := by
    unfold infoMail
    rw [List.map_eq_nil_iff, List.filter_eq_nil_iff]
    intro x hx; simpa using h2 x hx
  have e2 : l1 ++ m :: l2 = l1 ++ ([m] ++ l2) := rfl
  rw [e2]
  simp only [mail_append, mail_one, h1, e, if_true]
  simp

theorem TakeRep.xfer {l rest : List (Rep β)} {m : Rep β} {g : Nat} (hg : g ≠ 0)
    (h : TakeRep l g m rest) {x : Nat × RepVal β} {tl : List (Nat × RepVal β)}
    (hl : xferMail l = x :: tl) (htl : tl = []) :
    x = (g, m.val) ∧ xferMail rest = [] ∧ infoMail rest = infoMail l := by
  obtain ⟨l1, l2, rfl, rfl, h1, h2⟩ := h
  subst htl
  have e2 : l1 ++ m :: l2 = l1 ++ ([m] ++ l2) := rfl
  have hm : m.tag ≠ 0 := by rw [h1]; exact hg
  rw [e2] at hl ⊢
  simp only [mail_append, mail_one, if_neg hm] at hl ⊢
  have hlen := congrArg List.length hl
  simp only [List.length_append, List.length_cons, List.length_nil] at hlen
  have a1 : xferMail l1 = [] := List.length_eq_zero_iff.1 (by omega)
  have a2 : xferMail l2 = [] := List.length_eq_zero_iff.1 (by omega)
  rw [a1, a2] at hl ⊢
  simp only [List.nil_append, List.append_nil, List.cons.injEq, and_true] at hl
  refine ⟨?_, rfl, by simp⟩
  rw [← hl, h1]

theorem TakeRep.mem {l rest : List (Rep β)} {m : Rep β} {g : Nat} (hg : g ≠ 0)
    (h : TakeRep l g m rest) : xferMail l ≠ [] := by
  obtain ⟨l1, l2, rfl, rfl, h1, h2⟩ := h
  have e2 : l1 ++ m :: l2 = l1 ++ ([m] ++ l2) := rfl
  have hm : m.tag ≠ 0 := by rw [h1]; exact hg
  rw [e2]
  simp only [mail_append, mail_one, if_neg hm]
  simp

/-- The content of an update describes block and slot. -/
theorem opData_block (hC : LegalMsg C) {d s b k : Nat} (hb : C.P.valid b k) (hs : s < C.P.size) :
    C.opBlock (C.P.home b) (C.opData d s b) = b ∧
    C.opEntry (C.P.rankOf d) (C.opData d s b) = C.P.entry d s := by
  have hlt : s + C.P.size * (d % C.P.domains) < C.P.rankCache := by
    unfold DistParams.rankCache
    have h1 : d % C.P.domains + 1 ≤ C.P.domains := Nat.mod_lt _ hC.legal.domains
    have h2 := Nat.mul_le_mul_left C.P.size h1
    rw [Nat.mul_comm C.P.domains C.P.size]
    rw [Nat.mul_add] at h2; omega
  have hR : 0 < C.P.rankCache := by omega
  unfold MsgParams.opBlock MsgParams.opEntry MsgParams.opData DistParams.entry
  constructor
  · rw [Nat.mul_comm (C.doff b), Nat.mul_add_div hR, Nat.div_eq_of_lt hlt, Nat.add_zero]
    exact hC.entry b k hb
  · rw [Nat.mul_comm (C.doff b), Nat.mul_add_mod, Nat.mod_eq_of_lt hlt]

/-! ### Steps that only count messages -/

/-- Bound for the steps of a thread in the functions that send and receive, until they return or the
communication thread has answered. -/
def CallPc.pot (c : CallPc) (p : Pc β) : Nat :=
  match c with
  | .out => match p with
    | .own _ _ _ .start => 6
    | _ => 0
  | .reqInfo => 5
  | .sendInfo _ => 4
  | .waitInfo => 3
  | .reqXfer => 3
  | .sendXfer _ => 2
  | .waitXfer => 1
  | .sendOp _ => 1

theorem CallPc.pot_le (c : CallPc) (p : Pc β) : c.pot p ≤ 6 := by
  unfold CallPc.pot
  split
  · split <;> omega
  all_goals omega

def MsgSt.tPot (ms : MsgSt β) (t : Nat) : Nat := (ms.call t).pot (ms.st.pc (.user t))

def MsgSt.rPot (ms : MsgSt β) (r : Nat) : Nat := if ms.wait r = none then 0 else 1

/-- At most one thread and one communication thread change. -/
def PotUp (ms ms' : MsgSt β) : Prop :=
  ∃ t r, (∀ u, u ≠ t → ms'.tPot u = ms.tPot u) ∧ ∀ r', r' ≠ r → ms'.rPot r' = ms.rPot r'

/-- In addition, they come closer to their end. -/
def PotDown (ms ms' : MsgSt β) : Prop :=
  ∃ t r, (∀ u, u ≠ t → ms'.tPot u = ms.tPot u) ∧ (∀ r', r' ≠ r → ms'.rPot r' = ms.rPot r') ∧
    ms'.tPot t + ms'.rPot r < ms.tPot t + ms.rPot r

section Pot
variable {ms ms' : MsgSt β}

theorem PotUp.user {t : Nat} (hc : ∀ u, u ≠ t → ms'.call u = ms.call u)
    (hp : ∀ u, u ≠ t → ms'.st.pc (.user u) = ms.st.pc (.user u)) (hw : ms'.wait = ms.wait) :
    PotUp ms ms' :=
  ⟨t, 0, fun u hu => by unfold MsgSt.tPot; rw [hc u hu, hp u hu],
    fun r _ => by unfold MsgSt.rPot; rw [hw]⟩

theorem PotDown.user {t : Nat} (hc : ∀ u, u ≠ t → ms'.call u = ms.call u)
    (hp : ∀ u, u ≠ t → ms'.st.pc (.user u) = ms.st.pc (.user u)) (hw : ms'.wait = ms.wait)
    (hlt : ms'.tPot t < ms.tPot t) : PotDown ms ms' :=
  ⟨t, 0, fun u hu => by unfold MsgSt.tPot; rw [hc u hu, hp u hu],
    fun r _ => by unfold MsgSt.rPot; rw [hw], by
      have : ms'.rPot 0 = ms.rPot 0 := by unfold MsgSt.rPot; rw [hw]
      omega⟩

theorem PotUp.comm {r : Nat} (hc : ms'.call = ms.call)
    (hp : ∀ u, ms'.st.pc (.user u) = ms.st.pc (.user u))
    (hw : ∀ r', r' ≠ r → ms'.wait r' = ms.wait r') : PotUp ms ms' :=
  ⟨0, r, fun u _ => by unfold MsgSt.tPot; rw [hc, hp u],
    fun r' hr => by unfold MsgSt.rPot; rw [hw r' hr]⟩

end Pot

/-- The step of the caches of `Verif.Model.CacheDist` for a step with messages. -/
def StepRes (C : MsgParams β) (ms ms' : MsgSt β) (a a' : DistState β) : Prop :=
  (a' = a ∧ PotDown ms ms') ∨
  (DistStep C.P a a' ∧ PotUp ms ms' ∧ (Refused a a' → MsgRefused ms ms'))

theorem user_not_refused {P : DistParams β} {t : Nat} {a a' : DistState β} (hs : UserStep P t a a') :
    ¬ Refused a a' := by
  rintro ⟨u, h1, h2⟩
  by_cases e : u = t
  · subst e
    cases hs <;> first
      | exact h1 h2
      | (simp only [DistState.goto, upd_self] at h2; cases h2)
      | (simp only [DistState.goto, sendOp_box] at h2; exact h1 h2)
  · rw [box_other hs e] at h2; exact h1 h2

/-! ### Parts of the simulation -/

namespace MsgSim
variable {ms ms' : MsgSt β} {a a' : DistState β} {is is' : Nat → InfoStage} {xs xs' : Nat → XferStage β}

theorem blk_self (h : MsgSim C ms a is xs) (hD : DistInv C.P a) {t : Nat}
    (ht : holdsXfer (ms.call t) = true) : a.blk (C.rankT t) = some (.user t) := by
  obtain ⟨b, off, s, r, e⟩ := (h.users t).ask ht
  exact (hD.blk _ _).2 (by rw [e]; rfl)

theorem xfer_unique (h : MsgSim C ms a is xs) (hD : DistInv C.P a) {t u : Nat}
    (ht : holdsXfer (ms.call t) = true) (hu : holdsXfer (ms.call u) = true)
    (e : C.rankT u = C.rankT t) : u = t := by
  have h1 := h.blk_self hD ht
  have h2 := h.blk_self hD hu
  rw [e, h1] at h2
  injection h2 with h2; injection h2 with h2; exact h2.symm

theorem info_unique (h : MsgSim C ms a is xs) {t u : Nat}
    (ht : holdsInfo (ms.call t) = true) (hu : holdsInfo (ms.call u) = true)
    (e : C.rankT u = C.rankT t) : u = t := by
  have h1 := (h.info _ t).2 ⟨rfl, ht⟩
  have h2 := (h.info _ u).2 ⟨rfl, hu⟩
  rw [e, h1] at h2
  injection h2 with h2; exact h2.symm

/-- One thread and its requests change. -/
theorem users' (h : MsgSim C ms a is xs) (hD : DistInv C.P a) (t : Nat)
    (ht : UserOk C t (ms'.call t) (ms'.st.pc (.user t)) (a'.pc (.user t)) (is' (C.rankT t))
      (xs' (C.rankT t)))
    (hc : ∀ u, u ≠ t → ms'.call u = ms.call u)
    (hp : ∀ u, u ≠ t → ms'.st.pc (.user u) = ms.st.pc (.user u))
    (ha : ∀ u, u ≠ t → a'.pc (.user u) = a.pc (.user u))
    (hi : is' = is ∨ (holdsInfo (ms.call t) = true ∧ ∀ q, q ≠ C.rankT t → is' q = is q))
    (hx : xs' = xs ∨ (holdsXfer (ms.call t) = true ∧ ∀ q, q ≠ C.rankT t → xs' q = xs q)) :
    ∀ u, UserOk C u (ms'.call u) (ms'.st.pc (.user u)) (a'.pc (.user u)) (is' (C.rankT u))
      (xs' (C.rankT u)) := by
  intro u
  by_cases e : u = t
  · subst e; exact ht
  · rw [hc u e, hp u e, ha u e]
    refine (h.users u).congr (fun hh => ?_) (fun hh => ?_)
    · rcases hi with hi | ⟨h1, h2⟩
      · rw [hi]
      · exact h2 _ fun y => e (h.info_unique h1 hh y)
    · rcases hx with hx | ⟨h1, h2⟩
      · rw [hx]
      · exact h2 _ fun y => e (h.xfer_unique hD h1 hh y)

theorem ist_keep (h : MsgSim C ms a is xs) (t : Nat) (hc : ∀ u, u ≠ t → ms'.call u = ms.call u)
    (hk : awaitsInfo (ms.call t) = true → awaitsInfo (ms'.call t) = true) :
    ∀ q u, (is q).thread = some u → C.rankT u = q ∧ awaitsInfo (ms'.call u) = true := by
  intro q u hu
  obtain ⟨h1, h2⟩ := h.ist q u hu
  refine ⟨h1, ?_⟩
  by_cases e : u = t
  · subst e; exact hk h2
  · rw [hc u e]; exact h2

theorem xst_keep (h : MsgSim C ms a is xs) (t : Nat) (hc : ∀ u, u ≠ t → ms'.call u = ms.call u)
    (hk : awaitsXfer (ms.call t) = true → awaitsXfer (ms'.call t) = true) :
    ∀ q u, (xs q).thread = some u → C.rankT u = q ∧ awaitsXfer (ms'.call u) = true := by
  intro q u hu
  obtain ⟨h1, h2⟩ := h.xst q u hu
  refine ⟨h1, ?_⟩
  by_cases e : u = t
  · subst e; exact hk h2
  · rw [hc u e]; exact h2

theorem ist_set (h : MsgSim C ms a is xs) (t : Nat) (hc : ∀ u, u ≠ t → ms'.call u = ms.call u)
    (i : InfoStage) (hi : ∀ u, i.thread = some u → u = t ∧ awaitsInfo (ms'.call t) = true) :
    ∀ q u, ((upd is (C.rankT t) i) q).thread = some u →
      C.rankT u = q ∧ awaitsInfo (ms'.call u) = true := by
  intro q u hu
  by_cases e : q = C.rankT t
  · subst e
    rw [upd_self] at hu
    obtain ⟨rfl, h2⟩ := hi u hu
    exact ⟨rfl, h2⟩
  · rw [upd_ne _ _ e] at hu
    obtain ⟨h1, h2⟩ := h.ist q u hu
    refine ⟨h1, ?_⟩
    rw [hc u (by rintro rfl; exact e h1.symm)]; exact h2

theorem xst_set (h : MsgSim C ms a is xs) (t : Nat) (hc : ∀ u, u ≠ t → ms'.call u = ms.call u)
    (i : XferStage β) (hi : ∀ u, i.thread = some u → u = t ∧ awaitsXfer (ms'.call t) = true) :
    ∀ q u, ((upd xs (C.rankT t) i) q).thread = some u →
      C.rankT u = q ∧ awaitsXfer (ms'.call u) = true := by
  intro q u hu
  by_cases e : q = C.rankT t
  · subst e
    rw [upd_self] at hu
    obtain ⟨rfl, h2⟩ := hi u hu
    exact ⟨rfl, h2⟩
  · rw [upd_ne _ _ e] at hu
    obtain ⟨h1, h2⟩ := h.xst q u hu
    refine ⟨h1, ?_⟩
    rw [hc u (by rintro rfl; exact e h1.symm)]; exact h2

theorem info_keep (h : MsgSim C ms a is xs) (t : Nat) (hc : ∀ u, u ≠ t → ms'.call u = ms.call u)
    (hk : holdsInfo (ms'.call t) = holdsInfo (ms.call t)) :
    ∀ q u, ms.info q = some u ↔ C.rankT u = q ∧ holdsInfo (ms'.call u) = true := by
  intro q u
  rw [h.info]
  by_cases e : u = t
  · subst e; rw [hk]
  · rw [hc u e]

end MsgSim
end Asagi
