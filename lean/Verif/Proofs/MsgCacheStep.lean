import Verif.Proofs.MsgCache
/-
The caches with the communication thread and the implemented messages: steps of the threads of the
user.
-/
namespace Asagi
open Spec
variable {β : Type} {C : MsgParams β} {ms ms' : MsgSt β} {a a' : DistState β}
  {is : Nat → InfoStage} {xs : Nat → XferStage β}

theorem agent_ne (r t : Nat) : Agent.comm r ≠ Agent.user t := nofun

/-! ### Messages on their way -/

theorem post_self (ms : MsgSt β) (q r tag data : Nat) :
    (ms.post q r tag data).wire q r = ms.wire q r ++ [⟨tag, data, ms.next⟩] := by
  simp [MsgSt.post]

theorem post_other (ms : MsgSt β) {q r q' r' : Nat} (tag data : Nat) (e : ¬ (q' = q ∧ r' = r)) :
    (ms.post q r tag data).wire q' r' = ms.wire q' r' := by
  simp only [MsgSt.post]
  by_cases e1 : q' = q
  · subst e1
    rw [upd_self, upd_ne _ _ (fun x => e ⟨rfl, x⟩)]
  · rw [upd_ne _ _ e1]

theorem post_mem {q r tag data q' r' : Nat} {m : Msg}
    (h : m ∈ (ms.post q r tag data).wire q' r') :
    m ∈ ms.wire q' r' ∨ m = ⟨tag, data, ms.next⟩ := by
  by_cases e : q' = q ∧ r' = r
  · obtain ⟨rfl, rfl⟩ := e
    rw [post_self] at h; simpa using h
  · rw [post_other _ _ _ e] at h; exact .inl h

theorem take_self (ms : MsgSt β) (q r : Nat) (l : List Msg) : (ms.take q r l).wire q r = l := by
  simp [MsgSt.take]

theorem take_other (ms : MsgSt β) {q r q' r' : Nat} (l : List Msg) (e : ¬ (q' = q ∧ r' = r)) :
    (ms.take q r l).wire q' r' = ms.wire q' r' := by
  simp only [MsgSt.take]
  by_cases e1 : q' = q
  · subst e1
    rw [upd_self, upd_ne _ _ (fun x => e ⟨rfl, x⟩)]
  · rw [upd_ne _ _ e1]

theorem take_mem {q r q' r' : Nat} {m m0 : Msg} {l : List Msg} (hw : ms.wire q r = m0 :: l)
    (h : m ∈ (ms.take q r l).wire q' r') : m ∈ ms.wire q' r' := by
  by_cases e : q' = q ∧ r' = r
  · obtain ⟨rfl, rfl⟩ := e
    rw [take_self] at h; rw [hw]; exact .tail _ h
  · rw [take_other _ _ e] at h; exact h

theorem answer_self (ms : MsgSt β) (r q tag : Nat) (v : RepVal β) :
    (ms.answer r q tag v).mail r q = ms.mail r q ++ [⟨tag, ms.next, v⟩] := by
  simp [MsgSt.answer]

theorem answer_other (ms : MsgSt β) {q r q' r' : Nat} (tag : Nat) (v : RepVal β)
    (e : ¬ (r' = r ∧ q' = q)) : (ms.answer r q tag v).mail r' q' = ms.mail r' q' := by
  simp only [MsgSt.answer]
  by_cases e1 : r' = r
  · subst e1
    rw [upd_self, upd_ne _ _ (fun x => e ⟨rfl, x⟩)]
  · rw [upd_ne _ _ e1]

namespace MsgSim

theorem post_tags (h : MsgSim C ms a is xs) {q r tag data : Nat}
    (ht : tag ∈ [C.infoTag, C.xferTag, C.addTag, C.delTag]) (q' r' : Nat) (m : Msg)
    (hm : m ∈ (ms.post q r tag data).wire q' r') :
    m.tag ∈ [C.infoTag, C.xferTag, C.addTag, C.delTag] ∧ m.ticket < ms.next + 1 := by
  rcases post_mem hm with hm | rfl
  · have := h.tags q' r' m hm
    exact ⟨this.1, by omega⟩
  · exact ⟨ht, Nat.lt_succ_self _⟩

theorem post_old {q r tag data k g : Nat}
    (hk : k < ms.next ∧ ∀ q r, ∀ m ∈ ms.wire q r, m.ticket = k → m.tag = g) :
    k < ms.next + 1 ∧ ∀ q' r', ∀ m ∈ (ms.post q r tag data).wire q' r', m.ticket = k → m.tag = g := by
  refine ⟨by omega, fun q' r' m hm he => ?_⟩
  rcases post_mem hm with hm | rfl
  · exact hk.2 q' r' m hm he
  · dsimp only at he; omega

theorem post_new (h : MsgSim C ms a is xs) {q r tag data : Nat} :
    ms.next < ms.next + 1 ∧
      ∀ q' r', ∀ m ∈ (ms.post q r tag data).wire q' r', m.ticket = ms.next → m.tag = tag := by
  refine ⟨by omega, fun q' r' m hm he => ?_⟩
  rcases post_mem hm with hm | rfl
  · have := (h.tags q' r' m hm).2; omega
  · rfl

/-! ### Steps without messages -/

theorem step_plain (hC : LegalMsg C) (h : MsgSim C ms a is xs) (hD : DistInv C.P a) {t : Nat}
    {st' : DistState β} (h1 : ms.call t = .out) (h2 : ¬ C.talks t (ms.st.pc (.user t)))
    (h3 : UserStep C.P t ms.st st') :
    ∃ a' is' xs', StepRes C ms { ms with st := st' } a a' ∧
      MsgSim C { ms with st := st' } a' is' xs' := by
  have hu := h.users t
  rw [h1] at hu
  have ha : a.pc (.user t) = ms.st.pc (.user t) := hu.1
  obtain ⟨f1, f2, f3, f4, f5⟩ := plain_frame hC.thread rfl h3 h2 h.same ha
  have hpc : ∀ u, u ≠ t → st'.pc (.user u) = ms.st.pc (.user u) := fun u hu => by
    rw [f4, upd_ne _ _ (user_ne' hu)]
  have hcm : ∀ r, st'.pc (.comm r) = ms.st.pc (.comm r) := fun r => by
    rw [f4, upd_ne _ _ (by nofun)]
  refine ⟨_, is, xs, .inr ⟨.user t f1, .user (t := t) (fun _ _ => rfl) hpc rfl,
    fun hr => absurd hr (user_not_refused f1)⟩, ?_⟩
  exact { h with
    same := ⟨rfl, rfl, rfl, rfl, rfl, rfl, rfl⟩
    users := h.users' hD t (by dsimp only; rw [h1, upd_self]; exact ⟨rfl, f5⟩) (fun _ _ => rfl) hpc
      (fun u hu => upd_ne _ _ (user_ne' hu)) (.inl rfl) (.inl rfl)
    box0 := fun u => by dsimp only; rw [f3]; exact h.box0 u
    comm := fun r => by dsimp only; rw [hcm, upd_ne _ _ (by nofun)]; exact h.comm r
    work := fun q u b r hx => by dsimp only; rw [hcm]; exact h.work q u b r hx }

/-! ### Updates of the directory -/

theorem update_cases {p p' : Pc β} {tag x : Nat} (h : p.update C = some (tag, x, p')) :
    ∃ b off s ph, p = .own b off s ph ∧
      ((ph = .del (some x) ∧ tag = C.delTag ∧ p' = .own b off s (.numa 0)) ∨
       ((ph = .add ∨ ph = .fin) ∧ x = b ∧ tag = C.addTag ∧ p' = .own b off s .use)) := by
  unfold Pc.update at h
  split at h
  · next b off s o => injection h with h; injection h with h1 h2; injection h2 with h2 h3; subst h1 h2 h3
                      exact ⟨b, off, s, _, rfl, .inl ⟨rfl, rfl, rfl⟩⟩
  · next b off s => injection h with h; injection h with h1 h2; injection h2 with h2 h3; subst h1 h2 h3
                    exact ⟨b, off, s, _, rfl, .inr ⟨.inl rfl, rfl, rfl, rfl⟩⟩
  · next b off s => injection h with h; injection h with h1 h2; injection h2 with h2 h3; subst h1 h2 h3
                    exact ⟨b, off, s, _, rfl, .inr ⟨.inr rfl, rfl, rfl, rfl⟩⟩
  · cases h

theorem step_opSend (hC : LegalMsg C) (h : MsgSim C ms a is xs) (hD : DistInv C.P a)
    (hB : BlockInv C.P a) {t b off s : Nat} {ph : Phase β} {tag x : Nat} {p' : Pc β}
    (h1 : ms.call t = .out) (h2 : ms.st.pc (.user t) = .own b off s ph)
    (h3 : (Pc.own b off s ph).update C = some (tag, x, p')) (h4 : C.P.home x ≠ C.rankT t)
    (e : ms' = { ms.post (C.rankT t) (C.P.home x) tag (C.opData (C.P.dom t) s x) with
        call := upd ms.call t (.sendOp ms.next) }) :
    ∃ a' is' xs', StepRes C ms ms' a a' ∧ MsgSim C ms' a' is' xs' := by
  have hu := h.users t
  rw [h1] at hu
  have ha : a.pc (.user t) = .own b off s ph := hu.1.trans h2
  obtain ⟨hval, hs, -⟩ := hD.own t b off s ph ha
  -- the abstract step
  have key : ∃ op : DictOp, UserStep C.P t a
      { a.sendOp C.P (C.rankT t) x op with pc := upd a.pc (.user t) p' } ∧
      (∃ k, C.P.valid x k) ∧ tag ∈ [C.infoTag, C.xferTag, C.addTag, C.delTag] ∧
      C.infoWire [⟨tag, C.opData (C.P.dom t) s x, ms.next⟩] = [] ∧
      C.xferWire [⟨tag, C.opData (C.P.dom t) s x, ms.next⟩] = [] ∧
      C.ops (C.rankT t) (C.P.home x) [⟨tag, C.opData (C.P.dom t) s x, ms.next⟩] = [(x, op)] := by
    obtain ⟨b', off', s', ph', e0, h5⟩ := update_cases h3
    injection e0 with e1 e2 e3 e4
    subst e1 e2 e3 e4
    have hg : ∀ (op : DictOp) (p : Pc β), p = p' →
        ({ a.sendOp C.P (C.rankT t) x op with pc := upd a.pc (.user t) p' } : DistState β) =
        { a.sendOp C.P (C.rankT t) x op with
          pc := upd (a.sendOp C.P (C.rankT t) x op).pc (.user t) p } := by
      rintro op p rfl
      have : (a.sendOp C.P (C.rankT t) x op).pc = a.pc := by unfold DistState.sendOp; split <;> rfl
      rw [this]
    rcases h5 with ⟨rfl, rfl, rfl⟩ | ⟨hph, rfl, rfl, rfl⟩
    · obtain ⟨k, hk⟩ := hB.old t x (by rw [ha]; rfl)
      obtain ⟨o1, o2⟩ := opData_block hC (d := C.P.dom t) hk hs
      obtain ⟨w1, w2, w3⟩ := wire_del hC ⟨C.delTag, C.opData (C.P.dom t) s x, ms.next⟩
        (C.rankT t) (C.P.home x) rfl
      refine ⟨.delete (C.P.entry (C.P.dom t) s), ?_, ⟨k, hk⟩, by simp, w1, w2, ?_⟩
      · rw [hg _ _ rfl]
        exact .delThread a t b off s x ha hC.thread
      · rw [w3]; dsimp only; rw [o1]
        exact congrArg (fun z => [(x, DictOp.delete z)]) o2
    · obtain ⟨o1, o2⟩ := opData_block hC (d := C.P.dom t) hval hs
      obtain ⟨w1, w2, w3⟩ := wire_add hC ⟨C.addTag, C.opData (C.P.dom t) s x, ms.next⟩
        (C.rankT t) (C.P.home x) rfl
      refine ⟨.add (C.P.entry (C.P.dom t) s), ?_, ⟨off, hval⟩, by simp, w1, w2, ?_⟩
      · rw [hg _ _ rfl]
        rcases hph with rfl | rfl
        · exact .addThread a t x off s ha hC.thread
        · exact .finThread a t x off s ha hC.thread
      · rw [w3]; dsimp only; rw [o1]
        exact congrArg (fun z => [(x, DictOp.add z)]) o2
  obtain ⟨op, f1, -, f3, f4, f5, f6⟩ := key
  have ho : a.sendOp C.P (C.rankT t) x op = { a with
      net := upd a.net (C.rankT t) (upd (a.net (C.rankT t)) (C.P.home x)
        (a.net (C.rankT t) (C.P.home x) ++ [(x, op)])) } := by
    unfold DistState.sendOp; rw [if_neg h4]
  rw [ho] at f1
  subst e
  have hc : ∀ u, u ≠ t → upd ms.call t (.sendOp ms.next) u = ms.call u := fun u hu => upd_ne _ _ hu
  refine ⟨_, is, xs, .inr ⟨.user t f1, .user (t := t) hc (fun _ _ => rfl) rfl,
    fun hr => absurd hr (user_not_refused f1)⟩, ?_⟩
  have hcm : ∀ r, upd a.pc (.user t) p' (.comm r) = a.pc (.comm r) := fun r => upd_ne _ _ (by nofun)
  exact { h with
    same := ⟨h.same.cl, h.same.cm, h.same.lk, h.same.data, h.same.dir, h.same.dl, h.same.blk⟩
    users := h.users' hD t (by
        dsimp only; rw [upd_self, upd_self]
        refine ⟨tag, x, ?_, h4⟩
        show (ms.st.pc (.user t)).update C = _
        rw [h2]; exact h3) hc (fun _ _ => rfl)
      (fun u hu => upd_ne _ _ (user_ne' hu)) (.inl rfl) (.inl rfl)
    info := h.info_keep t hc (by dsimp only; rw [upd_self, h1]; rfl)
    ist := h.ist_keep t hc (by rw [h1]; nofun)
    xst := h.xst_keep t hc (by rw [h1]; nofun)
    comm := fun r => by dsimp only; rw [hcm]; exact h.comm r
    net := fun q r => by
      dsimp only
      by_cases e : q = C.rankT t ∧ r = C.P.home x
      · obtain ⟨rfl, rfl⟩ := e
        rw [post_self, (wire_append (C := C) _ _ _ _).2.2, f6, upd_self, upd_self, h.net]
      · rw [post_other _ _ _ e, ← h.net]
        by_cases e1 : q = C.rankT t
        · subst e1
          rw [upd_self, upd_ne _ _ (fun y => e ⟨rfl, y⟩)]
        · rw [upd_ne _ _ e1]
    wireI := fun q r => by
      dsimp only
      by_cases e : q = C.rankT t ∧ r = C.P.home x
      · obtain ⟨rfl, rfl⟩ := e
        rw [post_self, (wire_append (C := C) _ _ 0 0).1, f4, List.append_nil, h.wireI]
      · rw [post_other _ _ _ e, ← h.wireI]
    wireX := fun q r => by
      dsimp only
      by_cases e : q = C.rankT t ∧ r = C.P.home x
      · obtain ⟨rfl, rfl⟩ := e
        rw [post_self, (wire_append (C := C) _ _ 0 0).2.1, f5, List.append_nil, h.wireX]
      · rw [post_other _ _ _ e, ← h.wireX]
    tags := h.post_tags f3
    tickI := fun u k hk => by
      dsimp only at hk
      by_cases e : u = t
      · subst e; rw [upd_self] at hk; cases hk
      · rw [upd_ne _ _ e] at hk; exact post_old (h.tickI u k hk)
    tickX := fun u k hk => by
      dsimp only at hk
      by_cases e : u = t
      · subst e; rw [upd_self] at hk; cases hk
      · rw [upd_ne _ _ e] at hk; exact post_old (h.tickX u k hk) }

theorem step_opSent (h : MsgSim C ms a is xs) (hD : DistInv C.P a)
    {t ticket tag x : Nat} {p' : Pc β}
    (h1 : ms.call t = .sendOp ticket) (h2 : (ms.st.pc (.user t)).update C = some (tag, x, p'))
    (e : ms' = { ms with
        st := { ms.st with pc := upd ms.st.pc (.user t) p' }
        call := upd ms.call t .out }) :
    ∃ a' is' xs', StepRes C ms ms' a a' ∧ MsgSim C ms' a' is' xs' := by
  have hu := h.users t
  rw [h1] at hu
  obtain ⟨tag', x', hu, -⟩ := hu
  rw [h2] at hu
  injection hu with hu; injection hu with e1 hu; injection hu with e2 hu
  subst e1 e2
  have hp' : (∀ b off s r, p' ≠ .own b off s (.ask r)) ∧ CallPc.out.pot p' = 0 := by
    obtain ⟨b, off, s, ph, -, ⟨-, -, rfl⟩ | ⟨-, -, -, rfl⟩⟩ := update_cases h2 <;>
      exact ⟨by nofun, rfl⟩
  have hc : ∀ u, u ≠ t → upd ms.call t .out u = ms.call u := fun u hu => upd_ne _ _ hu
  have hpc : ∀ u, u ≠ t → upd ms.st.pc (.user t) p' (.user u) = ms.st.pc (.user u) :=
    fun u hu => upd_ne _ _ (user_ne' hu)
  have hcm : ∀ r, upd ms.st.pc (.user t) p' (.comm r) = ms.st.pc (.comm r) := fun r => upd_ne _ _ (by nofun)
  subst e
  refine ⟨a, is, xs, .inl ⟨rfl, .user (t := t) hc hpc rfl ?_⟩, ?_⟩
  · unfold MsgSt.tPot
    dsimp only
    rw [upd_self, upd_self, hp'.2, h1]; exact Nat.one_pos
  exact { h with
    same := ⟨h.same.cl, h.same.cm, h.same.lk, h.same.data, h.same.dir, h.same.dl, h.same.blk⟩
    users := h.users' hD t (by
        dsimp only; rw [upd_self, upd_self]
        exact ⟨hu.symm, hp'.1⟩) hc hpc (fun _ _ => rfl) (.inl rfl) (.inl rfl)
    info := h.info_keep t hc (by dsimp only; rw [upd_self, h1]; rfl)
    ist := h.ist_keep t hc (by rw [h1]; nofun)
    xst := h.xst_keep t hc (by rw [h1]; nofun)
    comm := fun r => by dsimp only; rw [hcm]; exact h.comm r
    work := fun q u b r hx => by dsimp only; rw [hcm]; exact h.work q u b r hx
    tickI := fun u k hk => by
      dsimp only at hk
      by_cases e : u = t
      · subst e; rw [upd_self] at hk; cases hk
      · rw [upd_ne _ _ e] at hk; exact h.tickI u k hk
    tickX := fun u k hk => by
      dsimp only at hk
      by_cases e : u = t
      · subst e; rw [upd_self] at hk; cases hk
      · rw [upd_ne _ _ e] at hk; exact h.tickX u k hk }

/-! ### Requests for an entry -/

theorem step_infoLock (h : MsgSim C ms a is xs) (hD : DistInv C.P a)
    {t b off s : Nat} (h1 : ms.call t = .out) (h2 : ms.st.pc (.user t) = .own b off s .start)
    (h3 : C.P.home b ≠ C.rankT t) (h4 : ms.info (C.rankT t) = none)
    (e : ms' = { ms with
        info := upd ms.info (C.rankT t) (some t)
        call := upd ms.call t .reqInfo }) :
    ∃ a' is' xs', StepRes C ms ms' a a' ∧ MsgSim C ms' a' is' xs' := by
  have hu := h.users t
  rw [h1] at hu
  have ha : a.pc (.user t) = ms.st.pc (.user t) := hu.1
  have hnone : ∀ u, C.rankT u = C.rankT t → holdsInfo (ms.call u) = false := by
    intro u hu
    cases hh : holdsInfo (ms.call u) with
    | false => rfl
    | true => rw [(h.info _ u).2 ⟨hu, hh⟩] at h4; cases h4
  have his : is (C.rankT t) = .none := by
    cases hi : is (C.rankT t) with
    | none => rfl
    | asked u b =>
      obtain ⟨e1, e2⟩ := h.ist _ u (by rw [hi]; rfl)
      exact absurd (awaitsInfo_holds e2) (by rw [hnone u e1]; nofun)
    | told u b e =>
      obtain ⟨e1, e2⟩ := h.ist _ u (by rw [hi]; rfl)
      exact absurd (awaitsInfo_holds e2) (by rw [hnone u e1]; nofun)
  have hc : ∀ u, u ≠ t → upd ms.call t .reqInfo u = ms.call u := fun u hu => upd_ne _ _ hu
  subst e
  refine ⟨a, is, xs, .inl ⟨rfl, .user (t := t) hc (fun _ _ => rfl) rfl ?_⟩, ?_⟩
  · unfold MsgSt.tPot
    dsimp only
    rw [upd_self, h1, h2]; simp [CallPc.pot]
  exact { h with
    users := h.users' hD t (by
        dsimp only; rw [upd_self]
        exact ⟨ha, ⟨b, off, s, h2, h3⟩, his⟩) hc (fun _ _ => rfl) (fun _ _ => rfl) (.inl rfl) (.inl rfl)
    info := fun q u => by
      dsimp only
      by_cases e1 : q = C.rankT t
      · subst e1
        rw [upd_self]
        by_cases e2 : u = t
        · subst e2; rw [upd_self]; exact ⟨fun _ => ⟨rfl, rfl⟩, fun _ => rfl⟩
        · rw [upd_ne _ _ e2]
          constructor
          · intro y; injection y with y; exact absurd y.symm e2
          · rintro ⟨y1, y2⟩
            rw [hnone u y1] at y2; cases y2
      · rw [upd_ne _ _ e1, h.info]
        by_cases e2 : u = t
        · subst e2; exact ⟨fun y => absurd y.1.symm e1, fun y => absurd y.1.symm e1⟩
        · rw [upd_ne _ _ e2]
    ist := h.ist_keep t hc (by rw [h1]; nofun)
    xst := h.xst_keep t hc (by rw [h1]; nofun)
    tickI := fun u k hk => by
      dsimp only at hk
      by_cases e : u = t
      · subst e; rw [upd_self] at hk; cases hk
      · rw [upd_ne _ _ e] at hk; exact h.tickI u k hk
    tickX := fun u k hk => by
      dsimp only at hk
      by_cases e : u = t
      · subst e; rw [upd_self] at hk; cases hk
      · rw [upd_ne _ _ e] at hk; exact h.tickX u k hk }

theorem step_infoSend (hC : LegalMsg C) (h : MsgSim C ms a is xs) (hD : DistInv C.P a)
    {t b off s : Nat} (h1 : ms.call t = .reqInfo) (h2 : ms.st.pc (.user t) = .own b off s .start)
    (e : ms' = { ms.post (C.rankT t) (C.P.home b) C.infoTag (C.doff b) with
        call := upd ms.call t (.sendInfo ms.next) }) :
    ∃ a' is' xs', StepRes C ms ms' a a' ∧ MsgSim C ms' a' is' xs' := by
  have hu := h.users t
  rw [h1] at hu
  obtain ⟨ha, ⟨b', off', s', h3, h4⟩, hi⟩ := hu
  rw [h2] at h3
  injection h3 with e1 e2 e3
  subst e1 e2 e3
  have hc : ∀ u, u ≠ t → upd ms.call t (.sendInfo ms.next) u = ms.call u := fun u hu => upd_ne _ _ hu
  obtain ⟨w1, w2, w3⟩ := wire_info hC ⟨C.infoTag, C.doff b, ms.next⟩ (C.rankT t) (C.P.home b) rfl
  subst e
  refine ⟨a, upd is (C.rankT t) (.asked t b), xs, .inl ⟨rfl, .user (t := t) hc (fun _ _ => rfl) rfl ?_⟩, ?_⟩
  · unfold MsgSt.tPot
    dsimp only
    rw [upd_self, h1]; simp [CallPc.pot]
  have hne : ∀ q r, ¬ (q = C.rankT t ∧ r = C.P.home b) →
      ((upd is (C.rankT t) (.asked t b)) q).asks C r = (is q).asks C r := by
    intro q r hq
    by_cases e1 : q = C.rankT t
    · subst e1
      rw [upd_self, hi]
      exact if_neg fun y => hq ⟨rfl, y.symm⟩
    · rw [upd_ne _ _ e1]
  exact { h with
    users := h.users' hD t (by
        dsimp only; rw [upd_self]
        show InfoOk C t (ms.st.pc (.user t)) _ _
        rw [ha, h2, upd_self]
        exact ⟨b, off, s, rfl, h4, .inl ⟨rfl, rfl⟩⟩) hc (fun _ _ => rfl) (fun _ _ => rfl)
        (.inr ⟨by rw [h1]; rfl, fun q hq => upd_ne _ _ hq⟩) (.inl rfl)
    info := h.info_keep t hc (by dsimp only; rw [upd_self, h1]; rfl)
    ist := h.ist_set t hc _ (by
      intro u hu
      dsimp only; rw [upd_self]
      injection hu with hu; exact ⟨hu.symm, rfl⟩)
    xst := h.xst_keep t hc (by rw [h1]; nofun)
    net := fun q r => by
      dsimp only
      by_cases e : q = C.rankT t ∧ r = C.P.home b
      · obtain ⟨rfl, rfl⟩ := e
        rw [post_self, (wire_append (C := C) _ _ _ _).2.2, w3, List.append_nil, h.net]
      · rw [post_other _ _ _ e, ← h.net]
    wireI := fun q r => by
      dsimp only
      by_cases e : q = C.rankT t ∧ r = C.P.home b
      · obtain ⟨rfl, rfl⟩ := e
        rw [post_self, (wire_append (C := C) _ _ 0 0).1, w1, h.wireI, upd_self, hi]
        exact (if_pos rfl).symm
      · rw [post_other _ _ _ e, hne q r e, ← h.wireI]
    wireX := fun q r => by
      dsimp only
      by_cases e : q = C.rankT t ∧ r = C.P.home b
      · obtain ⟨rfl, rfl⟩ := e
        rw [post_self, (wire_append (C := C) _ _ 0 0).2.1, w2, List.append_nil, h.wireX]
      · rw [post_other _ _ _ e, ← h.wireX]
    mailI := fun q r => by
      show infoMail (ms.mail r q) = _
      rw [h.mailI]
      by_cases e1 : q = C.rankT t
      · subst e1; rw [upd_self, hi]; rfl
      · rw [upd_ne _ _ e1]
    tags := h.post_tags (by simp)
    tickI := fun u k hk => by
      dsimp only at hk
      by_cases e : u = t
      · subst e; rw [upd_self] at hk; injection hk with hk; subst hk; exact h.post_new
      · rw [upd_ne _ _ e] at hk; exact post_old (h.tickI u k hk)
    tickX := fun u k hk => by
      dsimp only at hk
      by_cases e : u = t
      · subst e; rw [upd_self] at hk; cases hk
      · rw [upd_ne _ _ e] at hk; exact post_old (h.tickX u k hk) }

theorem step_infoSent (h : MsgSim C ms a is xs) (hD : DistInv C.P a)
    {t ticket : Nat} (h1 : ms.call t = .sendInfo ticket)
    (e : ms' = { ms with call := upd ms.call t .waitInfo }) :
    ∃ a' is' xs', StepRes C ms ms' a a' ∧ MsgSim C ms' a' is' xs' := by
  have hu := h.users t
  rw [h1] at hu
  have hc : ∀ u, u ≠ t → upd ms.call t .waitInfo u = ms.call u := fun u hu => upd_ne _ _ hu
  subst e
  refine ⟨a, is, xs, .inl ⟨rfl, .user (t := t) hc (fun _ _ => rfl) rfl ?_⟩, ?_⟩
  · unfold MsgSt.tPot
    dsimp only
    rw [upd_self, h1]; simp [CallPc.pot]
  exact { h with
    users := h.users' hD t (by dsimp only; rw [upd_self]; exact hu) hc (fun _ _ => rfl)
      (fun _ _ => rfl) (.inl rfl) (.inl rfl)
    info := h.info_keep t hc (by dsimp only; rw [upd_self, h1]; rfl)
    ist := h.ist_keep t hc (by intro _; dsimp only; rw [upd_self]; rfl)
    xst := h.xst_keep t hc (by rw [h1]; nofun)
    tickI := fun u k hk => by
      dsimp only at hk
      by_cases e : u = t
      · subst e; rw [upd_self] at hk; cases hk
      · rw [upd_ne _ _ e] at hk; exact h.tickI u k hk
    tickX := fun u k hk => by
      dsimp only at hk
      by_cases e : u = t
      · subst e; rw [upd_self] at hk; cases hk
      · rw [upd_ne _ _ e] at hk; exact h.tickX u k hk }

theorem step_infoRecv (h : MsgSim C ms a is xs) (hD : DistInv C.P a)
    {t b off s : Nat} {m : Rep β} {rest : List (Rep β)} {ent : Int} (h1 : ms.call t = .waitInfo)
    (h2 : ms.st.pc (.user t) = .own b off s .start)
    (h3 : TakeRep (ms.mail (C.P.home b) (C.rankT t)) 0 m rest) (h4 : m.val = .entry ent)
    (e : ms' = { ms with
        st := ms.st.goto t b off s (.xfer ent)
        mail := upd ms.mail (C.P.home b) (upd (ms.mail (C.P.home b)) (C.rankT t) rest)
        info := upd ms.info (C.rankT t) none
        call := upd ms.call t .out }) :
    ∃ a' is' xs', StepRes C ms ms' a a' ∧ MsgSim C ms' a' is' xs' := by
  have hu := h.users t
  rw [h1] at hu
  obtain ⟨b', off', s', h5, h6, h7⟩ := hu
  rw [h2] at h5
  injection h5 with e1 e2 e3
  subst e1 e2 e3
  obtain ⟨m1, m2⟩ := h3.info
  have hm := h.mailI (C.rankT t) (C.P.home b)
  rw [m1, h4] at hm
  rcases h7 with ⟨h7, -⟩ | ⟨e', h7, h8⟩
  · rw [h7] at hm; cases hm
  rw [h7] at hm
  change _ = (if C.P.home b = C.P.home b then _ else _) at hm
  rw [if_pos rfl] at hm
  injection hm with hm hrest
  injection hm with hm
  subst hm
  have hc : ∀ u, u ≠ t → upd ms.call t .out u = ms.call u := fun u hu => upd_ne _ _ hu
  have hpc : ∀ u, u ≠ t → (ms.st.goto t b off s (.xfer ent)).pc (.user u) = ms.st.pc (.user u) :=
    fun u hu => upd_ne _ _ (user_ne' hu)
  have hcm : ∀ r, (ms.st.goto t b off s (.xfer ent)).pc (.comm r) = ms.st.pc (.comm r) :=
    fun r => upd_ne ms.st.pc (.own b off s (.xfer ent)) (agent_ne r t)
  have hps : (ms.st.goto t b off s (.xfer ent)).pc (.user t) = .own b off s (.xfer ent) := upd_self ..
  subst e
  refine ⟨a, upd is (C.rankT t) .none, xs, .inl ⟨rfl, .user (t := t) hc hpc rfl ?_⟩, ?_⟩
  · unfold MsgSt.tPot
    dsimp only
    rw [upd_self, hps, h1]; simp [CallPc.pot]
  have hml : ∀ q r, ¬ (r = C.P.home b ∧ q = C.rankT t) →
      upd ms.mail (C.P.home b) (upd (ms.mail (C.P.home b)) (C.rankT t) rest) r q = ms.mail r q := by
    intro q r hq
    by_cases e1 : r = C.P.home b
    · subst e1; rw [upd_self, upd_ne _ _ (fun y => hq ⟨rfl, y⟩)]
    · rw [upd_ne _ _ e1]
  exact { h with
    same := ⟨h.same.cl, h.same.cm, h.same.lk, h.same.data, h.same.dir, h.same.dl, h.same.blk⟩
    users := h.users' hD t (by
        dsimp only; rw [upd_self, hps]
        exact ⟨h8, by nofun⟩) hc hpc (fun _ _ => rfl)
        (.inr ⟨by rw [h1]; rfl, fun q hq => upd_ne _ _ hq⟩) (.inl rfl)
    info := fun q u => by
      dsimp only
      by_cases e1 : q = C.rankT t
      · subst e1
        rw [upd_self]
        refine ⟨by nofun, ?_⟩
        rintro ⟨y1, y2⟩
        by_cases e2 : u = t
        · subst e2; rw [upd_self] at y2; cases y2
        · rw [upd_ne _ _ e2] at y2
          exact absurd (h.info_unique (by rw [h1]; rfl) y2 y1) e2
      · rw [upd_ne _ _ e1, h.info]
        by_cases e2 : u = t
        · subst e2; exact ⟨fun y => absurd y.1.symm e1, fun y => absurd y.1.symm e1⟩
        · rw [upd_ne _ _ e2]
    ist := h.ist_set t hc _ (by nofun)
    xst := h.xst_keep t hc (by rw [h1]; nofun)
    comm := fun r => by dsimp only; rw [hcm]; exact h.comm r
    work := fun q u b r hx => by dsimp only; rw [hcm]; exact h.work q u b r hx
    wireI := fun q r => by
      show C.infoWire (ms.wire q r) = _
      rw [h.wireI]
      by_cases e1 : q = C.rankT t
      · subst e1; rw [upd_self, h7]; rfl
      · rw [upd_ne _ _ e1]
    mailI := fun q r => by
      dsimp only
      by_cases e : r = C.P.home b ∧ q = C.rankT t
      · obtain ⟨rfl, rfl⟩ := e
        rw [upd_self, upd_self, upd_self, hrest]; rfl
      · rw [hml q r e, h.mailI]
        by_cases e1 : q = C.rankT t
        · subst e1; rw [upd_self, h7]
          exact if_neg fun y => e ⟨y.symm, rfl⟩
        · rw [upd_ne _ _ e1]
    mailX := fun q r => by
      dsimp only
      by_cases e : r = C.P.home b ∧ q = C.rankT t
      · obtain ⟨rfl, rfl⟩ := e
        rw [upd_self, upd_self, m2]; exact h.mailX _ _
      · rw [hml q r e, h.mailX]
    tickI := fun u k hk => by
      dsimp only at hk
      by_cases e : u = t
      · subst e; rw [upd_self] at hk; cases hk
      · rw [upd_ne _ _ e] at hk; exact h.tickI u k hk
    tickX := fun u k hk => by
      dsimp only at hk
      by_cases e : u = t
      · subst e; rw [upd_self] at hk; cases hk
      · rw [upd_ne _ _ e] at hk; exact h.tickX u k hk }

/-! ### Requests for a block -/

theorem box_keep (h : MsgSim C ms a is xs) (t : Nat) (x : XferStage β)
    (hx : ∀ u, C.rankT u = C.rankT t → x.boxOf u = (xs (C.rankT t)).boxOf u) :
    ∀ u, a.box u = ((upd xs (C.rankT t) x) (C.rankT u)).boxOf u := by
  intro u
  rw [h.box]
  by_cases e : C.rankT u = C.rankT t
  · rw [e, upd_self, hx u e]
  · rw [upd_ne _ _ e]

theorem step_xferLock (hC : LegalMsg C) (h : MsgSim C ms a is xs) (hD : DistInv C.P a)
    {t b off s ent : Nat} (h1 : ms.call t = .out)
    (h2 : ms.st.pc (.user t) = .own b off s (.xfer (ent : Int))) (h3 : ms.st.blk (C.rankT t) = none)
    (e : ms' = { ms with
        st := { ms.st with
          blk := upd ms.st.blk (C.rankT t) (some (.user t))
          }.goto t b off s (.ask (ownerRank C.P.rankCache ent))
        call := upd ms.call t .reqXfer }) :
    ∃ a' is' xs', StepRes C ms ms' a a' ∧ MsgSim C ms' a' is' xs' := by
  have hu := h.users t
  rw [h1] at hu
  have ha : a.pc (.user t) = .own b off s (.xfer (ent : Int)) := hu.1.trans h2
  have hb : a.blk (C.rankT t) = none := by rw [h.same.blk]; exact h3
  have f1 := UserStep.xferThread (P := C.P) a t b off s ent ha hC.thread hb
  have hxs : xs (C.rankT t) = .none := by
    have key : ∀ u, (xs (C.rankT t)).thread = some u → False := by
      intro u hu
      obtain ⟨e1, e2⟩ := h.xst _ u hu
      have := h.blk_self hD (awaitsXfer_holds e2)
      rw [e1, hb] at this; cases this
    cases hx : xs (C.rankT t) with
    | none => rfl
    | asked u => exact absurd (by rw [hx]; rfl) (key u)
    | working u => exact absurd (by rw [hx]; rfl) (key u)
    | told u => exact absurd (by rw [hx]; rfl) (key u)
  have hc : ∀ u, u ≠ t → upd ms.call t .reqXfer u = ms.call u := fun u hu => upd_ne _ _ hu
  have hpc : ∀ (pc : Agent → Pc β) p u, u ≠ t → upd pc (.user t) p (.user u) = pc (.user u) :=
    fun pc p u hu => upd_ne _ _ (user_ne' hu)
  have hcm : ∀ (pc : Agent → Pc β) p r, upd pc (.user t) p (.comm r) = pc (.comm r) :=
    fun pc p r => upd_ne pc _ (agent_ne r t)
  subst e
  refine ⟨_, is, xs, .inr ⟨.user t f1, .user (t := t) hc (hpc _ _) rfl,
    fun hr => absurd hr (user_not_refused f1)⟩, ?_⟩
  exact { h with
    same := ⟨h.same.cl, h.same.cm, h.same.lk, h.same.data, h.same.dir, h.same.dl, by
      simp only [DistState.goto]; rw [h.same.blk]; rfl⟩
    users := h.users' hD t (by
        dsimp only [DistState.goto]; rw [upd_self, upd_self, upd_self]
        exact ⟨rfl, ⟨b, off, s, _, rfl⟩, hxs⟩) hc (hpc _ _) (hpc _ _) (.inl rfl) (.inl rfl)
    info := h.info_keep t hc (by dsimp only; rw [upd_self, h1]; rfl)
    ist := h.ist_keep t hc (by rw [h1]; nofun)
    xst := h.xst_keep t hc (by rw [h1]; nofun)
    comm := fun r => by dsimp only [DistState.goto]; rw [hcm, hcm]; exact h.comm r
    work := fun q u b r hx => by dsimp only [DistState.goto]; rw [hcm]; exact h.work q u b r hx
    tickI := fun u k hk => by
      dsimp only at hk
      by_cases e : u = t
      · subst e; rw [upd_self] at hk; cases hk
      · rw [upd_ne _ _ e] at hk; exact h.tickI u k hk
    tickX := fun u k hk => by
      dsimp only at hk
      by_cases e : u = t
      · subst e; rw [upd_self] at hk; cases hk
      · rw [upd_ne _ _ e] at hk; exact h.tickX u k hk }

theorem step_xferSend (hC : LegalMsg C) (h : MsgSim C ms a is xs) (hD : DistInv C.P a)
    {t b off s r : Nat} (h1 : ms.call t = .reqXfer)
    (h2 : ms.st.pc (.user t) = .own b off s (.ask r))
    (e : ms' = { ms.post (C.rankT t) r C.xferTag b with
        call := upd ms.call t (.sendXfer ms.next) }) :
    ∃ a' is' xs', StepRes C ms ms' a a' ∧ MsgSim C ms' a' is' xs' := by
  have hu := h.users t
  rw [h1] at hu
  obtain ⟨ha, -, hx⟩ := hu
  have hc : ∀ u, u ≠ t → upd ms.call t (.sendXfer ms.next) u = ms.call u := fun u hu => upd_ne _ _ hu
  obtain ⟨w1, w2, w3⟩ := wire_xfer hC ⟨C.xferTag, b, ms.next⟩ (C.rankT t) r rfl
  subst e
  refine ⟨a, is, upd xs (C.rankT t) (.asked t b r),
    .inl ⟨rfl, .user (t := t) hc (fun _ _ => rfl) rfl ?_⟩, ?_⟩
  · unfold MsgSt.tPot
    dsimp only
    rw [upd_self, h1]; simp [CallPc.pot]
  have hne : ∀ q r', ¬ (q = C.rankT t ∧ r' = r) →
      ((upd xs (C.rankT t) (.asked t b r)) q).asks r' = (xs q).asks r' := by
    intro q r' hq
    by_cases e1 : q = C.rankT t
    · subst e1
      rw [upd_self, hx]
      exact if_neg fun y => hq ⟨rfl, y.symm⟩
    · rw [upd_ne _ _ e1]
  exact { h with
    users := h.users' hD t (by
        dsimp only; rw [upd_self]
        show XferOk t (ms.st.pc (.user t)) _ _
        rw [ha, h2, upd_self]
        exact ⟨b, off, s, r, rfl, rfl, .inl rfl⟩) hc (fun _ _ => rfl) (fun _ _ => rfl)
        (.inl rfl) (.inr ⟨by rw [h1]; rfl, fun q hq => upd_ne _ _ hq⟩)
    box := h.box_keep t _ (by intro u _; rw [hx]; rfl)
    info := h.info_keep t hc (by dsimp only; rw [upd_self, h1]; rfl)
    ist := h.ist_keep t hc (by rw [h1]; nofun)
    xst := h.xst_set t hc _ (by
      intro u hu
      dsimp only; rw [upd_self]
      injection hu with hu; exact ⟨hu.symm, rfl⟩)
    comm := fun r' => (h.comm r').congr (by
      intro q u b' _ hq
      refine upd_ne _ _ ?_
      rintro rfl
      rw [hx] at hq; cases hq)
    work := fun q u b' r' hq => by
      by_cases e1 : q = C.rankT t
      · subst e1; rw [upd_self] at hq; cases hq
      · rw [upd_ne _ _ e1] at hq; exact h.work q u b' r' hq
    net := fun q r' => by
      dsimp only
      by_cases e : q = C.rankT t ∧ r' = r
      · obtain ⟨rfl, rfl⟩ := e
        rw [post_self, (wire_append (C := C) _ _ _ _).2.2, w3, List.append_nil, h.net]
      · rw [post_other _ _ _ e, ← h.net]
    wireI := fun q r' => by
      dsimp only
      by_cases e : q = C.rankT t ∧ r' = r
      · obtain ⟨rfl, rfl⟩ := e
        rw [post_self, (wire_append (C := C) _ _ 0 0).1, w1, List.append_nil, h.wireI]
      · rw [post_other _ _ _ e, ← h.wireI]
    wireX := fun q r' => by
      dsimp only
      by_cases e : q = C.rankT t ∧ r' = r
      · obtain ⟨rfl, rfl⟩ := e
        rw [post_self, (wire_append (C := C) _ _ 0 0).2.1, w2, h.wireX, upd_self, hx]
        exact (if_pos rfl).symm
      · rw [post_other _ _ _ e, hne q r' e, ← h.wireX]
    mailX := fun q r' => by
      show xferMail (ms.mail r' q) = _
      rw [h.mailX]
      by_cases e1 : q = C.rankT t
      · subst e1; rw [upd_self, hx]; rfl
      · rw [upd_ne _ _ e1]
    tags := h.post_tags (by simp)
    tickI := fun u k hk => by
      dsimp only at hk
      by_cases e : u = t
      · subst e; rw [upd_self] at hk; cases hk
      · rw [upd_ne _ _ e] at hk; exact post_old (h.tickI u k hk)
    tickX := fun u k hk => by
      dsimp only at hk
      by_cases e : u = t
      · subst e; rw [upd_self] at hk; injection hk with hk; subst hk; exact h.post_new
      · rw [upd_ne _ _ e] at hk; exact post_old (h.tickX u k hk) }

theorem step_xferSent (h : MsgSim C ms a is xs) (hD : DistInv C.P a)
    {t ticket : Nat} (h1 : ms.call t = .sendXfer ticket)
    (e : ms' = { ms with call := upd ms.call t .waitXfer }) :
    ∃ a' is' xs', StepRes C ms ms' a a' ∧ MsgSim C ms' a' is' xs' := by
  have hu := h.users t
  rw [h1] at hu
  have hc : ∀ u, u ≠ t → upd ms.call t .waitXfer u = ms.call u := fun u hu => upd_ne _ _ hu
  subst e
  refine ⟨a, is, xs, .inl ⟨rfl, .user (t := t) hc (fun _ _ => rfl) rfl ?_⟩, ?_⟩
  · unfold MsgSt.tPot
    dsimp only
    rw [upd_self, h1]; simp [CallPc.pot]
  exact { h with
    users := h.users' hD t (by dsimp only; rw [upd_self]; exact hu) hc (fun _ _ => rfl)
      (fun _ _ => rfl) (.inl rfl) (.inl rfl)
    info := h.info_keep t hc (by dsimp only; rw [upd_self, h1]; rfl)
    ist := h.ist_keep t hc (by rw [h1]; nofun)
    xst := h.xst_keep t hc (by intro _; dsimp only; rw [upd_self]; rfl)
    tickI := fun u k hk => by
      dsimp only at hk
      by_cases e : u = t
      · subst e; rw [upd_self] at hk; cases hk
      · rw [upd_ne _ _ e] at hk; exact h.tickI u k hk
    tickX := fun u k hk => by
      dsimp only at hk
      by_cases e : u = t
      · subst e; rw [upd_self] at hk; cases hk
      · rw [upd_ne _ _ e] at hk; exact h.tickX u k hk }

/-- The reply to the request for a block is received. -/
theorem step_xferEnd (h : MsgSim C ms a is xs) (hD : DistInv C.P a)
    {t b off s r g : Nat} {m : Rep β} {rest : List (Rep β)} {v : Option (Nat → β)} {p' : Pc β}
    {st1 : DistState β} {bl : Nat → Option Agent}
    (h1 : ms.call t = .waitXfer) (h2 : ms.st.pc (.user t) = .own b off s (.ask r))
    (hg : g ≠ 0) (h3 : TakeRep (ms.mail r (C.rankT t)) g m rest)
    (h4 : ∀ v', (match v' with
      | none => (2, .ack)
      | some buf => (1, .block buf) : Nat × RepVal β) = (g, m.val) → v' = v)
    (hst : st1 = { ms.st with blk := bl, pc := upd ms.st.pc (.user t) p' })
    (hp' : ∀ b off s r, p' ≠ .own b off s (.ask r))
    (hstep : a.pc (.user t) = .own b off s (.ask r) → a.box t = some v →
      UserStep C.P t a { a with blk := bl, pc := upd a.pc (.user t) p', box := upd a.box t none })
    (e : ms' = { ms with
        st := st1
        mail := upd ms.mail r (upd (ms.mail r) (C.rankT t) rest)
        call := upd ms.call t .out }) :
    ∃ a' is' xs', StepRes C ms ms' a a' ∧ MsgSim C ms' a' is' xs' := by
  have hu := h.users t
  rw [h1] at hu
  obtain ⟨b', off', s', r', h5, ha, h7⟩ := hu
  rw [h2] at h5 ha
  injection h5 with e1 e2 e3 e4
  injection e4 with e4
  subst e1 e2 e3 e4
  have hm := h.mailX (C.rankT t) r
  obtain ⟨v', hx⟩ : ∃ v', xs (C.rankT t) = .told t b r v' := by
    rcases h7 with h7 | h7 | h7
    · rw [h7] at hm; exact absurd hm (h3.mem hg)
    · rw [h7] at hm; exact absurd hm (h3.mem hg)
    · exact h7
  rw [hx] at hm
  change _ = (if r = r then _ else _) at hm
  rw [if_pos rfl] at hm
  obtain ⟨m1, m2, m3⟩ := h3.xfer hg hm rfl
  obtain rfl : v' = v := h4 v' m1
  have hbox : a.box t = some v' := by
    rw [h.box, hx]; exact if_pos rfl
  have f1 := hstep ha hbox
  have hc : ∀ u, u ≠ t → upd ms.call t .out u = ms.call u := fun u hu => upd_ne _ _ hu
  have hpc : ∀ (pc : Agent → Pc β) u, u ≠ t → upd pc (.user t) p' (.user u) = pc (.user u) :=
    fun pc u hu => upd_ne _ _ (user_ne' hu)
  have hcm : ∀ (pc : Agent → Pc β) r, upd pc (.user t) p' (.comm r) = pc (.comm r) :=
    fun pc r => upd_ne pc _ (agent_ne r t)
  subst hst e
  refine ⟨_, is, upd xs (C.rankT t) .none, .inr ⟨.user t f1, .user (t := t) hc (hpc _) rfl,
    fun hr => absurd hr (user_not_refused f1)⟩, ?_⟩
  have hml : ∀ q r', ¬ (r' = r ∧ q = C.rankT t) →
      upd ms.mail r (upd (ms.mail r) (C.rankT t) rest) r' q = ms.mail r' q := by
    intro q r' hq
    by_cases e1 : r' = r
    · subst e1; rw [upd_self, upd_ne _ _ (fun y => hq ⟨rfl, y⟩)]
    · rw [upd_ne _ _ e1]
  exact { h with
    same := ⟨h.same.cl, h.same.cm, h.same.lk, h.same.data, h.same.dir, h.same.dl, rfl⟩
    users := h.users' hD t (by
        dsimp only; rw [upd_self, upd_self, upd_self]
        exact ⟨rfl, hp'⟩) hc (hpc _) (hpc _) (.inl rfl)
        (.inr ⟨by rw [h1]; rfl, fun q hq => upd_ne _ _ hq⟩)
    box := fun u => by
      dsimp only
      by_cases e : u = t
      · subst e; rw [upd_self, upd_self]; rfl
      · rw [upd_ne _ _ e, h.box]
        by_cases e1 : C.rankT u = C.rankT t
        · rw [e1, upd_self, hx]; exact if_neg fun y => e y.symm
        · rw [upd_ne _ _ e1]
    info := h.info_keep t hc (by dsimp only; rw [upd_self, h1]; rfl)
    ist := h.ist_keep t hc (by rw [h1]; nofun)
    xst := h.xst_set t hc _ (by nofun)
    comm := fun r' => by
      dsimp only; rw [hcm, hcm]
      refine (h.comm r').congr ?_
      intro q u b' _ hq
      refine upd_ne _ _ ?_
      rintro rfl
      rw [hx] at hq; cases hq
    work := fun q u b' r' hq => by
      dsimp only; rw [hcm]
      by_cases e1 : q = C.rankT t
      · subst e1; rw [upd_self] at hq; cases hq
      · rw [upd_ne _ _ e1] at hq; exact h.work q u b' r' hq
    wireX := fun q r' => by
      show C.xferWire (ms.wire q r') = _
      rw [h.wireX]
      by_cases e1 : q = C.rankT t
      · subst e1; rw [upd_self, hx]; rfl
      · rw [upd_ne _ _ e1]
    mailI := fun q r' => by
      dsimp only
      by_cases e : r' = r ∧ q = C.rankT t
      · obtain ⟨rfl, rfl⟩ := e
        rw [upd_self, upd_self, m3]; exact h.mailI _ _
      · rw [hml q r' e, h.mailI]
    mailX := fun q r' => by
      dsimp only
      by_cases e : r' = r ∧ q = C.rankT t
      · obtain ⟨rfl, rfl⟩ := e
        rw [upd_self, upd_self, upd_self, m2]; rfl
      · rw [hml q r' e, h.mailX]
        by_cases e1 : q = C.rankT t
        · subst e1; rw [upd_self, hx]
          exact if_neg fun y => e ⟨y.symm, rfl⟩
        · rw [upd_ne _ _ e1]
    tickI := fun u k hk => by
      dsimp only at hk
      by_cases e : u = t
      · subst e; rw [upd_self] at hk; cases hk
      · rw [upd_ne _ _ e] at hk; exact h.tickI u k hk
    tickX := fun u k hk => by
      dsimp only at hk
      by_cases e : u = t
      · subst e; rw [upd_self] at hk; cases hk
      · rw [upd_ne _ _ e] at hk; exact h.tickX u k hk }

theorem step_xferOk (hC : LegalMsg C) (h : MsgSim C ms a is xs) (hD : DistInv C.P a)
    {t b off s r : Nat} {m : Rep β} {rest : List (Rep β)} {buf : Nat → β}
    (h1 : ms.call t = .waitXfer) (h2 : ms.st.pc (.user t) = .own b off s (.ask r))
    (h3 : TakeRep (ms.mail r (C.rankT t)) (C.tagOffset + 1) m rest) (h4 : m.val = .block buf)
    (e : ms' = { ms with
        st := ms.st.goto t b off s (.recv buf 0)
        mail := upd ms.mail r (upd (ms.mail r) (C.rankT t) rest)
        call := upd ms.call t .out }) :
    ∃ a' is' xs', StepRes C ms ms' a a' ∧ MsgSim C ms' a' is' xs' := by
  rw [hC.first] at h3
  refine h.step_xferEnd hD (v := some buf) (bl := ms.st.blk) (p' := .own b off s (.recv buf 0))
    (st1 := ms.st.goto t b off s (.recv buf 0)) h1 h2 (by omega) h3 ?_ rfl (by nofun) ?_ e
  · intro v' hv
    rw [h4] at hv
    split at hv
    · injection hv with hv; cases hv
    · injection hv with _ hv; injection hv with hv; rw [hv]
  · intro ha hb
    have := UserStep.askDone (P := C.P) a t b off s r buf ha hb
    rw [← h.same.blk]
    exact this

theorem step_xferFail (hC : LegalMsg C) (h : MsgSim C ms a is xs) (hD : DistInv C.P a)
    {t b off s r : Nat} {m : Rep β} {rest : List (Rep β)}
    (h1 : ms.call t = .waitXfer) (h2 : ms.st.pc (.user t) = .own b off s (.ask r))
    (h3 : TakeRep (ms.mail r (C.rankT t)) (C.tagOffset + 2) m rest)
    (e : ms' = { ms with
        st := { ms.st with blk := upd ms.st.blk (C.rankT t) none }.goto t b off s .start
        mail := upd ms.mail r (upd (ms.mail r) (C.rankT t) rest)
        call := upd ms.call t .out }) :
    ∃ a' is' xs', StepRes C ms ms' a a' ∧ MsgSim C ms' a' is' xs' := by
  rw [hC.first] at h3
  refine h.step_xferEnd hD (v := none) (bl := upd ms.st.blk (C.rankT t) none)
    (p' := .own b off s .start)
    (st1 := { ms.st with blk := upd ms.st.blk (C.rankT t) none }.goto t b off s .start)
    h1 h2 (by omega) h3 ?_ rfl (by nofun) ?_ e
  · intro v' hv
    split at hv
    · rfl
    · injection hv with hv; cases hv
  · intro ha hb
    have := UserStep.askFail (P := C.P) a t b off s r ha hb
    rw [← h.same.blk]
    exact this

end MsgSim
end Asagi
