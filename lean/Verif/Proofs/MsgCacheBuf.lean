import Verif.Proofs.MsgCacheComm
/-
While MPI may read the slot that contains a block of a reply, nobody writes it.
-/
namespace Asagi
open Spec
variable {β : Type} {C : MsgParams β} {ms ms' : MsgSt β}

/-- A slot that another one has locked does not change. -/
theorem user_data {P : DistParams β} {t : Nat} {st st' : DistState β} (hs : UserStep P t st st')
    {d s : Nat} (hn : ∀ b off ph, st.pc (.user t) = .own b off s ph → P.dom t ≠ d) :
    ∀ j, st'.data d s j = st.data d s j := by
  have key : ∀ {b off s1 k : Nat} {ph : Phase β} {v : β}, st.pc (.user t) = .own b off s1 ph →
      ∀ j, setCell st.data (P.dom t) s1 k v d s j = st.data d s j := by
    intro b off s1 k ph v hp j
    unfold setCell
    by_cases h : d = P.dom t
    · by_cases h1 : s = s1
      · subst h1; exact absurd h.symm (hn _ _ _ hp)
      · simp [h, h1]
    · simp [h]
  cases hs with
  | delThread => intro j; simp only [DistState.goto, sendOp_data]
  | addThread => intro j; simp only [DistState.goto, sendOp_data]
  | finThread => intro j; simp only [DistState.goto, sendOp_data]
  | numaCell _ _ b off s1 i s' k hp => exact key hp
  | copyCell _ _ b off s1 e k hp => exact key hp
  | recvCell _ _ b off s1 k buf hp => exact key hp
  | loadCell _ _ b off s1 k v hp => exact key hp
  | _ => intro j; rfl

theorem comm_ne' {x r : Nat} (h : x ≠ r) : Agent.comm x ≠ Agent.comm r := fun e => h (by injection e)

structure BufInv (C : MsgParams β) (ms : MsgSt β) : Prop where
  tick : ∀ r q, ∀ m ∈ ms.mail r q, m.ticket < ms.next
  send : ∀ r q b i s k buf, ms.st.pc (.comm r) = .send q b i s k buf →
    ∀ j, j < k → buf j = ms.st.data (r * C.P.domains + i) s j
  sent : ∀ r q k, ms.wait r = some (q, k) → ∀ m ∈ ms.mail r q, m.ticket = k →
    ∀ buf, m.val = .block buf → ∃ i s, ms.st.pc (.comm r) = .sent i s ∧
      ∀ j, j < C.P.cells → buf j = ms.st.data (r * C.P.domains + i) s j

/-- The slots that the communication threads read. -/
def CommReads (ms : MsgSt β) (r i s : Nat) : Prop :=
  (∃ q b k buf, ms.st.pc (.comm r) = .send q b i s k buf) ∨ ms.st.pc (.comm r) = .sent i s

theorem BufInv.frame (h : BufInv C ms) (hn : ms.next ≤ ms'.next)
    (hm : ∀ r q, ∀ m ∈ ms'.mail r q, m ∈ ms.mail r q) (hw : ms'.wait = ms.wait)
    (hc : ∀ r, ms'.st.pc (.comm r) = ms.st.pc (.comm r))
    (hd : ∀ r i s, CommReads ms r i s → ∀ j,
      ms'.st.data (r * C.P.domains + i) s j = ms.st.data (r * C.P.domains + i) s j) : BufInv C ms' where
  tick := fun r q m hm' => Nat.lt_of_lt_of_le (h.tick r q m (hm r q m hm')) hn
  send := fun r q b i s k buf hp j hj => by
    rw [hc] at hp
    rw [hd r i s (.inl ⟨_, _, _, _, hp⟩)]
    exact h.send r q b i s k buf hp j hj
  sent := fun r q k hw' m hm' hk buf hv => by
    rw [hw] at hw'
    obtain ⟨i, s, hp, he⟩ := h.sent r q k hw' m (hm r q m hm') hk buf hv
    refine ⟨i, s, (hc r).trans hp, fun j hj => ?_⟩
    rw [hd r i s (.inr hp)]
    exact he j hj

/-- Steps of the communication thread of process `r`. -/
theorem BufInv.comm (h : BufInv C ms) (r : Nat) (hn : ms.next ≤ ms'.next) (hd : ms'.st.data = ms.st.data)
    (hc : ∀ x, x ≠ r → ms'.st.pc (.comm x) = ms.st.pc (.comm x)) (hw : ∀ x, x ≠ r → ms'.wait x = ms.wait x)
    (hm : ∀ x, x ≠ r → ms'.mail x = ms.mail x) (ht : ∀ q, ∀ m ∈ ms'.mail r q, m.ticket < ms'.next)
    (hs : ∀ q b i s k buf, ms'.st.pc (.comm r) = .send q b i s k buf →
      ∀ j, j < k → buf j = ms.st.data (r * C.P.domains + i) s j)
    (he : ∀ q k, ms'.wait r = some (q, k) → ∀ m ∈ ms'.mail r q, m.ticket = k →
      ∀ buf, m.val = .block buf → ∃ i s, ms'.st.pc (.comm r) = .sent i s ∧
        ∀ j, j < C.P.cells → buf j = ms.st.data (r * C.P.domains + i) s j) : BufInv C ms' where
  tick := fun x q m hx => by
    by_cases e : x = r
    · subst e; exact ht q m hx
    · rw [hm x e] at hx; exact Nat.lt_of_lt_of_le (h.tick x q m hx) hn
  send := fun x q b i s k buf hp => by
    rw [hd]
    by_cases e : x = r
    · subst e; exact hs q b i s k buf hp
    · rw [hc x e] at hp; exact h.send x q b i s k buf hp
  sent := fun x q k => by
    rw [hd]
    by_cases e : x = r
    · subst e; exact he q k
    · rw [hc x e, hw x e, hm x e]; exact h.sent x q k

theorem answer_mem {r q g : Nat} {v : RepVal β} {ms : MsgSt β} {q' : Nat} {m : Rep β}
    (hm : m ∈ (ms.answer r q g v).mail r q') : m ∈ ms.mail r q' ∨ (q' = q ∧ m = ⟨g, ms.next, v⟩) := by
  simp only [MsgSt.answer, upd_self] at hm
  rw [upd_apply] at hm
  split at hm
  · next e =>
    subst e
    rcases List.mem_append.1 hm with hm | hm
    · exact .inl hm
    · exact .inr ⟨rfl, List.mem_singleton.1 hm⟩
  · exact .inl hm

/-- Replies by the communication thread. -/
theorem BufInv.answer (h : BufInv C ms) {r q g : Nat} {v : RepVal β} {p : Pc β}
    (hs : ∀ q b i s k buf, p ≠ .send q b i s k buf)
    (hv : ∀ buf, v = .block buf → ∃ i s, p = .sent i s ∧
      ∀ j, j < C.P.cells → buf j = ms.st.data (r * C.P.domains + i) s j)
    (h1 : ms'.st.data = ms.st.data) (h2 : ms'.st.pc (.comm r) = p)
    (h3 : ∀ x, x ≠ r → ms'.st.pc (.comm x) = ms.st.pc (.comm x))
    (h4 : ms'.mail = (ms.answer r q g v).mail) (h5 : ms'.wait = (ms.answer r q g v).wait)
    (h6 : ms'.next = ms.next + 1) : BufInv C ms' := by
  refine h.comm r (by omega) h1 h3 ?_ ?_ ?_ ?_ ?_
  · intro x hx; rw [h5]; exact upd_ne _ _ hx
  · intro x hx; rw [h4]; exact upd_ne _ _ hx
  · intro q' m hm
    rw [h4] at hm
    rcases answer_mem hm with hm | ⟨-, rfl⟩
    · have := h.tick r q' m hm; omega
    · dsimp only; omega
  · intro q' b i s k buf hp
    rw [h2] at hp
    exact absurd hp (hs _ _ _ _ _ _)
  · intro q' k hw m hm hk buf hb
    rw [h5] at hw
    simp only [MsgSt.answer, upd_self] at hw
    injection hw with hw
    injection hw with e1 e2
    subst e1 e2
    rw [h4] at hm
    rcases answer_mem hm with hm | ⟨-, rfl⟩
    · have := h.tick r _ m hm; omega
    · rw [h2]; exact hv buf hb

theorem MsgSim.reads_locked {a : DistState β} {is : Nat → InfoStage} {xs : Nat → XferStage β}
    (h : MsgSim C ms a is xs) (hD : DistInv C.P a) {r i s : Nat} (hr : CommReads ms r i s) :
    ms.st.lk (r * C.P.domains + i, s) = some (.comm r) := by
  rw [← h.same.lk]
  refine (hD.lk _ _).2 ?_
  have hc := h.comm r
  rcases hr with ⟨q, b, k, buf, hp⟩ | hp
  · rw [hp] at hc
    obtain ⟨t, -, hc⟩ := hc
    rw [hc]; exact rfl
  · rw [hp] at hc
    change a.pc (.comm r) = .sent i s at hc
    rw [hc]; exact rfl

theorem MsgSim.reads_not_own {a : DistState β} {is : Nat → InfoStage} {xs : Nat → XferStage β}
    (h : MsgSim C ms a is xs) (hD : DistInv C.P a) {r i s t b off : Nat} {ph : Phase β}
    (hr : CommReads ms r i s) (ho : ms.call t = .out) (hp : ms.st.pc (.user t) = .own b off s ph) :
    C.P.dom t ≠ r * C.P.domains + i := by
  intro e
  have h1 := h.reads_locked hD hr
  have hu := h.users t
  rw [ho] at hu
  have h2 : a.lk (C.P.dom t, s) = some (.user t) := (hD.lk _ _).2 (by rw [hu.1, hp]; exact .inl rfl)
  rw [h.same.lk, e, h1] at h2
  cases h2

theorem BufInv.step (h : BufInv C ms) {early : Bool} {a : DistState β} {is : Nat → InfoStage}
    {xs : Nat → XferStage β} (hs : MsgSim C ms a is xs) (hD : DistInv C.P a)
    (hst : MsgCacheStep C early ms ms') : BufInv C ms' := by
  have same : ∀ r q, ∀ m ∈ ms.mail r q, m ∈ ms.mail r q := fun _ _ _ hm => hm
  have rcv : ∀ {r q g : Nat} {m : Rep β} {rest : List (Rep β)}, TakeRep (ms.mail r q) g m rest →
      ∀ r' q', ∀ m ∈ upd ms.mail r (upd (ms.mail r) q rest) r' q', m ∈ ms.mail r' q' := by
    rintro r q g m rest ⟨l1, l2, e1, rfl, -, -⟩ r' q' x hx
    rw [upd_apply] at hx
    split at hx
    · next e =>
      subst e
      rw [upd_apply] at hx
      split at hx
      · next e =>
        subst e
        rw [e1]
        rcases List.mem_append.1 hx with hx | hx
        · exact List.mem_append_left _ hx
        · exact List.mem_append_right _ (List.mem_cons_of_mem _ hx)
      · exact hx
    · exact hx
  have upc : ∀ (t : Nat) (p : Pc β) (r : Nat), upd ms.st.pc (.user t) p (.comm r) = ms.st.pc (.comm r) :=
    fun t p r => upd_ne ms.st.pc p (agent_ne r t)
  cases hst with
  | plain t st' hc _ hu =>
    refine h.frame (Nat.le_refl _) same rfl (fun r => user_other hu (agent_ne r t)) ?_
    intro r i s hr j
    exact user_data hu (fun b off ph hp => hs.reads_not_own hD hr hc hp) j
  | opSend => exact h.frame (Nat.le_succ _) same rfl (fun _ => rfl) (fun _ _ _ _ _ => rfl)
  | infoSend => exact h.frame (Nat.le_succ _) same rfl (fun _ => rfl) (fun _ _ _ _ _ => rfl)
  | xferSend => exact h.frame (Nat.le_succ _) same rfl (fun _ => rfl) (fun _ _ _ _ _ => rfl)
  | infoLock => exact h.frame (Nat.le_refl _) same rfl (fun _ => rfl) (fun _ _ _ _ _ => rfl)
  | infoSent => exact h.frame (Nat.le_refl _) same rfl (fun _ => rfl) (fun _ _ _ _ _ => rfl)
  | xferSent => exact h.frame (Nat.le_refl _) same rfl (fun _ => rfl) (fun _ _ _ _ _ => rfl)
  | opSent t k tag x p' => exact h.frame (Nat.le_refl _) same rfl (upc t p') (fun _ _ _ _ _ => rfl)
  | xferLock t b off s e =>
    exact h.frame (Nat.le_refl _) same rfl (upc t (.own b off s (.ask (ownerRank C.P.rankCache e)))) (fun _ _ _ _ _ => rfl)
  | infoRecv t b off s m rest e _ _ h3 =>
    exact h.frame (Nat.le_refl _) (rcv h3) rfl (upc t (.own b off s (.xfer e))) (fun _ _ _ _ _ => rfl)
  | xferOk t b off s r m rest buf _ _ h3 =>
    exact h.frame (Nat.le_refl _) (rcv h3) rfl (upc t (.own b off s (.recv buf 0))) (fun _ _ _ _ _ => rfl)
  | xferFail t b off s r m rest _ _ h3 =>
    exact h.frame (Nat.le_refl _) (rcv h3) rfl (upc t (.own b off s .start)) (fun _ _ _ _ _ => rfl)
  | takeInfo src r rnd m rest hi hw =>
    exact h.answer (r := r) (p := .idle) nofun (fun _ e => by cases e) rfl hi (fun _ _ => rfl) rfl rfl rfl
  | takeXfer src r m rest hi hw =>
    have hp : ∀ x, x ≠ r → upd ms.st.pc (.comm r) (.tryDom src m.data 0) (.comm x) = ms.st.pc (.comm x) :=
      fun x hx => upd_ne _ _ (comm_ne' hx)
    refine h.comm r (Nat.le_refl _) rfl hp (fun _ _ => rfl) (fun _ _ => rfl) (h.tick r) ?_ ?_
    · intro q b i s k buf hp
      dsimp only at hp
      rw [upd_self] at hp; cases hp
    · intro q k hk
      change ms.wait r = _ at hk
      rw [hw] at hk; cases hk
  | takeAdd => exact h.frame (Nat.le_refl _) same rfl (fun _ => rfl) (fun _ _ _ _ _ => rfl)
  | takeDel => exact h.frame (Nat.le_refl _) same rfl (fun _ => rfl) (fun _ _ _ _ _ => rfl)
  | work r st' hw hk =>
    obtain ⟨hk, hni, -, -⟩ := hk
    have hd : st'.data = ms.st.data := by cases hk <;> rfl
    refine h.comm r (Nat.le_refl _) hd (fun x hx => comm_other hk (comm_ne' hx)) (fun _ _ => rfl)
      (fun _ _ => rfl) (h.tick r) ?_ ?_
    · intro q b i s k buf hp
      dsimp only at hp
      cases hk with
      | cell _ _ t b1 i1 s1 k1 buf1 hq hlt =>
        dsimp only at hp
        rw [upd_self] at hp
        cases hp
        intro j hj
        rw [upd_apply]
        split
        · next e => rw [e]
        · next e => exact h.send r _ _ _ _ _ _ hq j (by omega)
      | hit =>
        dsimp only at hp
        rw [upd_self] at hp
        cases hp
        intro j hj; omega
      | deliver _ _ src b op rest hq => exact absurd hq hni
      | _ =>
        dsimp only at hp
        rw [upd_self] at hp; cases hp
    · intro q k hk
      change ms.wait r = _ at hk
      rw [hw] at hk; cases hk
  | refuse r src b i hw hp =>
    exact h.answer (r := r) (p := .idle) nofun (fun _ e => by cases e) rfl (upd_self _ _ _)
      (fun x hx => upd_ne _ _ (comm_ne' hx)) rfl rfl rfl
  | reply r src b i s k buf hw hp hk =>
    refine h.answer (r := r) (p := .sent i s) nofun ?_ rfl (upd_self _ _ _)
      (fun x hx => upd_ne _ _ (comm_ne' hx)) rfl rfl rfl
    intro buf' e
    injection e with e
    subst e
    exact ⟨i, s, rfl, fun j hj => h.send r _ _ _ _ _ _ hp j (by omega)⟩
  | answered r dst ticket hw =>
    refine h.comm r (Nat.le_refl _) rfl (fun _ _ => rfl) (fun x hx => upd_ne _ _ hx) (fun _ _ => rfl)
      (h.tick r) (h.send r) ?_
    intro q k hk
    dsimp only at hk
    rw [upd_self] at hk; cases hk

theorem BufInv.reach (hC : LegalMsg C) (h : MsgReach C ms) : BufInv C ms := by
  induction h with
  | init h =>
    obtain ⟨c, -, rfl⟩ := h
    refine ⟨fun _ _ _ hm => ?_, fun _ _ _ _ _ _ _ hp => ?_, fun _ _ _ hw => ?_⟩
    · cases hm
    · cases hp
    · cases hw
  | step hr hs ih =>
    obtain ⟨a, is, xs, h1, h2⟩ := MsgReach.sim hC hr
    exact ih.step h2 (DistInv.reach hC.legal.domains hC.legal.size hC.legal.hand h1) hs

end Asagi
