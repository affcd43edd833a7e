import Verif.Proofs.CacheDistLive
/-
The directory with the communication thread: which slots are announced, and what the directory and
the messages on the way say about them.
-/
namespace Asagi
open Spec
variable {β : Type} {P : DistParams β} {st st' : DistState β}

/-! ### Announced slots -/

/-- The block for which the slot of a thread is announced, for a thread with block `b`. -/
def pubClass (b : Nat) : Phase β → Option Nat
  | .del old => old
  | .use | .out _ => some b
  | _ => none

/-- Nobody has the lock of the slot for its own access. -/
def Free (P : DistParams β) (st : DistState β) (d s : Nat) : Prop :=
  ∀ t b off ph, st.pc (.user t) = .own b off s ph → P.dom t ≠ d

/-- The last message of the owner about slot `s` of domain `d` and block `b` was an announcement. -/
def Announced (P : DistParams β) (st : DistState β) (d s b : Nat) : Prop :=
  (Free P st d s ∧ Assigned P st d s b) ∨
  ∃ t b' off ph, st.pc (.user t) = .own b' off s ph ∧ P.dom t = d ∧ pubClass b' ph = some b

namespace DistInv

theorem announced_held (h : DistInv P st) {t b off s x : Nat} {ph : Phase β}
    (hp : st.pc (.user t) = .own b off s ph) :
    Announced P st (P.dom t) s x ↔ pubClass b ph = some x := by
  constructor
  · rintro (⟨hf, _⟩ | ⟨u, b', off', ph', hu, hd, hc⟩)
    · exact absurd rfl (hf t b off ph hp)
    · have := h.own_unique hu hp hd
      subst this
      rw [hp] at hu
      injection hu with e1 e2 e3 e4
      subst e1 e4; exact hc
  · intro hc; exact .inr ⟨t, b, off, ph, hp, rfl, hc⟩

theorem announced_free {d s x : Nat} (hf : Free P st d s) :
    Announced P st d s x ↔ Assigned P st d s x := by
  constructor
  · rintro (⟨_, ha⟩ | ⟨u, b', off', ph', hu, hd, hc⟩)
    · exact ha
    · exact absurd hd (hf u _ _ _ hu)
  · intro ha; exact .inl ⟨hf, ha⟩

end DistInv

/-- Nothing changes for the slot. -/
theorem announced_frame {d s x : Nat} (ha : Assigned P st' d s x ↔ Assigned P st d s x)
    (hh : ∀ u b off ph, P.dom u = d →
      (st'.pc (.user u) = .own b off s ph ↔ st.pc (.user u) = .own b off s ph)) :
    Announced P st' d s x ↔ Announced P st d s x := by
  have hf : Free P st' d s ↔ Free P st d s := by
    constructor
    · intro hf u b off ph hp hd; exact hf u b off ph ((hh u b off ph hd).2 hp) hd
    · intro hf u b off ph hp hd; exact hf u b off ph ((hh u b off ph hd).1 hp) hd
  unfold Announced
  rw [hf, ha]
  constructor
  · rintro (h1 | ⟨u, b', off', ph', hu, hd, hc⟩)
    · exact .inl h1
    · exact .inr ⟨u, b', off', ph', (hh u _ _ _ hd).1 hu, hd, hc⟩
  · rintro (h1 | ⟨u, b', off', ph', hu, hd, hc⟩)
    · exact .inl h1
    · exact .inr ⟨u, b', off', ph', (hh u _ _ _ hd).2 hu, hd, hc⟩

/-- A change of phase. -/
theorem OwnStep.announced {t b off s : Nat} {ph ph' : Phase β}
    (o : OwnStep P st st' t b off s ph ph') (h' : DistInv P st') (d s1 x : Nat) :
    Announced P st' d s1 x ↔
      if d = P.dom t ∧ s1 = s then pubClass b ph' = some x else Announced P st d s1 x := by
  split
  · next e => obtain ⟨rfl, rfl⟩ := e; exact h'.announced_held o.pc_self
  · next e =>
    refine announced_frame (o.assigned d s1 x) ?_
    intro u b1 off1 ph1 hd
    by_cases hu : u = t
    · subst hu
      rw [o.pc_self, o.hpc]
      constructor
      · intro e1; injection e1 with _ _ e3; exact absurd ⟨hd.symm, e3.symm⟩ e
      · intro e1; injection e1 with _ _ e3; exact absurd ⟨hd.symm, e3.symm⟩ e
    · rw [o.pc_other hu]

/-- A change of phase without a message. -/
theorem OwnStep.announced_same {t b off s : Nat} {ph ph' : Phase β}
    (o : OwnStep P st st' t b off s ph ph') (h : DistInv P st) (h' : DistInv P st')
    (hc : pubClass b ph' = pubClass b ph) (d s1 x : Nat) :
    Announced P st' d s1 x ↔ Announced P st d s1 x := by
  rw [o.announced h']
  split
  · next e => obtain ⟨rfl, rfl⟩ := e; rw [hc, h.announced_held o.hpc]
  · rfl

/-- The effect of the step of a thread on announcements and messages. -/
inductive NetEffect (P : DistParams β) (t : Nat) (st st' : DistState β) : Prop
  /-- no message -/
  | same (edir : st'.dir = st.dir) (enet : st'.net = st.net)
      (ha : ∀ d s x, Announced P st' d s x ↔ Announced P st d s x)
  /-- the slot `s` is withdrawn for block `x` -/
  | delete (s x : Nat) (hs : s < P.size)
      (edir : st'.dir = (st.sendOp P (P.rankOf (P.dom t)) x (.delete (P.entry (P.dom t) s))).dir)
      (enet : st'.net = (st.sendOp P (P.rankOf (P.dom t)) x (.delete (P.entry (P.dom t) s))).net)
      (h0 : Announced P st (P.dom t) s x)
      (ha : ∀ d s' x', Announced P st' d s' x' ↔
        Announced P st d s' x' ∧ ¬ (d = P.dom t ∧ s' = s ∧ x' = x))
  /-- the slot `s` is announced for block `x` -/
  | add (s x : Nat) (hs : s < P.size)
      (edir : st'.dir = (st.sendOp P (P.rankOf (P.dom t)) x (.add (P.entry (P.dom t) s))).dir)
      (enet : st'.net = (st.sendOp P (P.rankOf (P.dom t)) x (.add (P.entry (P.dom t) s))).net)
      (h0 : ¬ Announced P st (P.dom t) s x)
      (ha : ∀ d s' x', Announced P st' d s' x' ↔
        Announced P st d s' x' ∨ (d = P.dom t ∧ s' = s ∧ x' = x))

theorem OwnStep.effect_add {t b off s : Nat} {ph ph' : Phase β}
    (o : OwnStep P st st' t b off s ph ph') (h : DistInv P st) (h' : DistInv P st')
    (hc : pubClass b ph = none) (hc' : pubClass b ph' = some b)
    (edir : st'.dir = (st.sendOp P (P.rankOf (P.dom t)) b (.add (P.entry (P.dom t) s))).dir)
    (enet : st'.net = (st.sendOp P (P.rankOf (P.dom t)) b (.add (P.entry (P.dom t) s))).net) :
    NetEffect P t st st' := by
  refine .add s b (h.own t b off s ph o.hpc).2.1 edir enet ?_ ?_
  · rw [h.announced_held o.hpc, hc]; nofun
  · intro d s' x'
    rw [o.announced h']
    split
    · next e =>
      obtain ⟨rfl, rfl⟩ := e
      rw [hc', h.announced_held o.hpc, hc]
      simp [eq_comm]
    · next e =>
      constructor
      · exact .inl
      · rintro (h1 | ⟨h1, h2, _⟩)
        · exact h1
        · exact absurd ⟨h1, h2⟩ e

theorem OwnStep.effect_delete {t b off s x : Nat} {ph ph' : Phase β}
    (o : OwnStep P st st' t b off s ph ph') (h : DistInv P st) (h' : DistInv P st')
    (hc : pubClass b ph = some x) (hc' : pubClass b ph' = none)
    (edir : st'.dir = (st.sendOp P (P.rankOf (P.dom t)) x (.delete (P.entry (P.dom t) s))).dir)
    (enet : st'.net = (st.sendOp P (P.rankOf (P.dom t)) x (.delete (P.entry (P.dom t) s))).net) :
    NetEffect P t st st' := by
  refine .delete s x (h.own t b off s ph o.hpc).2.1 edir enet ?_ ?_
  · rw [h.announced_held o.hpc, hc]
  · intro d s' x'
    rw [o.announced h']
    split
    · next e =>
      obtain ⟨rfl, rfl⟩ := e
      rw [hc', h.announced_held o.hpc, hc]
      simp [eq_comm]
    · next e =>
      constructor
      · intro h1; exact ⟨h1, fun ⟨h2, h3, _⟩ => e ⟨h2, h3⟩⟩
      · exact fun h1 => h1.1

theorem lockSlot_announced (h : DistInv P st) {t b off s : Nat} {old : Option Nat}
    (hp : st.pc (.user t) = .wantSlot b off s old) (hl : st.lk (P.dom t, s) = none)
    (h' : DistInv P st') (ecl : st'.cl = st.cl)
    (epc : st'.pc = upd st.pc (.user t) (.own b off s (if old = some b then .use else .del old)))
    (d s1 x : Nat) : Announced P st' d s1 x ↔ Announced P st d s1 x := by
  have hself : st'.pc (.user t) = .own b off s (if old = some b then .use else .del old) := by
    rw [epc, upd_self]
  have hoth : ∀ u, u ≠ t → st'.pc (.user u) = st.pc (.user u) := fun u hx => by rw [epc, upd_uu hx]
  by_cases hne : d = P.dom t ∧ s1 = s
  · obtain ⟨rfl, rfl⟩ := hne
    rw [h'.announced_held hself]
    have hf : Free P st (P.dom t) s1 := by
      intro u b1 off1 ph1 hx hd
      have := h.lk_own hx
      rw [hd, hl] at this; cases this
    rw [DistInv.announced_free hf]
    have e1 : pubClass b (if old = some b then (Phase.use : Phase β) else .del old) = old := by
      split
      · next e => exact e.symm
      · rfl
    rw [e1]
    constructor
    · intro e; exact .inl ⟨t, b, off, by rw [hp, e], rfl⟩
    · rintro (⟨u, b2, off2, hx, hd⟩ | ⟨hn, _⟩)
      · have := h.want_unique hx hp hd
        subst this
        rw [hp] at hx; injection hx
      · exact absurd rfl (hn t b off old hp)
  · refine announced_frame ?_ ?_
    · unfold Assigned Idx
      rw [ecl]
      have key : ∀ u b2 off2 old2, P.dom u = d →
          (st'.pc (.user u) = .wantSlot b2 off2 s1 old2 ↔ st.pc (.user u) = .wantSlot b2 off2 s1 old2) := by
        intro u b2 off2 old2 hd
        by_cases e : u = t
        · subst e
          rw [hself, hp]
          constructor
          · nofun
          · intro e; injection e with _ _ e3; exact absurd ⟨hd.symm, e3.symm⟩ hne
        · rw [hoth u e]
      constructor
      · rintro (⟨u, b2, off2, hx, hd⟩ | ⟨hn, hi⟩)
        · exact .inl ⟨u, b2, off2, (key u b2 off2 _ hd).1 hx, hd⟩
        · exact .inr ⟨fun u b2 off2 old2 hx hd => hn u b2 off2 old2 ((key u b2 off2 _ hd).2 hx) hd, hi⟩
      · rintro (⟨u, b2, off2, hx, hd⟩ | ⟨hn, hi⟩)
        · exact .inl ⟨u, b2, off2, (key u b2 off2 _ hd).2 hx, hd⟩
        · exact .inr ⟨fun u b2 off2 old2 hx hd => hn u b2 off2 old2 ((key u b2 off2 _ hd).1 hx) hd, hi⟩
    · intro u b1 off1 ph1 hd
      by_cases e : u = t
      · subst e
        rw [hself, hp]
        constructor
        · intro e1; injection e1 with _ _ e3; exact absurd ⟨hd.symm, e3.symm⟩ hne
        · nofun
      · rw [hoth u e]

theorem unlock_announced (h : DistInv P st) {t b off s : Nat} {v : β}
    (hp : st.pc (.user t) = .own b off s (.out v)) (ecl : st'.cl = st.cl)
    (epc : st'.pc = upd st.pc (.user t) .idle) (d s1 x : Nat) :
    Announced P st' d s1 x ↔ Announced P st d s1 x := by
  have hself : st'.pc (.user t) = .idle := by rw [epc, upd_self]
  have hoth : ∀ u, u ≠ t → st'.pc (.user u) = st.pc (.user u) := fun u hx => by rw [epc, upd_uu hx]
  have ha : Assigned P st' d s1 x ↔ Assigned P st d s1 x := by
    refine assigned_frame ecl ?_ d s1 x
    intro u b1 off1 s1 old
    by_cases e : u = t
    · subst e; rw [hself, hp]; simp
    · rw [hoth u e]
  by_cases hne : d = P.dom t ∧ s1 = s
  · obtain ⟨rfl, rfl⟩ := hne
    rw [h.announced_held hp]
    have hf : Free P st' (P.dom t) s1 := by
      intro u b1 off1 ph1 hx hd
      by_cases e : u = t
      · subst e; rw [hself] at hx; cases hx
      · rw [hoth u e] at hx; exact e (h.own_unique hx hp hd)
    rw [DistInv.announced_free hf, ha]
    constructor
    · intro h1
      rw [h.assigned_unique h1 (h.own t b off s1 _ hp).2.2]; rfl
    · intro h1
      injection h1 with h1
      subst h1; exact (h.own t b off s1 _ hp).2.2
  · refine announced_frame ha ?_
    intro u b1 off1 ph1 hd
    by_cases e : u = t
    · subst e
      rw [hself, hp]
      constructor
      · nofun
      · intro e1; injection e1 with _ _ e3; exact absurd ⟨hd.symm, e3.symm⟩ hne
    · rw [hoth u e]

/-- Every step of a thread. -/
theorem user_effect (hD : 0 < P.domains) (hm : P.mode = .thread) (h : DistInv P st) {t : Nat}
    (hs : UserStep P t st st') : NetEffect P t st st' := by
  have h' := h.user_inv hD hs
  cases hs with
  | call _ _ b off hp =>
    refine .same rfl rfl fun d s x => announced_frame (assigned_frame (by rfl) ?_ d s x) ?_
    · intro u b1 off1 s1 old
      show upd st.pc _ _ _ = _ ↔ _
      by_cases e : u = t
      · subst e; rw [upd_self, hp]; simp
      · rw [upd_uu e]
    · intro u b1 off1 ph1 _
      show upd st.pc _ _ _ = _ ↔ _
      by_cases e : u = t
      · subst e; rw [upd_self, hp]; simp
      · rw [upd_uu e]
  | lookup _ _ b off s c' old hp hc hg =>
    refine .same rfl rfl fun d s x => announced_frame (h.lookup_assigned hp hc hg d s x) ?_
    intro u b1 off1 ph1 _
    show upd st.pc _ _ _ = _ ↔ _
    by_cases e : u = t
    · subst e; rw [upd_self, hp]; simp
    · rw [upd_uu e]
  | lockSlot _ _ b off s old hp hl =>
    exact .same rfl rfl (lockSlot_announced h hp hl h' rfl rfl)
  | unlock _ _ b off s v hp => exact .same rfl rfl (unlock_announced h hp rfl rfl)
  | delThread _ _ b off s o hp h1 =>
    refine OwnStep.effect_delete (ph' := .numa 0) ⟨hp, ?_, ?_, fun _ => rfl⟩ h h' rfl rfl rfl rfl
    · simp only [DistState.goto, sendOp_pc]
    · simp only [DistState.goto, sendOp_cl]
  | addThread _ _ b off s hp h1 =>
    refine OwnStep.effect_add (ph' := .use) ⟨hp, ?_, ?_, nofun⟩ h h' rfl rfl rfl rfl
    · simp only [DistState.goto, sendOp_pc]
    · simp only [DistState.goto, sendOp_cl]
  | finThread _ _ b off s hp h1 =>
    refine OwnStep.effect_add (ph' := .use) ⟨hp, ?_, ?_, nofun⟩ h h' rfl rfl rfl rfl
    · simp only [DistState.goto, sendOp_pc]
    · simp only [DistState.goto, sendOp_cl]
  | delSkip _ _ b1 off1 s o hp h1 =>
    have : o = none := by
      rcases h1 with h1 | h1
      · exact h1
      · rw [hm] at h1; cases h1
    subst this
    exact .same rfl rfl (OwnStep.announced_same ⟨hp, rfl, rfl, fun _ => rfl⟩ h h' rfl)
  | delWin _ _ b1 off1 s o hp h1 | addWin _ _ b1 off1 s hp h1 | startWin _ _ b1 off1 s rnd hp h1
  | addNone _ _ b1 off1 s hp h1 | startNone _ _ b1 off1 s hp h1
  | xferWin _ _ b1 off1 s e hp h1 | finNone _ _ b1 off1 s hp h1 | finWin _ _ b1 off1 s hp h1 =>
    rw [hm] at h1; cases h1
  | delWinEnd _ _ b1 off1 s o hp =>
    have := h.phase t b1 off1 s _ hp
    rw [show P.mode = .window from this] at hm; cases hm
  | addWinEnd _ _ b1 off1 s hp =>
    have := h.phase t b1 off1 s _ hp
    rw [show P.mode = .window from this] at hm; cases hm
  | numaOwn _ _ b1 off1 s o hp | numaBusy _ _ b1 off1 s o hp
  | numaEnd _ _ b1 off1 s o hp
  | numaTry _ _ b1 off1 s o hp | numaMiss _ _ b1 off1 s o hp | numaHit _ _ b1 off1 s o o2 hp
  | numaCell _ _ b1 off1 s o o2 o3 hp
  | startThread _ _ b1 off1 s rnd hp
  | xferNone _ _ b1 off1 s e hp | xferThread _ _ b1 off1 s e hp
  | askFail _ _ b1 off1 s r hp | askDone _ _ b1 off1 s r buf hp
  | copyCell _ _ b1 off1 s e k hp
  | recvCell _ _ b1 off1 s k buf hp
  | loadCell _ _ b1 off1 s k v hp =>
    exact .same rfl rfl (OwnStep.announced_same ⟨hp, rfl, rfl, fun _ => rfl⟩ h h' rfl)
  | numaDone _ _ b1 off1 s o o2 o3 hp
  | copyDone _ _ b1 off1 s e k hp | recvDone _ _ b1 off1 s k buf hp | loadDone _ _ b1 off1 s k hp
  | convert _ _ b1 off1 s hp =>
    exact .same rfl rfl (OwnStep.announced_same ⟨hp, rfl, rfl, nofun⟩ h h' rfl)

/-- The communication threads do not change what is announced. -/
theorem comm_announced {r : Nat} (hs : CommStep P r st st') (d s x : Nat) :
    Announced P st' d s x ↔ Announced P st d s x := by
  have ecl : st'.cl = st.cl := by cases hs <;> rfl
  have epc : ∀ u, st'.pc (.user u) = st.pc (.user u) := fun u => comm_other hs nofun
  exact announced_frame (assigned_frame ecl (fun u b off s old => by rw [epc]) d s x)
    (fun u b off ph _ => by rw [epc])

/-! ### The directory and the messages on the way -/

/-- The messages about block `b` and entry `e` in a queue. -/
def aboutOps (b e : Nat) (q : List (Nat × DictOp)) : List DictOp :=
  (q.filter fun m => m.1 == b && (m.2 == .add e || m.2 == .delete e)).map (·.2)

/-- Announcements and withdrawals alternate, from `x` to `y`. -/
def Alt (e : Nat) : Bool → List DictOp → Bool → Prop
  | x, [], y => x = y
  | x, .add e' :: q, y => e' = e ∧ x = false ∧ Alt e true q y
  | x, .delete e' :: q, y => e' = e ∧ x = true ∧ Alt e false q y

theorem Alt.snoc_add {e : Nat} {x : Bool} {q : List DictOp} (h : Alt e x q false) :
    Alt e x (q ++ [.add e]) true := by
  induction q generalizing x with
  | nil => exact ⟨rfl, h, rfl⟩
  | cons o q ih => cases o <;> exact ⟨h.1, h.2.1, ih h.2.2⟩

theorem Alt.snoc_delete {e : Nat} {x : Bool} {q : List DictOp} (h : Alt e x q true) :
    Alt e x (q ++ [.delete e]) false := by
  induction q generalizing x with
  | nil => exact ⟨rfl, h, rfl⟩
  | cons o q ih => cases o <;> exact ⟨h.1, h.2.1, ih h.2.2⟩

/-- The entry of a message. -/
def opEntry : DictOp → Nat
  | .add e => e
  | .delete e => e

structure ThrInv (P : DistParams β) (st : DistState β) : Prop where
  /-- entries of the directory are different slots -/
  dir : ∀ b, ∃ L, st.dir b = enc dictEntrySize L ∧ L.Nodup ∧ L.length ≤ dictEntrySize ∧
    ∀ e ∈ L, ∃ d s, s < P.size ∧ e = P.entry d s
  /-- messages on the way go to the process with the directory entry, from the owner of the slot -/
  src : ∀ r r' b op, (b, op) ∈ st.net r r' → r' = P.home b ∧ r' ≠ r ∧
    ∃ d s, s < P.size ∧ P.rankOf d = r ∧ opEntry op = P.entry d s
  /-- announcements and withdrawals alternate and end with the current state -/
  alt : ∀ d s b, s < P.size → ∃ x : Bool, ((P.entry d s : Int) ∈ st.dir b → x = true) ∧
    ∃ y : Bool, (y = true ↔ Announced P st d s b) ∧
      Alt (P.entry d s) x (aboutOps b (P.entry d s) (st.net (P.rankOf d) (P.home b))) y

theorem aboutOps_append (b e : Nat) (q q' : List (Nat × DictOp)) :
    aboutOps b e (q ++ q') = aboutOps b e q ++ aboutOps b e q' := by
  simp [aboutOps]

theorem aboutOps_one (b e b' : Nat) (op : DictOp) :
    aboutOps b e [(b', op)] = if b' = b ∧ opEntry op = e then [op] else [] := by
  unfold aboutOps
  cases op <;> by_cases h1 : b' = b <;> simp [opEntry, h1] <;> split <;> simp_all

/-- What an update of the directory can add. -/
theorem ownersStep_mem {n : Nat} {L : List Nat} {op : DictOp} {e : Nat} (h : e ∈ ownersStep n L op) :
    e ∈ L ∨ op = .add e := by
  cases op with
  | add e' =>
    rcases List.mem_cons.1 (List.mem_of_mem_take h) with rfl | h
    · exact .inr rfl
    · exact .inl h
  | delete e' =>
    simp only [ownersStep] at h
    split at h
    · exact .inl (List.mem_of_mem_erase h)
    · exact .inl (List.mem_of_mem_take h)

theorem ownersStep_nodup {n : Nat} {L : List Nat} {op : DictOp} (h : L.Nodup)
    (ha : ∀ e, op = .add e → e ∉ L) : (ownersStep n L op).Nodup := by
  cases op with
  | add e' => exact (List.nodup_cons.2 ⟨ha e' rfl, h⟩).sublist (List.take_sublist _ _)
  | delete e' =>
    simp only [ownersStep]
    split
    · exact h.erase _
    · exact h.sublist (List.take_sublist _ _)

theorem ownersStep_delete {n : Nat} {L : List Nat} {e : Nat} (h : L.Nodup) :
    e ∉ ownersStep n L (.delete e) := by
  simp only [ownersStep]
  split
  · exact h.not_mem_erase
  · next hn => exact fun hx => hn (List.mem_of_mem_take hx)

/-- The directory after an update. -/
theorem ThrInv.dir_step (h : ThrInv P st) {b d s : Nat} {op : DictOp} (hs : s < P.size)
    (he : opEntry op = P.entry d s) (ha : ∀ e, op = .add e → (e : Int) ∉ st.dir b) :
    ∃ L, dictStep (st.dir b) op = enc dictEntrySize L ∧ L.Nodup ∧ L.length ≤ dictEntrySize ∧
      (∀ e ∈ L, ∃ d s, s < P.size ∧ e = P.entry d s) ∧
      (∀ e ∈ L, (e : Int) ∈ st.dir b ∨ op = .add e) ∧ ∀ e, op = .delete e → e ∉ L := by
  obtain ⟨L, h1, h2, h3, h4⟩ := h.dir b
  rw [h1, dictStep_enc (by decide) h3]
  refine ⟨_, rfl, ownersStep_nodup h2 ?_, ownersStep_length h3 op, ?_, ?_, ?_⟩
  · intro e ho he; exact ha e ho (by rw [h1]; exact enc_mem.2 he)
  · intro e hx
    rcases ownersStep_mem hx with hx | hx
    · exact h4 e hx
    · subst hx; exact ⟨d, s, hs, he⟩
  · intro e hx
    rcases ownersStep_mem hx with hx | hx
    · exact .inl (enc_mem.2 hx)
    · exact .inr hx
  · intro e ho; subst ho; exact ownersStep_delete h2

/-- A new message. `y` is the new state of the slot. -/
theorem ThrInv.send (h : ThrInv P st) (hD : 0 < P.domains) {d0 s0 b0 : Nat} {op : DictOp} (y : Bool)
    (hs : s0 < P.size) (he : opEntry op = P.entry d0 s0)
    (hop : op = if y then .add (P.entry d0 s0) else .delete (P.entry d0 s0))
    (edir : st'.dir = (st.sendOp P (P.rankOf d0) b0 op).dir)
    (enet : st'.net = (st.sendOp P (P.rankOf d0) b0 op).net)
    (h0 : Announced P st d0 s0 b0 ↔ y = false)
    (ha : ∀ d s b, Announced P st' d s b ↔
      if d = d0 ∧ s = s0 ∧ b = b0 then y = true else Announced P st d s b) : ThrInv P st' := by
  have hsnoc : ∀ x q, Alt (P.entry d0 s0) x q (!y) → Alt (P.entry d0 s0) x (q ++ [op]) y := by
    intro x q hq
    subst hop
    cases y
    · exact hq.snoc_delete
    · exact hq.snoc_add
  by_cases hh : P.home b0 = P.rankOf d0
  · -- the own directory
    have edir' : st'.dir = upd st.dir b0 (dictStep (st.dir b0) op) := by
      rw [edir]; unfold DistState.sendOp; rw [if_pos hh]
    have enet' : st'.net = st.net := by
      rw [enet]; unfold DistState.sendOp; rw [if_pos hh]
    -- no messages of this process to itself
    have hq : ∀ d s, P.rankOf d = P.rankOf d0 →
        aboutOps b0 (P.entry d s) (st.net (P.rankOf d) (P.home b0)) = [] := by
      intro d s hd
      have : st.net (P.rankOf d) (P.home b0) = [] := by
        apply List.eq_nil_iff_forall_not_mem.2
        rintro ⟨b1, o1⟩ hm
        exact (h.src _ _ _ _ hm).2.1 (hh.trans hd.symm)
      rw [this]; rfl
    have hadd : ∀ e, op = .add e → (e : Int) ∉ st.dir b0 := by
      intro e ho hin
      subst ho
      obtain rfl : e = P.entry d0 s0 := he
      have hy : y = true := by cases y with
        | true => rfl
        | false => simp at hop
      obtain ⟨x, hx, y0, hy0, halt⟩ := h.alt d0 s0 b0 hs
      rw [hq d0 s0 rfl] at halt
      have hxy : x = y0 := halt
      have := hy0.1 (hxy ▸ hx hin)
      rw [h0.1 this] at hy; cases hy
    obtain ⟨L, g1, g2, g3, g4, g5, g6⟩ := h.dir_step hs he hadd
    refine ⟨?_, ?_, ?_⟩
    · intro b
      rw [edir']
      by_cases hb : b = b0
      · subst hb; rw [upd_self]; exact ⟨L, g1, g2, g3, g4⟩
      · rw [upd_ne _ _ hb]; exact h.dir b
    · rw [enet']; exact h.src
    · intro d s b hslt
      obtain ⟨x, hx, y0, hy0, halt⟩ := h.alt d s b hslt
      rw [enet', ha, edir']
      by_cases hb : b = b0
      · subst hb
        rw [upd_self, g1, enc_mem]
        by_cases hds : d = d0 ∧ s = s0
        · obtain ⟨rfl, rfl⟩ := hds
          rw [hq d s rfl, if_pos ⟨rfl, rfl, rfl⟩]
          refine ⟨y, fun hin => ?_, y, Iff.rfl, rfl⟩
          cases y with
          | true => rfl
          | false => exact absurd hin (g6 _ hop)
        · rw [if_neg (fun h => hds ⟨h.1, h.2.1⟩)]
          refine ⟨x, fun hin => ?_, y0, hy0, halt⟩
          rcases g5 _ hin with h1 | h1
          · exact hx h1
          · rw [h1] at he
            exact absurd (entry_inj hD hslt hs he) hds
      · rw [upd_ne _ _ hb, if_neg (fun h => hb h.2.2)]
        exact ⟨x, hx, y0, hy0, halt⟩
  · -- a message
    have edir' : st'.dir = st.dir := by
      rw [edir]; unfold DistState.sendOp; rw [if_neg hh]
    have enet' : st'.net = upd st.net (P.rankOf d0) (upd (st.net (P.rankOf d0)) (P.home b0)
        (st.net (P.rankOf d0) (P.home b0) ++ [(b0, op)])) := by
      rw [enet]; unfold DistState.sendOp; rw [if_neg hh]
    refine ⟨by rw [edir']; exact h.dir, ?_, ?_⟩
    · intro r r' b o hm
      rw [enet'] at hm
      by_cases e1 : r = P.rankOf d0
      · subst e1
        rw [upd_self] at hm
        by_cases e2 : r' = P.home b0
        · subst e2
          rw [upd_self] at hm
          rcases List.mem_append.1 hm with hm | hm
          · exact h.src _ _ _ _ hm
          · rw [List.mem_singleton] at hm
            injection hm with e3 e4
            subst e3 e4
            exact ⟨rfl, hh, d0, s0, hs, rfl, he⟩
        · rw [upd_ne _ _ e2] at hm; exact h.src _ _ _ _ hm
      · rw [upd_ne _ _ e1] at hm; exact h.src _ _ _ _ hm
    · intro d s b hslt
      obtain ⟨x, hx, y0, hy0, halt⟩ := h.alt d s b hslt
      rw [ha, edir']
      by_cases hds : d = d0 ∧ s = s0 ∧ b = b0
      · obtain ⟨rfl, rfl, rfl⟩ := hds
        rw [if_pos ⟨rfl, rfl, rfl⟩, enet', upd_self, upd_self, aboutOps_append, aboutOps_one,
          if_pos ⟨rfl, he⟩]
        refine ⟨x, hx, y, Iff.rfl, hsnoc _ _ ?_⟩
        have : y0 = !y := by
          cases y with
          | true =>
            cases y0 with
            | false => rfl
            | true => have := h0.1 (hy0.1 rfl); cases this
          | false =>
            cases y0 with
            | true => rfl
            | false => have := hy0.2 (h0.2 rfl); cases this
        rw [← this]; exact halt
      · rw [if_neg hds]
        refine ⟨x, hx, y0, hy0, ?_⟩
        have : aboutOps b (P.entry d s) (st'.net (P.rankOf d) (P.home b)) =
            aboutOps b (P.entry d s) (st.net (P.rankOf d) (P.home b)) := by
          rw [enet']
          by_cases e1 : P.rankOf d = P.rankOf d0
          · rw [e1, upd_self]
            by_cases e2 : P.home b = P.home b0
            · rw [e2, upd_self, aboutOps_append, aboutOps_one, if_neg, List.append_nil]
              rintro ⟨e3, e4⟩
              rw [he] at e4
              obtain ⟨e5, e6⟩ := entry_inj hD hs hslt e4
              exact hds ⟨e5.symm, e6.symm, e3.symm⟩
            · rw [upd_ne _ _ e2]
          · rw [upd_ne _ _ e1]
        rw [this]; exact halt

theorem ThrInv.frame (h : ThrInv P st) (edir : st'.dir = st.dir) (enet : st'.net = st.net)
    (ha : ∀ d s b, Announced P st' d s b ↔ Announced P st d s b) : ThrInv P st' := by
  refine ⟨by rw [edir]; exact h.dir, by rw [enet]; exact h.src, ?_⟩
  intro d s b hs
  rw [edir, enet, ha]; exact h.alt d s b hs

theorem ThrInv.user (h : ThrInv P st) (hD : 0 < P.domains) {t : Nat} (he : NetEffect P t st st') :
    ThrInv P st' := by
  cases he with
  | same edir enet ha => exact h.frame edir enet ha
  | delete s x hs edir enet h0 ha =>
    refine h.send hD false hs rfl rfl edir enet ⟨fun _ => rfl, fun _ => h0⟩ ?_
    intro d s' b
    rw [ha]
    split
    · next e => constructor
                · exact fun h1 => absurd e h1.2
                · nofun
    · next e => exact ⟨fun h1 => h1.1, fun h1 => ⟨h1, e⟩⟩
  | add s x hs edir enet h0 ha =>
    refine h.send hD true hs rfl rfl edir enet ⟨fun h1 => absurd h1 h0, nofun⟩ ?_
    intro d s' b
    rw [ha]
    split
    · next e => exact ⟨fun _ => rfl, fun _ => .inr e⟩
    · next e => exact ⟨fun h1 => h1.resolve_right e, .inl⟩

/-- A message arrives. -/
theorem ThrInv.comm (h : ThrInv P st) (hD : 0 < P.domains) {r : Nat} (hs : CommStep P r st st') :
    ThrInv P st' := by
  have ha := comm_announced (P := P) hs
  cases hs with
  | deliver _ _ src b op rest hp hn =>
    obtain ⟨hh, hne, d0, s0, hs0, hr0, he⟩ := h.src src r b op (by rw [hn]; exact .head _)
    subst hr0 hh
    -- the queue before, for the entry of the message
    have hq : ∀ d s x, s < P.size → P.rankOf d = P.rankOf d0 → P.home x = P.home b →
        aboutOps x (P.entry d s) (st.net (P.rankOf d) (P.home x)) =
          (if b = x ∧ opEntry op = P.entry d s then [op] else []) ++ aboutOps x (P.entry d s) rest := by
      intro d s x _ e1 e2
      rw [e1, e2, hn, ← aboutOps_one, ← aboutOps_append]; rfl
    have hadd : ∀ e, op = .add e → (e : Int) ∉ st.dir b := by
      intro e ho hin
      obtain ⟨x, hx, y0, hy0, halt⟩ := h.alt d0 s0 b hs0
      rw [hq d0 s0 b hs0 rfl rfl, if_pos ⟨rfl, he⟩] at halt
      subst ho
      obtain rfl : e = P.entry d0 s0 := he
      have := halt.2.1
      rw [hx hin] at this; cases this
    obtain ⟨L, g1, g2, g3, g4, g5, g6⟩ := h.dir_step hs0 he hadd
    refine ⟨?_, ?_, ?_⟩
    · intro b1
      show ∃ L, upd st.dir _ _ b1 = _ ∧ _
      by_cases hb : b1 = b
      · subst hb; rw [upd_self]; exact ⟨L, g1, g2, g3, g4⟩
      · rw [upd_ne _ _ hb]; exact h.dir b1
    · intro r1 r2 b1 o1 hm
      replace hm : (b1, o1) ∈ upd st.net (P.rankOf d0) (upd (st.net (P.rankOf d0)) (P.home b) rest) r1 r2 := hm
      by_cases e1 : r1 = P.rankOf d0
      · subst e1
        rw [upd_self] at hm
        by_cases e2 : r2 = P.home b
        · subst e2
          rw [upd_self] at hm
          exact h.src _ _ _ _ (by rw [hn]; exact List.mem_cons_of_mem _ hm)
        · rw [upd_ne _ _ e2] at hm; exact h.src _ _ _ _ hm
      · rw [upd_ne _ _ e1] at hm; exact h.src _ _ _ _ hm
    · intro d s b1 hslt
      rw [ha]
      obtain ⟨x, hx, y0, hy0, halt⟩ := h.alt d s b1 hslt
      show ∃ x, ((P.entry d s : Int) ∈ upd st.dir b _ b1 → _) ∧ ∃ y, _ ∧ Alt _ x (aboutOps b1 _
        (upd st.net (P.rankOf d0) (upd (st.net (P.rankOf d0)) (P.home b) rest) (P.rankOf d) (P.home b1))) y
      by_cases hb : b1 = b ∧ opEntry op = P.entry d s
      · obtain ⟨rfl, e1⟩ := hb
        obtain ⟨rfl, rfl⟩ := entry_inj hD hs0 hslt (he.symm.trans e1)
        rw [hq d0 s0 b1 hs0 rfl rfl, if_pos ⟨rfl, he⟩] at halt
        rw [upd_self, upd_self, upd_self, g1, enc_mem]
        cases op with
        | add e2 =>
          obtain ⟨_, _, halt⟩ := halt
          exact ⟨true, fun _ => rfl, y0, hy0, halt⟩
        | delete e2 =>
          obtain ⟨_, _, halt⟩ := halt
          obtain rfl : e2 = P.entry d0 s0 := he
          exact ⟨false, fun hin => absurd hin (g6 _ rfl), y0, hy0, halt⟩
      · refine ⟨x, ?_, y0, hy0, ?_⟩
        · intro hin
          by_cases e : b1 = b
          · subst e
            rw [upd_self, g1, enc_mem] at hin
            rcases g5 _ hin with h1 | h1
            · exact hx h1
            · exact absurd ⟨rfl, by rw [h1]; rfl⟩ hb
          · rw [upd_ne _ _ e] at hin; exact hx hin
        · by_cases e1 : P.rankOf d = P.rankOf d0
          · by_cases e2 : P.home b1 = P.home b
            · rw [hq d s b1 hslt e1 e2, if_neg (fun h => hb ⟨h.1.symm, h.2⟩), List.nil_append] at halt
              rw [e1, e2, upd_self, upd_self]; exact halt
            · rw [e1, upd_self, upd_ne _ _ e2, ← e1]; exact halt
          · rw [upd_ne _ _ e1]; exact halt
  | _ => exact h.frame rfl rfl ha

theorem ThrInv.reach (hl : Legal P) (hm : P.mode = .thread) (h : DistReach P st) : ThrInv P st := by
  induction h with
  | init h =>
    obtain ⟨c, hc, rfl⟩ := h
    obtain ⟨c0, h0, e0, hinv, hsz, _, hidx, _⟩ := CacheList.init_inv hl.size hl.hand
    rw [hc] at e0; injection e0 with e0; subst e0
    refine ⟨fun b => ⟨[], by simp [DistState.start, dictInit_eq], List.nodup_nil, Nat.zero_le _, nofun⟩,
      nofun, ?_⟩
    intro d s b hs
    refine ⟨false, ?_, false, ?_, rfl⟩
    · intro hin
      have : (P.entry d s : Int) ∈ enc dictEntrySize [] := by rw [← dictInit_eq]; exact hin
      rw [enc_mem] at this; cases this
    · constructor
      · nofun
      · rintro (⟨_, ⟨t, b', off, hp, _⟩ | ⟨_, hi⟩⟩ | ⟨t, b', off, ph, hp, _⟩)
        · cases hp
        · simp [Idx, DistState.start, hidx, List.getElem?_replicate] at hi
        · cases hp
  | @step s1 s2 h1 hs ih =>
    cases hs with
    | user t hu =>
      exact ih.user hl.domains (user_effect hl.domains hm
        (DistInv.reach hl.domains hl.size hl.hand h1) hu)
    | comm r hc => exact ih.comm hl.domains hc

end Asagi
