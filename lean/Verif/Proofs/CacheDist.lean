import Verif.Model.CacheDist
import Verif.Proofs.CacheList
import Verif.Proofs.Directory
import Mathlib.Tactic.ByContra
/-
Invariants of the shared caches (`Verif.Model.CacheDist`).
-/
namespace Asagi

/-! ### Tables of locks -/

section Locks
variable {κ β : Type} [DecidableEq κ] {F : Agent → Pc β → κ → Prop} {pc : Agent → Pc β}
  {tab : κ → Option Agent}

omit [DecidableEq κ] in
theorem lock_keep (h : ∀ k a, tab k = some a ↔ F a (pc a) k) (a0 : Agent) (p : Pc β)
    (e : ∀ k, F a0 p k ↔ F a0 (pc a0) k) : ∀ k a, tab k = some a ↔ F a (upd pc a0 p a) k := by
  intro k a
  by_cases ha : a = a0
  · subst ha; rw [upd_self, e]; exact h k a
  · rw [upd_ne _ _ ha]; exact h k a

theorem lock_take (h : ∀ k a, tab k = some a ↔ F a (pc a) k) (a0 : Agent) (p : Pc β) (k0 : κ)
    (hf : tab k0 = none) (e : ∀ k, F a0 p k ↔ F a0 (pc a0) k ∨ k = k0) :
    ∀ k a, upd tab k0 (some a0) k = some a ↔ F a (upd pc a0 p a) k := by
  intro k a
  by_cases hk : k = k0
  · subst hk
    rw [upd_self]
    by_cases ha : a = a0
    · subst ha; rw [upd_self, e]; simp
    · rw [upd_ne _ _ ha, ← h, hf]; simp; exact fun x => ha x.symm
  · rw [upd_ne _ _ hk]
    by_cases ha : a = a0
    · subst ha; rw [upd_self, e, h]; simp [hk]
    · rw [upd_ne _ _ ha]; exact h k a

theorem lock_drop (h : ∀ k a, tab k = some a ↔ F a (pc a) k) (a0 : Agent) (p : Pc β) (k0 : κ)
    (hh : F a0 (pc a0) k0) (e : ∀ k, F a0 p k ↔ F a0 (pc a0) k ∧ k ≠ k0) :
    ∀ k a, upd tab k0 none k = some a ↔ F a (upd pc a0 p a) k := by
  intro k a
  have h0 := (h k0 a0).2 hh
  by_cases hk : k = k0
  · subst hk
    rw [upd_self]
    by_cases ha : a = a0
    · subst ha; rw [upd_self, e]; simp
    · rw [upd_ne _ _ ha, ← h, h0]; simp; exact fun x => ha x.symm
  · rw [upd_ne _ _ hk]
    by_cases ha : a = a0
    · subst ha; rw [upd_self, e, h]; simp [hk]
    · rw [upd_ne _ _ ha]; exact h k a

end Locks

variable {β : Type}

/-! ### Who holds what -/

/-- The cache mutex of domain `d`. -/
def CmOf (P : DistParams β) : Agent → Pc β → Nat → Prop
  | .user t, .wantSlot _ _ _ _, d => d = P.dom t
  | .user t, .own _ _ _ (.numaCm i), d => d = P.rankOf (P.dom t) * P.domains + i
  | .comm r, .tryCm _ _ i, d => d = r * P.domains + i
  | _, _, _ => False

/-- The slot from which a thread copies. -/
def SrcOf (P : DistParams β) (t : Nat) : Phase β → Nat × Nat → Prop
  | .numaCopy i s' _, k => k = (P.rankOf (P.dom t) * P.domains + i, s')
  | _, _ => False

/-- The lock of a slot. -/
def LkOf (P : DistParams β) : Agent → Pc β → Nat × Nat → Prop
  | .user t, .own _ _ s ph, k => k = (P.dom t, s) ∨ SrcOf P t ph k
  | .comm r, .send _ _ i s _ _, k => k = (r * P.domains + i, s)
  | .comm r, .sent i s, k => k = (r * P.domains + i, s)
  | _, _, _ => False

/-- The lock of the directory entry that is held in a phase, for a thread with block `b`. -/
def dlPhase (b : Nat) : Phase β → Option Nat
  | .delLocked o => some o
  | .addLocked | .xfer _ | .copy _ _ | .load _ | .fin => some b
  | _ => none

def DlOf (P : DistParams β) : Agent → Pc β → Nat → Prop
  | .user _, .own b _ _ ph, k => P.mode = .window ∧ dlPhase b ph = some k
  | _, _, _ => False

/-- The mutex for block transfers of a process. -/
def BlkOf (P : DistParams β) : Agent → Pc β → Nat → Prop
  | .user t, .own _ _ _ (.ask _), k => k = P.rankOf (P.dom t)
  | .user t, .own _ _ _ (.recv _ _), k => k = P.rankOf (P.dom t)
  | _, _, _ => False

/-- The slot is not complete in these phases. -/
def fills : Phase β → Bool
  | .add | .addLocked | .fin | .use | .out _ => false
  | _ => true

/-- (window) the slot is not yet in the directory in these phases. -/
def unpub : Phase β → Bool
  | .del _ | .delLocked _ | .numa _ | .numaCm _ | .numaCopy _ _ _ | .add | .start => true
  | _ => false

/-- The phases that read another process's memory, or load, with the directory lock. -/
def lockedFill : Phase β → Bool
  | .xfer _ | .copy _ _ | .load _ => true
  | _ => false

def Idx (st : DistState β) (d s b : Nat) : Prop := (st.cl d).indexToBlock[s]? = some (some b)

/-- The block whose data belongs in a slot for those that have or get its lock now. -/
def Assigned (P : DistParams β) (st : DistState β) (d s b : Nat) : Prop :=
  (∃ t b' off, st.pc (.user t) = .wantSlot b' off s (some b) ∧ P.dom t = d) ∨
  ((∀ t b' off old, st.pc (.user t) = .wantSlot b' off s old → P.dom t ≠ d) ∧ Idx st d s b)

def Filling (P : DistParams β) (st : DistState β) (d s : Nat) : Prop :=
  ∃ t b off ph, st.pc (.user t) = .own b off s ph ∧ P.dom t = d ∧ fills ph = true

/-- The slot contains block `b`. -/
def Good (P : DistParams β) (st : DistState β) (d s b : Nat) : Prop :=
  ∀ k, P.valid b k → st.data d s k = P.file b k

def Prefix (P : DistParams β) (st : DistState β) (d s b n : Nat) : Prop :=
  ∀ k, k < n → P.valid b k → st.data d s k = P.file b k

/-- The slot with entry `e` can be read by a thread with the directory lock of block `b`. -/
def Src (P : DistParams β) (st : DistState β) (b e : Nat) : Prop :=
  ∃ d s, s < P.size ∧ e = P.entry d s ∧
    ((Assigned P st d s b ∧ ¬ Filling P st d s) ∨
     ∃ t b' off, st.pc (.user t) = .own b' off s (.del (some b)) ∧ P.dom t = d)

/-- Entry `e` may be in the directory of block `b`. -/
def Pub (P : DistParams β) (st : DistState β) (b e : Nat) : Prop :=
  Src P st b e ∨ ∃ t off s ph, st.pc (.user t) = .own b off s ph ∧ s < P.size ∧
    e = P.entry (P.dom t) s ∧ lockedFill ph = true

def PhInv (P : DistParams β) (st : DistState β) (t b off s : Nat) : Phase β → Prop
  | .del old => old ≠ some b ∧ ∀ o, old = some o → Good P st (P.dom t) s o
  | .numaCm i => i < P.domains ∧ i ≠ P.dom t % P.domains
  | .numaCopy i s' k => i < P.domains ∧ i ≠ P.dom t % P.domains ∧ s' < P.size ∧
      Assigned P st (P.rankOf (P.dom t) * P.domains + i) s' b ∧ Prefix P st (P.dom t) s b k
  | .xfer e => (P.mode = .window → ∀ e' : Nat, e = (e' : Int) → Src P st b e') ∧
      (P.mode = .none → e < 0)
  | .copy e k => P.mode = .window ∧ Src P st b e ∧ Prefix P st (P.dom t) s b k
  | .ask _ => P.mode = .thread
  | .recv buf k => P.mode = .thread ∧ (∀ j, P.valid b j → buf j = P.file b j) ∧ Prefix P st (P.dom t) s b k
  | .load k => Prefix P st (P.dom t) s b k
  | .out v => v = P.file b off
  | .delLocked _ => P.mode = .window
  | .addLocked => P.mode = .window
  | _ => True

/-- The directory with MPI windows. -/
structure WinInv (P : DistParams β) (st : DistState β) : Prop where
  dir : ∀ b, ∃ L, st.dir b = enc dictEntrySize L ∧ L.Nodup ∧ L.length ≤ dictEntrySize ∧
    ∀ e ∈ L, Pub P st b e
  fresh : ∀ t b off s ph, st.pc (.user t) = .own b off s ph → unpub ph = true →
    (P.entry (P.dom t) s : Int) ∉ st.dir b

structure DistInv (P : DistParams β) (st : DistState β) : Prop where
  lists : ∀ d, ∃ h, CLInv (st.cl d) h ∧ (st.cl d).lru.size = P.size
  cm : ∀ d a, st.cm d = some a ↔ CmOf P a (st.pc a) d
  lk : ∀ k a, st.lk k = some a ↔ LkOf P a (st.pc a) k
  dl : ∀ b a, st.dl b = some a ↔ DlOf P a (st.pc a) b
  blk : ∀ r a, st.blk r = some a ↔ BlkOf P a (st.pc a) r
  kind : ∀ t, (∀ u b i, st.pc (.user t) ≠ .tryDom u b i) ∧ (∀ u b i, st.pc (.user t) ≠ .tryCm u b i) ∧
    (∀ u b i s k buf, st.pc (.user t) ≠ .send u b i s k buf) ∧ (∀ i s, st.pc (.user t) ≠ .sent i s)
  kindC : ∀ r, (∀ b off, st.pc (.comm r) ≠ .wantCm b off) ∧
    (∀ b off s old, st.pc (.comm r) ≠ .wantSlot b off s old) ∧
    (∀ b off s ph, st.pc (.comm r) ≠ .own b off s ph)
  wantc : ∀ t b off, st.pc (.user t) = .wantCm b off → P.valid b off
  want : ∀ t b off s old, st.pc (.user t) = .wantSlot b off s old →
    P.valid b off ∧ s < P.size ∧ Idx st (P.dom t) s b
  own : ∀ t b off s ph, st.pc (.user t) = .own b off s ph →
    P.valid b off ∧ s < P.size ∧ Assigned P st (P.dom t) s b
  phase : ∀ t b off s ph, st.pc (.user t) = .own b off s ph → PhInv P st t b off s ph
  good : ∀ d s b, Assigned P st d s b → ¬ Filling P st d s → Good P st d s b
  send : ∀ r t b i s k buf, st.pc (.comm r) = .send t b i s k buf →
    i < P.domains ∧ s < P.size ∧ Assigned P st (r * P.domains + i) s b ∧
      ∀ j, j < k → P.valid b j → buf j = P.file b j
  tryc : ∀ r t b i, st.pc (.comm r) = .tryCm t b i → i < P.domains
  req : ∀ r t b, (∃ i, st.pc (.comm r) = .tryDom t b i) ∨ (∃ i, st.pc (.comm r) = .tryCm t b i) ∨
    (∃ i s k buf, st.pc (.comm r) = .send t b i s k buf) →
    (∃ off s, st.pc (.user t) = .own b off s (.ask r)) ∧ st.box t = none
  box : ∀ t m, st.box t = some m → ∃ b off s r, st.pc (.user t) = .own b off s (.ask r) ∧
    ∀ buf, m = some buf → ∀ j, P.valid b j → buf j = P.file b j
  net : P.mode ≠ .thread → ∀ r r', st.net r r' = []
  win : P.mode = .window → WinInv P st

/-! ### Entries of the directory -/

theorem entry_dom {P : DistParams β} {d s : Nat} (hD : 0 < P.domains) (hs : s < P.size) :
    P.entryDom (P.entry d s) = d ∧ P.entrySlot (P.entry d s) = s := by
  have hS : 0 < P.size := by omega
  have hlt : s + P.size * (d % P.domains) < P.rankCache := by
    unfold DistParams.rankCache
    have h1 : d % P.domains + 1 ≤ P.domains := Nat.mod_lt _ hD
    have h2 := Nat.mul_le_mul_left P.size h1
    rw [Nat.mul_comm P.domains P.size]
    rw [Nat.mul_add] at h2; omega
  have hR : 0 < P.rankCache := by omega
  have e1 : ownerRank P.rankCache (P.entry d s) = d / P.domains := by
    unfold ownerRank DistParams.entry ownerEntry DistParams.rankOf
    rw [Nat.mul_comm, Nat.mul_add_div hR, Nat.div_eq_of_lt hlt, Nat.add_zero]
  have e2 : ownerOffset P.rankCache (P.entry d s) = s + P.size * (d % P.domains) := by
    unfold ownerOffset DistParams.entry ownerEntry
    rw [Nat.mul_comm, Nat.mul_add_mod, Nat.mod_eq_of_lt hlt]
  unfold DistParams.entryDom DistParams.entrySlot
  rw [e1, e2]
  constructor
  · rw [Nat.add_mul_div_left _ _ hS, Nat.div_eq_of_lt hs, Nat.zero_add, Nat.mul_comm]
    exact Nat.div_add_mod d P.domains
  · rw [Nat.add_mul_mod_self_left, Nat.mod_eq_of_lt hs]

theorem entry_inj {P : DistParams β} {d s d' s' : Nat} (hD : 0 < P.domains) (hs : s < P.size)
    (hs' : s' < P.size) (h : P.entry d s = P.entry d' s') : d = d' ∧ s = s' := by
  have h1 := entry_dom (d := d) hD hs
  have h2 := entry_dom (d := d') hD hs'
  rw [h] at h1
  exact ⟨h1.1.symm.trans h2.1, h1.2.symm.trans h2.2⟩

theorem enc_mem {n : Nat} {L : List Nat} {e : Nat} : (e : Int) ∈ enc n L ↔ e ∈ L := by
  unfold enc
  rw [List.mem_append, List.mem_map]
  constructor
  · rintro (⟨a, ha, e1⟩ | h)
    · have : a = e := by exact_mod_cast e1
      subst this; exact ha
    · have := List.eq_of_mem_replicate h
      omega
  · intro h; exact .inl ⟨e, h, rfl⟩

/-! ### Consequences of the invariant -/

namespace DistInv
variable {P : DistParams β} {st : DistState β}

theorem lk_own (h : DistInv P st) {t b off s : Nat} {ph : Phase β}
    (hp : st.pc (.user t) = .own b off s ph) : st.lk (P.dom t, s) = some (.user t) :=
  (h.lk _ _).2 (by rw [hp]; exact .inl rfl)

/-- Two threads with the same own slot are the same. -/
theorem own_unique (h : DistInv P st) {t u b off s b' off' : Nat} {ph ph' : Phase β}
    (hp : st.pc (.user t) = .own b off s ph) (hu : st.pc (.user u) = .own b' off' s ph')
    (hd : P.dom t = P.dom u) : t = u := by
  have h1 := h.lk_own hp
  have h2 := h.lk_own hu
  rw [hd, h2] at h1
  injection h1 with h1; injection h1 with h1; exact h1.symm

theorem want_unique (h : DistInv P st) {t u b off s b' off' s' : Nat} {old old' : Option Nat}
    (hp : st.pc (.user t) = .wantSlot b off s old) (hu : st.pc (.user u) = .wantSlot b' off' s' old')
    (hd : P.dom t = P.dom u) : t = u := by
  have h1 := (h.cm (P.dom t) (.user t)).2 (by rw [hp]; exact rfl)
  have h2 := (h.cm (P.dom u) (.user u)).2 (by rw [hu]; exact rfl)
  rw [hd, h2] at h1
  injection h1 with h1; injection h1 with h1; exact h1.symm

theorem assigned_unique (h : DistInv P st) {d s b b' : Nat} (h1 : Assigned P st d s b)
    (h2 : Assigned P st d s b') : b = b' := by
  rcases h1 with ⟨t, c, off, hp, hd⟩ | ⟨hn, hi⟩
  · rcases h2 with ⟨t', c', off', hp', hd'⟩ | ⟨hn, _⟩
    · have := h.want_unique hp hp' (hd.trans hd'.symm)
      subst this
      rw [hp] at hp'
      injection hp' with _ _ _ e; exact Option.some.inj e
    · exact absurd hd (hn _ _ _ _ hp)
  · rcases h2 with ⟨t', c', off', hp', hd'⟩ | ⟨_, hi'⟩
    · exact absurd hd' (hn _ _ _ _ hp')
    · unfold Idx at hi hi'
      rw [hi] at hi'
      exact Option.some.inj (Option.some.inj hi')

/-- A slot that is being filled is locked by its thread. -/
theorem not_filling_of_lk (h : DistInv P st) {d s : Nat}
    (hl : ∀ t b off ph, st.pc (.user t) = .own b off s ph → P.dom t = d → fills ph = true →
      st.lk (d, s) ≠ some (.user t)) : ¬ Filling P st d s := by
  rintro ⟨t, b, off, ph, hp, hd, hf⟩
  have := h.lk_own hp
  rw [hd] at this
  exact hl t b off ph hp hd hf this

/-- A readable slot contains the block. -/
theorem src_good (h : DistInv P st) {b e : Nat} (hs : Src P st b e) :
    ∃ d s, s < P.size ∧ e = P.entry d s ∧ Good P st d s b := by
  obtain ⟨d, s, hlt, he, h1 | ⟨t, b', off, hp, hd⟩⟩ := hs
  · exact ⟨d, s, hlt, he, h.good d s b h1.1 h1.2⟩
  · refine ⟨d, s, hlt, he, ?_⟩
    have := h.phase t b' off s _ hp
    rw [← hd]; exact this.2 b rfl

end DistInv

/-! ### Frames -/

section Frame
variable {P : DistParams β} {st st' : DistState β}

theorem assigned_frame (ecl : st'.cl = st.cl)
    (ew : ∀ t b off s old, st'.pc (.user t) = .wantSlot b off s old ↔
      st.pc (.user t) = .wantSlot b off s old) (d s b : Nat) :
    Assigned P st' d s b ↔ Assigned P st d s b := by
  unfold Assigned Idx
  rw [ecl]
  simp only [ew]

/-- The thread `t` changes its phase. -/
structure OwnStep (P : DistParams β) (st st' : DistState β) (t b off s : Nat) (ph ph' : Phase β) :
    Prop where
  hpc : st.pc (.user t) = .own b off s ph
  epc : st'.pc = upd st.pc (.user t) (.own b off s ph')
  ecl : st'.cl = st.cl
  hfill : fills ph' = true → fills ph = true

namespace OwnStep
variable {t b off s : Nat} {ph ph' : Phase β}

theorem pc_self (o : OwnStep P st st' t b off s ph ph') : st'.pc (.user t) = .own b off s ph' := by
  rw [o.epc, upd_self]

theorem pc_other (o : OwnStep P st st' t b off s ph ph') {u : Nat} (hu : u ≠ t) :
    st'.pc (.user u) = st.pc (.user u) := by
  rw [o.epc, upd_ne]; intro e; injection e with e; exact hu e

theorem pc_comm (o : OwnStep P st st' t b off s ph ph') (r : Nat) :
    st'.pc (.comm r) = st.pc (.comm r) := by
  rw [o.epc, upd_ne]; intro e; cases e

theorem ew (o : OwnStep P st st' t b off s ph ph') :
    ∀ t b off s old, st'.pc (.user t) = .wantSlot b off s old ↔
      st.pc (.user t) = .wantSlot b off s old := by
  intro u b1 off1 s1 old
  by_cases hu : u = t
  · subst hu; rw [o.pc_self, o.hpc]; simp
  · rw [o.pc_other hu]

theorem assigned (o : OwnStep P st st' t b off s ph ph') (d s b : Nat) :
    Assigned P st' d s b ↔ Assigned P st d s b := assigned_frame o.ecl o.ew d s b

theorem filling (o : OwnStep P st st' t b off s ph ph') {d s1 : Nat} (h : Filling P st' d s1) :
    Filling P st d s1 := by
  obtain ⟨u, b1, off1, ph1, hp, hd, hf⟩ := h
  by_cases hu : u = t
  · subst hu
    rw [o.pc_self] at hp
    injection hp with e1 e2 e3 e4
    subst e1 e2 e3 e4
    exact ⟨u, b, off, ph, o.hpc, hd, o.hfill hf⟩
  · rw [o.pc_other hu] at hp
    exact ⟨u, b1, off1, ph1, hp, hd, hf⟩

/-- The slot is complete if the new phase does not fill. -/
theorem not_filling (o : OwnStep P st st' t b off s ph ph') (h : DistInv P st) (hf : fills ph' = false) :
    ¬ Filling P st' (P.dom t) s := by
  rintro ⟨u, b1, off1, ph1, hp, hd, hf1⟩
  by_cases hu : u = t
  · subst hu
    rw [o.pc_self] at hp
    injection hp with e1 e2 e3 e4
    subst e4; rw [hf] at hf1; cases hf1
  · rw [o.pc_other hu] at hp
    exact hu (h.own_unique hp o.hpc hd)

theorem src (o : OwnStep P st st' t b off s ph ph') {b1 e : Nat} (hs : Src P st b1 e)
    (hd : ph ≠ .del (some b1)) : Src P st' b1 e := by
  obtain ⟨d, s1, hlt, he, h1 | ⟨u, b', off', hp, hdu⟩⟩ := hs
  · exact ⟨d, s1, hlt, he, .inl ⟨(o.assigned d s1 b1).2 h1.1, fun hf => h1.2 (o.filling hf)⟩⟩
  · refine ⟨d, s1, hlt, he, .inr ⟨u, b', off', ?_, hdu⟩⟩
    by_cases hu : u = t
    · subst hu
      rw [o.hpc] at hp
      injection hp with _ _ _ e4
      exact absurd e4 hd
    · rw [o.pc_other hu]; exact hp

theorem pub (o : OwnStep P st st' t b off s ph ph') (h : DistInv P st) {b1 e : Nat}
    (hs : Pub P st b1 e) (hd : ph ≠ .del (some b1))
    (hl : lockedFill ph = true → lockedFill ph' = true ∨ fills ph' = false) : Pub P st' b1 e := by
  rcases hs with hs | ⟨u, off1, s1, ph1, hp, hlt, he, hlf⟩
  · exact .inl (o.src hs hd)
  · by_cases hu : u = t
    · subst hu
      rw [o.hpc] at hp
      injection hp with e1 e2 e3 e4
      subst e1 e2 e3 e4
      rcases hl hlf with h1 | h1
      · exact .inr ⟨u, off, s, ph', o.pc_self, hlt, he, h1⟩
      · exact .inl ⟨P.dom u, s, hlt, he, .inl ⟨(o.assigned _ _ _).2 (h.own u b off s ph o.hpc).2.2,
          o.not_filling h h1⟩⟩
    · exact .inr ⟨u, off1, s1, ph1, by rw [o.pc_other hu]; exact hp, hlt, he, hlf⟩

/-- The directory is not changed. -/
theorem win_same (o : OwnStep P st st' t b off s ph ph') (h : DistInv P st) (hw : WinInv P st)
    (edir : st'.dir = st.dir) (hd : ∀ x, ph ≠ .del (some x))
    (hl : lockedFill ph = true → lockedFill ph' = true ∨ fills ph' = false)
    (hu : unpub ph' = true → unpub ph = true) : WinInv P st' := by
  constructor
  · intro b1
    obtain ⟨L, h1, h2, h3, h4⟩ := hw.dir b1
    exact ⟨L, by rw [edir]; exact h1, h2, h3, fun e he => o.pub h (h4 e he) (hd b1) hl⟩
  · intro u b1 off1 s1 ph1 hp hun
    rw [edir]
    by_cases hut : u = t
    · subst hut
      rw [o.pc_self] at hp
      injection hp with e1 e2 e3 e4
      subst e1 e2 e3 e4
      exact hw.fresh u b off s ph o.hpc (hu hun)
    · rw [o.pc_other hut] at hp
      exact hw.fresh u b1 off1 s1 ph1 hp hun

/-- The entry of the old block is deleted. -/
theorem win_del (o : OwnStep P st st' t b off s ph ph') (h : DistInv P st) (hw : WinInv P st)
    {x : Nat} (hph : ph = .del (some x)) (hph' : ph' = .delLocked x)
    (edir : st'.dir = upd st.dir x (dictDelete (st.dir x) (P.entry (P.dom t) s))) : WinInv P st' := by
  subst hph hph'
  have hbx : x ≠ b := fun e => (h.phase t b off s _ o.hpc).1 (by rw [e])
  have hslt := (h.own t b off s _ o.hpc).2.1
  -- the new list for `x`
  have hx : ∃ L', dictDelete (st.dir x) (P.entry (P.dom t) s) = enc dictEntrySize L' ∧ L'.Nodup ∧
      L'.length ≤ dictEntrySize ∧ (∀ e ∈ L', Pub P st x e ∧ e ≠ P.entry (P.dom t) s) ∧
      ∀ e : Nat, (e : Int) ∉ st.dir x → e ∉ L' := by
    obtain ⟨L, h1, h2, h3, h4⟩ := hw.dir x
    rw [h1]
    by_cases hin : P.entry (P.dom t) s ∈ L
    · refine ⟨L.erase (P.entry (P.dom t) s), dictDelete_mem h3 hin, h2.erase _, ?_, ?_, ?_⟩
      · exact Nat.le_trans List.length_erase_le h3
      · intro e he
        refine ⟨h4 e (List.mem_of_mem_erase he), ?_⟩
        exact fun e1 => by rw [e1] at he; exact (h2.not_mem_erase) he
      · intro e he he'; exact he (enc_mem.2 (List.mem_of_mem_erase he'))
    · refine ⟨L.take (dictEntrySize - 1), dictDelete_not (by decide) h3 hin, ?_, ?_, ?_, ?_⟩
      · exact h2.sublist (List.take_sublist _ _)
      · rw [List.length_take]; omega
      · intro e he
        have he' := List.mem_of_mem_take he
        exact ⟨h4 e he', fun e1 => hin (e1 ▸ he')⟩
      · intro e he he'; exact he (enc_mem.2 (List.mem_of_mem_take he'))
  obtain ⟨L', g1, g2, g3, g4, g5⟩ := hx
  constructor
  · intro b1
    rw [edir]
    by_cases hb1 : b1 = x
    · subst hb1
      rw [upd_self]
      refine ⟨L', g1, g2, g3, fun e he => ?_⟩
      obtain ⟨hp, hne⟩ := g4 e he
      rcases hp with ⟨d, s1, hlt, hee, h5 | ⟨u, b', off', hpu, hdu⟩⟩ | ⟨u, off1, s1, ph1, hpu, hlt, hee, hlf⟩
      · exact .inl ⟨d, s1, hlt, hee, .inl ⟨(o.assigned d s1 b1).2 h5.1, fun hf => h5.2 (o.filling hf)⟩⟩
      · by_cases hut : u = t
        · subst hut
          rw [o.hpc] at hpu
          injection hpu with e1 e2 e3 e4
          subst e3 hdu
          exact absurd hee hne
        · exact .inl ⟨d, s1, hlt, hee, .inr ⟨u, b', off', by rw [o.pc_other hut]; exact hpu, hdu⟩⟩
      · by_cases hut : u = t
        · subst hut
          rw [o.hpc] at hpu
          injection hpu with e1 e2 e3 e4
          subst e4; cases hlf
        · exact .inr ⟨u, off1, s1, ph1, by rw [o.pc_other hut]; exact hpu, hlt, hee, hlf⟩
    · rw [upd_ne _ _ hb1]
      obtain ⟨L, h1, h2, h3, h4⟩ := hw.dir b1
      refine ⟨L, h1, h2, h3, fun e he => o.pub h (h4 e he) ?_ (fun hl => by cases hl)⟩
      intro e1; injection e1 with e1; injection e1 with e1; exact hb1 e1.symm
  · intro u b1 off1 s1 ph1 hp hun
    rw [edir]
    have hold : (P.entry (P.dom u) s1 : Int) ∉ st.dir b1 := by
      by_cases hut : u = t
      · subst hut
        rw [o.pc_self] at hp
        injection hp with e1 e2 e3 e4
        subst e1 e2 e3
        exact hw.fresh u b off s _ o.hpc rfl
      · rw [o.pc_other hut] at hp
        exact hw.fresh u b1 off1 s1 ph1 hp hun
    by_cases hb1 : b1 = x
    · subst hb1; rw [upd_self, g1, enc_mem]; exact g5 _ hold
    · rw [upd_ne _ _ hb1]; exact hold

/-- The entry of the new block is added. -/
theorem win_add (o : OwnStep P st st' t b off s ph ph') (h : DistInv P st) (hw : WinInv P st)
    (hD : 0 < P.domains) (hun : unpub ph = true) (hnd : ∀ x, ph ≠ .del (some x))
    (hph' : lockedFill ph' = true ∨ fills ph' = false) (hun' : unpub ph' = false)
    (edir : st'.dir = upd st.dir b (dictAdd (st.dir b) (P.entry (P.dom t) s))) : WinInv P st' := by
  have hslt := (h.own t b off s _ o.hpc).2.1
  have hfr := hw.fresh t b off s ph o.hpc hun
  have hlf : lockedFill ph = true → lockedFill ph' = true ∨ fills ph' = false := fun _ => hph'
  have hpubt : Pub P st' b (P.entry (P.dom t) s) := by
    rcases hph' with h1 | h1
    · exact .inr ⟨t, off, s, ph', o.pc_self, hslt, rfl, h1⟩
    · exact .inl ⟨P.dom t, s, hslt, rfl, .inl ⟨(o.assigned _ _ _).2 (h.own t b off s ph o.hpc).2.2,
        o.not_filling h h1⟩⟩
  constructor
  · intro b1
    rw [edir]
    obtain ⟨L, h1, h2, h3, h4⟩ := hw.dir b1
    by_cases hb1 : b1 = b
    · subst hb1
      rw [upd_self, h1, dictAdd_enc (by decide) h3]
      rw [h1, enc_mem] at hfr
      refine ⟨_, rfl, ?_, ?_, ?_⟩
      · exact (List.nodup_cons.2 ⟨hfr, h2⟩).sublist (List.take_sublist _ _)
      · rw [List.length_take]; omega
      · intro e he
        rcases List.mem_cons.1 (List.mem_of_mem_take he) with e1 | e1
        · subst e1; exact hpubt
        · exact o.pub h (h4 e e1) (hnd b1) hlf
    · rw [upd_ne _ _ hb1]
      exact ⟨L, h1, h2, h3, fun e he => o.pub h (h4 e he) (hnd b1) hlf⟩
  · intro u b1 off1 s1 ph1 hp hun1
    rw [edir]
    by_cases hut : u = t
    · subst hut
      rw [o.pc_self] at hp
      injection hp with e1 e2 e3 e4
      subst e4; rw [hun'] at hun1; cases hun1
    · rw [o.pc_other hut] at hp
      have hold := hw.fresh u b1 off1 s1 ph1 hp hun1
      by_cases hb1 : b1 = b
      · subst hb1
        obtain ⟨L, h1, h2, h3, h4⟩ := hw.dir b1
        rw [upd_self, h1, dictAdd_enc (by decide) h3, enc_mem]
        rw [h1, enc_mem] at hold
        intro hin
        rcases List.mem_cons.1 (List.mem_of_mem_take hin) with e1 | e1
        · obtain ⟨hd, hs⟩ := entry_inj hD (h.own u _ _ _ _ hp).2.1 hslt e1
          subst hs
          exact hut (h.own_unique hp o.hpc hd)
        · exact hold e1
      · rw [upd_ne _ _ hb1]; exact hold

/-- The invariant after a change of phase. -/
theorem inv (o : OwnStep P st st' t b off s ph ph') (h : DistInv P st)
    (edata : ∀ d1 s1 k1, ¬ (d1 = P.dom t ∧ s1 = s) → st'.data d1 s1 k1 = st.data d1 s1 k1)
    (edata2 : fills ph = false → st'.data = st.data)
    (hgood : fills ph = true → fills ph' = false → Good P st' (P.dom t) s b)
    (hcm : ∀ d a, st'.cm d = some a ↔ CmOf P a (upd st.pc (.user t) (.own b off s ph') a) d)
    (hlk : ∀ k a, st'.lk k = some a ↔ LkOf P a (upd st.pc (.user t) (.own b off s ph') a) k)
    (hdl : ∀ k a, st'.dl k = some a ↔ DlOf P a (upd st.pc (.user t) (.own b off s ph') a) k)
    (hblk : ∀ k a, st'.blk k = some a ↔ BlkOf P a (upd st.pc (.user t) (.own b off s ph') a) k)
    (hph : PhInv P st' t b off s ph')
    (hdel : P.mode = .window → ∀ x, ph = .del (some x) → st.dl x = none)
    (hbox1 : ∀ u, u ≠ t → st'.box u = st.box u) (hbox2 : st'.box t = none)
    (hask : (∀ r, ph ≠ .ask r) ∨ st.box t ≠ none)
    (hnet : P.mode ≠ .thread → st'.net = st.net)
    (hwin : P.mode = .window → WinInv P st') : DistInv P st' := by
  rw [← o.epc] at hcm hlk hdl hblk
  have hdata : ∀ u b1 off1 s1 ph1, u ≠ t → st.pc (.user u) = .own b1 off1 s1 ph1 →
      ∀ k, st'.data (P.dom u) s1 k = st.data (P.dom u) s1 k := by
    intro u b1 off1 s1 ph1 hut hp k
    apply edata
    rintro ⟨e1, e2⟩
    subst e2
    exact hut (h.own_unique hp o.hpc e1)
  refine ⟨?_, hcm, hlk, hdl, hblk, ?_, ?_, ?_, ?_, ?_, ?_, ?_, ?_,
    fun r u b1 i hp => h.tryc r u b1 i (by rw [← o.pc_comm]; exact hp), ?_, ?_,
    fun hm => by rw [hnet hm]; exact h.net hm, hwin⟩
  · rw [o.ecl]; exact h.lists
  · intro u
    by_cases hut : u = t
    · subst hut; rw [o.pc_self]; simp
    · rw [o.pc_other hut]; exact h.kind u
  · intro r; rw [o.pc_comm]; exact h.kindC r
  · intro u b1 off1 hp
    by_cases hut : u = t
    · subst hut; rw [o.pc_self] at hp; cases hp
    · rw [o.pc_other hut] at hp; exact h.wantc u b1 off1 hp
  · intro u b1 off1 s1 old hp
    have := h.want u b1 off1 s1 old ((o.ew u b1 off1 s1 old).1 hp)
    unfold Idx at this ⊢; rw [o.ecl]; exact this
  · intro u b1 off1 s1 ph1 hp
    rw [o.assigned]
    by_cases hut : u = t
    · subst hut
      rw [o.pc_self] at hp
      injection hp with e1 e2 e3 e4
      subst e1 e2 e3
      exact h.own u b off s ph o.hpc
    · rw [o.pc_other hut] at hp; exact h.own u b1 off1 s1 ph1 hp
  · intro u b1 off1 s1 ph1 hp
    by_cases hut : u = t
    · subst hut
      rw [o.pc_self] at hp
      injection hp with e1 e2 e3 e4
      subst e1 e2 e3 e4
      exact hph
    · rw [o.pc_other hut] at hp
      have hI := h.phase u b1 off1 s1 ph1 hp
      have hd := hdata u b1 off1 s1 ph1 hut hp
      have hpre : ∀ c n, Prefix P st (P.dom u) s1 c n → Prefix P st' (P.dom u) s1 c n := by
        intro c n hpre k hk hkc; rw [hd k]; exact hpre k hk hkc
      have hsrc : ∀ e, P.mode = .window → dlPhase b1 ph1 = some b1 → Src P st b1 e → Src P st' b1 e := by
        intro e hm hdp hs
        refine o.src hs ?_
        intro e1
        have h1 := hdel hm b1 e1
        have h2 := (h.dl b1 (.user u)).2 (by rw [hp]; exact ⟨hm, hdp⟩)
        rw [h1] at h2; cases h2
      cases ph1 with
      | del old =>
        refine ⟨hI.1, fun x hx k hk => ?_⟩
        rw [hd k]; exact hI.2 x hx k hk
      | numaCopy i s' k =>
        obtain ⟨a1, a2, a3, a4, a5⟩ := hI
        exact ⟨a1, a2, a3, (o.assigned _ _ _).2 a4, hpre _ _ a5⟩
      | xfer e => exact ⟨fun hm e' he => hsrc e' hm rfl (hI.1 hm e' he), hI.2⟩
      | copy e k => exact ⟨hI.1, hsrc e hI.1 rfl hI.2.1, hpre _ _ hI.2.2⟩
      | recv buf k => exact ⟨hI.1, hI.2.1, hpre _ _ hI.2.2⟩
      | load k => exact hpre _ _ hI
      | _ => exact hI
  · intro d s1 b1 ha hnf
    have ha' := (o.assigned d s1 b1).1 ha
    by_cases hds : d = P.dom t ∧ s1 = s
    · obtain ⟨rfl, rfl⟩ := hds
      have hbb := h.assigned_unique ha' (h.own t b off s1 ph o.hpc).2.2
      subst hbb
      cases hf : fills ph with
      | true =>
        cases hf' : fills ph' with
        | true => exact absurd ⟨t, b1, off, ph', o.pc_self, rfl, hf'⟩ hnf
        | false => exact hgood hf hf'
      | false =>
        have hnf0 : ¬ Filling P st (P.dom t) s1 := by
          rintro ⟨u, b2, off2, ph2, hp2, hd2, hf2⟩
          have := h.own_unique hp2 o.hpc hd2
          subst this
          rw [o.hpc] at hp2
          injection hp2 with _ _ _ e4
          subst e4; rw [hf] at hf2; cases hf2
        intro k hk
        rw [edata2 hf]; exact h.good _ _ _ ha' hnf0 k hk
    · have hnf0 : ¬ Filling P st d s1 := by
        rintro ⟨u, b2, off2, ph2, hp2, hd2, hf2⟩
        by_cases hut : u = t
        · subst hut
          rw [o.hpc] at hp2
          injection hp2 with _ _ e3 _
          exact hds ⟨hd2.symm, e3.symm⟩
        · exact hnf ⟨u, b2, off2, ph2, by rw [o.pc_other hut]; exact hp2, hd2, hf2⟩
      intro k hk
      rw [edata d s1 k hds]; exact h.good d s1 b1 ha' hnf0 k hk
  · intro r u b1 i s1 k buf hp
    rw [o.pc_comm] at hp
    rw [o.assigned]
    exact h.send r u b1 i s1 k buf hp
  · intro r u b1 hp
    rw [o.pc_comm] at hp
    obtain ⟨⟨off1, s1, hpu⟩, hb⟩ := h.req r u b1 hp
    have hut : u ≠ t := by
      intro e; subst e
      rcases hask with h1 | h1
      · rw [o.hpc] at hpu
        injection hpu with _ _ _ e4
        exact h1 r e4
      · exact h1 hb
    exact ⟨⟨off1, s1, by rw [o.pc_other hut]; exact hpu⟩, by rw [hbox1 u hut]; exact hb⟩
  · intro u m hm
    have hut : u ≠ t := by intro e; subst e; rw [hbox2] at hm; cases hm
    rw [hbox1 u hut] at hm
    obtain ⟨b1, off1, s1, r, hp, hb⟩ := h.box u m hm
    exact ⟨b1, off1, s1, r, by rw [o.pc_other hut]; exact hp, hb⟩

end OwnStep
end Frame

/-! ### Steps with a locked slot -/

namespace DistInv
variable {P : DistParams β} {st : DistState β}

theorem box_none (h : DistInv P st) {t b off s : Nat} {ph : Phase β}
    (hp : st.pc (.user t) = .own b off s ph) (hn : ∀ r, ph ≠ .ask r) : st.box t = none := by
  cases hb : st.box t with
  | none => rfl
  | some m =>
    obtain ⟨b1, off1, s1, r, hp1, _⟩ := h.box t m hb
    rw [hp] at hp1
    injection hp1 with _ _ _ e
    exact absurd e (hn r)

/-- The slot of the thread is complete if the phase says so. -/
theorem own_good (h : DistInv P st) {t b off s : Nat} {ph : Phase β}
    (hp : st.pc (.user t) = .own b off s ph) (hf : fills ph = false) : Good P st (P.dom t) s b := by
  refine h.good _ _ _ (h.own t b off s ph hp).2.2 ?_
  rintro ⟨u, b2, off2, ph2, hp2, hd2, hf2⟩
  have := h.own_unique hp2 hp hd2
  subst this
  rw [hp] at hp2
  injection hp2 with _ _ _ e4
  subst e4; rw [hf] at hf2; cases hf2

end DistInv

section SendOp
variable {P : DistParams β} {st : DistState β} {r b : Nat} {op : DictOp}

theorem sendOp_cl : (st.sendOp P r b op).cl = st.cl := by unfold DistState.sendOp; split <;> rfl
theorem sendOp_cm : (st.sendOp P r b op).cm = st.cm := by unfold DistState.sendOp; split <;> rfl
theorem sendOp_lk : (st.sendOp P r b op).lk = st.lk := by unfold DistState.sendOp; split <;> rfl
theorem sendOp_dl : (st.sendOp P r b op).dl = st.dl := by unfold DistState.sendOp; split <;> rfl
theorem sendOp_blk : (st.sendOp P r b op).blk = st.blk := by unfold DistState.sendOp; split <;> rfl
theorem sendOp_box : (st.sendOp P r b op).box = st.box := by unfold DistState.sendOp; split <;> rfl
theorem sendOp_data : (st.sendOp P r b op).data = st.data := by unfold DistState.sendOp; split <;> rfl
theorem sendOp_pc : (st.sendOp P r b op).pc = st.pc := by unfold DistState.sendOp; split <;> rfl

end SendOp

/-- The locks that do not change. -/
macro "lk_auto" h:term:max hpc:term:max : tactic => `(tactic| first
  | exact lock_keep (DistInv.cm $h) _ _ (by intro k; rw [$hpc:term]; simp [CmOf])
  | exact lock_keep (DistInv.lk $h) _ _ (by intro k; rw [$hpc:term]; simp [LkOf, SrcOf])
  | exact lock_keep (DistInv.dl $h) _ _ (by intro k; rw [$hpc:term]; simp [DlOf, dlPhase])
  | exact lock_keep (DistInv.blk $h) _ _ (by intro k; rw [$hpc:term]; simp [BlkOf]))

namespace DistInv
variable {P : DistParams β} {st st' : DistState β}

/-- A step that only changes the phase. -/
theorem goto_inv (h : DistInv P st) {t b off s : Nat} {ph ph' : Phase β}
    (hpc : st.pc (.user t) = .own b off s ph) (hfill : fills ph' = true → fills ph = true)
    (hgood : fills ph = true → fills ph' = false → Good P st (P.dom t) s b)
    (hcm : ∀ k, CmOf P (.user t) (.own b off s ph') k ↔ CmOf P (.user t) (.own b off s ph) k)
    (hlk : ∀ k, LkOf P (.user t) (.own b off s ph') k ↔ LkOf P (.user t) (.own b off s ph) k)
    (hdl : ∀ k, DlOf P (.user t) (.own b off s ph') k ↔ DlOf P (.user t) (.own b off s ph) k)
    (hblk : ∀ k, BlkOf P (.user t) (.own b off s ph') k ↔ BlkOf P (.user t) (.own b off s ph) k)
    (hph : PhInv P (st.goto t b off s ph') t b off s ph')
    (hdel : P.mode = .window → ∀ x, ph ≠ .del (some x))
    (hask : ∀ r, ph ≠ .ask r)
    (hl : P.mode = .window → lockedFill ph = true → lockedFill ph' = true ∨ fills ph' = false)
    (hu : P.mode = .window → unpub ph' = true → unpub ph = true) :
    DistInv P (st.goto t b off s ph') := by
  have o : OwnStep P st (st.goto t b off s ph') t b off s ph ph' := ⟨hpc, rfl, rfl, hfill⟩
  exact o.inv h (fun _ _ _ _ => rfl) (fun _ => rfl) hgood
    (lock_keep h.cm _ _ (by rw [hpc]; exact hcm)) (lock_keep h.lk _ _ (by rw [hpc]; exact hlk))
    (lock_keep h.dl _ _ (by rw [hpc]; exact hdl)) (lock_keep h.blk _ _ (by rw [hpc]; exact hblk))
    hph (fun hm x e => absurd e (hdel hm x)) (fun _ _ => rfl) (h.box_none hpc hask) (.inl hask)
    (fun _ => rfl) (fun hm => o.win_same h (h.win hm) rfl (hdel hm) (hl hm) (hu hm))

/-- A step that writes a value of the own slot. -/
theorem cell_inv (h : DistInv P st) {t b off s : Nat} {ph ph' : Phase β} {k : Nat} {v : β}
    (hpc : st.pc (.user t) = .own b off s ph) (hfill : fills ph = true) (hfill' : fills ph' = true)
    (hcm : ∀ k, CmOf P (.user t) (.own b off s ph') k ↔ CmOf P (.user t) (.own b off s ph) k)
    (hlk : ∀ k, LkOf P (.user t) (.own b off s ph') k ↔ LkOf P (.user t) (.own b off s ph) k)
    (hdl : ∀ k, DlOf P (.user t) (.own b off s ph') k ↔ DlOf P (.user t) (.own b off s ph) k)
    (hblk : ∀ k, BlkOf P (.user t) (.own b off s ph') k ↔ BlkOf P (.user t) (.own b off s ph) k)
    (hph : PhInv P ({ st with data := setCell st.data (P.dom t) s k v }.goto t b off s ph') t b off s ph')
    (hdel : ∀ x, ph ≠ .del (some x)) (hask : ∀ r, ph ≠ .ask r)
    (hl : lockedFill ph = true → lockedFill ph' = true)
    (hu : unpub ph' = true → unpub ph = true) :
    DistInv P ({ st with data := setCell st.data (P.dom t) s k v }.goto t b off s ph') := by
  have o : OwnStep P st ({ st with data := setCell st.data (P.dom t) s k v }.goto t b off s ph')
    t b off s ph ph' := ⟨hpc, rfl, rfl, fun _ => hfill⟩
  refine o.inv h ?_ (fun hf => by rw [hfill] at hf; cases hf)
    (fun _ hf => by rw [hfill'] at hf; cases hf)
    (lock_keep h.cm _ _ (by rw [hpc]; exact hcm)) (lock_keep h.lk _ _ (by rw [hpc]; exact hlk))
    (lock_keep h.dl _ _ (by rw [hpc]; exact hdl)) (lock_keep h.blk _ _ (by rw [hpc]; exact hblk))
    hph (fun hm x e => absurd e (hdel x)) (fun _ _ => rfl) (h.box_none hpc hask) (.inl hask)
    (fun _ => rfl) (fun hm => o.win_same h (h.win hm) rfl hdel (fun hx => .inl (hl hx)) hu)
  intro d1 s1 k1 hn
  show setCell st.data (P.dom t) s k v d1 s1 k1 = _
  unfold setCell
  rw [if_neg]
  rintro ⟨e1, e2, _⟩; exact hn ⟨e1, e2⟩

theorem prefix_cell {d s b k : Nat} {v : β} (hpre : Prefix P st d s b k)
    (hv : P.valid b k → v = P.file b k) (e : st'.data = setCell st.data d s k v) :
    Prefix P st' d s b (k + 1) := by
  intro j hj hjc
  rw [e]
  unfold setCell
  by_cases hjk : j = k
  · subst hjk; rw [if_pos ⟨rfl, rfl, rfl⟩]; exact hv hjc
  · rw [if_neg (by rintro ⟨_, _, e⟩; exact hjk e)]; exact hpre j (by omega) hjc

theorem prefix_good {d s b k : Nat} (hpre : Prefix P st d s b k) (hk : P.cells ≤ k) :
    Good P st d s b := fun j hj => hpre j (by have := hj.1; omega) hj


theorem peek_idx (h : DistInv P st) {d b s : Nat} (hp : (st.cl d).peek b = some s) :
    s < P.size ∧ Idx st d s b := by
  obtain ⟨h0, inv, hs⟩ := h.lists d
  exact ⟨by rw [← hs]; exact inv.slot_lt hp, (inv.bij b s).1 hp⟩

/-- The source of a copy between domains is complete. -/
theorem numa_src (h : DistInv P st) {t b off s i s' k : Nat}
    (hpc : st.pc (.user t) = .own b off s (.numaCopy i s' k)) :
    Good P st (P.rankOf (P.dom t) * P.domains + i) s' b := by
  obtain ⟨h1, h2, h3, h4, h5⟩ := h.phase t b off s _ hpc
  refine h.good _ _ _ h4 (h.not_filling_of_lk ?_)
  intro u b1 off1 ph1 hp hd hf hl
  have hl2 := (h.lk (P.rankOf (P.dom t) * P.domains + i, s') (.user t)).2
    (by rw [hpc]; exact .inr rfl)
  rw [hl] at hl2
  injection hl2 with e; injection e with e; subst e
  apply h2
  rw [hd, Nat.mul_comm, Nat.mul_add_mod, Nat.mod_eq_of_lt h1]

/-- All phases. -/
theorem own_inv (h : DistInv P st) (hD : 0 < P.domains) {t b off s : Nat} {ph : Phase β}
    (hpc : st.pc (.user t) = .own b off s ph) (hs : UserStep P t st st')
    (hpc' : st'.pc (.user t) ≠ .idle) : DistInv P st' := by
  cases hs with
  | call _ _ b1 off1 hp => rw [hpc] at hp; cases hp
  | lookup _ _ b1 off1 s1 c' old hp => rw [hpc] at hp; cases hp
  | lockSlot _ _ b1 off1 s1 old hp => rw [hpc] at hp; cases hp
  | unlock _ _ b1 off1 s1 v hp => exact absurd (upd_self _ _ _) hpc'
  | delSkip _ _ b1 off1 s1 old hp ho =>
    refine h.goto_inv hp ?_ ?_ ?_ ?_ ?_ ?_ trivial ?_ ?_ ?_ ?_ <;>
      simp [fills, CmOf, LkOf, SrcOf, DlOf, dlPhase, BlkOf, lockedFill, unpub]
    intro hm x e
    rcases ho with ho | ho
    · rw [ho] at e; cases e
    · rw [ho] at hm; cases hm
  | delWin _ _ b1 off1 s1 x hp hm hf =>
    have o : OwnStep P st ({ st with
        dl := upd st.dl x (some (.user t))
        dir := upd st.dir x (dictDelete (st.dir x) (P.entry (P.dom t) s1)) }.goto t b1 off1 s1
          (.delLocked x)) t b1 off1 s1 (.del (some x)) (.delLocked x) :=
      ⟨hp, rfl, rfl, fun _ => rfl⟩
    refine o.inv h (fun _ _ _ _ => rfl) (fun _ => rfl) nofun ?_ ?_
      (lock_take h.dl _ _ x hf (by intro k; rw [hp]; simp [DlOf, dlPhase, hm, eq_comm])) ?_
      hm (fun _ y e => by injection e with e; injection e with e; rw [← e]; exact hf)
      (fun _ _ => rfl) (h.box_none hp nofun) (.inl nofun) (fun _ => rfl)
      (fun hm => o.win_del h (h.win hm) rfl rfl rfl) <;> lk_auto h hp
  | delWinEnd _ _ b1 off1 s1 x hp =>
    have o : OwnStep P st ({ st with dl := upd st.dl x none }.goto t b1 off1 s1
          (.numa 0)) t b1 off1 s1 (.delLocked x) (.numa 0) := ⟨hp, rfl, rfl, fun _ => rfl⟩
    have hm : P.mode = .window := h.phase t b1 off1 s1 _ hp
    refine o.inv h (fun _ _ _ _ => rfl) (fun _ => rfl) nofun ?_ ?_
      (lock_drop h.dl _ _ x (by rw [hp]; exact ⟨hm, rfl⟩)
        (by intro k; rw [hp]; simp [DlOf, dlPhase, hm]; exact fun e => e.symm)) ?_
      trivial nofun
      (fun _ _ => rfl) (h.box_none hp nofun) (.inl nofun) (fun _ => rfl)
      (fun hm => o.win_same h (h.win hm) rfl nofun nofun (fun _ => rfl)) <;> lk_auto h hp
  | delThread _ _ b1 off1 s1 x hp hm =>
    have o : OwnStep P st ((st.sendOp P (P.rankOf (P.dom t)) x
        (.delete (P.entry (P.dom t) s1))).goto t b1 off1 s1 (.numa 0)) t b1 off1 s1
          (.del (some x)) (.numa 0) := ⟨hp, by simp only [DistState.goto, sendOp_pc],
            by simp only [DistState.goto, sendOp_cl], fun _ => rfl⟩
    have hw : P.mode ≠ .window := by rw [hm]; nofun
    refine o.inv h (fun _ _ _ _ => by simp only [DistState.goto, sendOp_data])
      (fun _ => by simp only [DistState.goto, sendOp_data]) nofun ?_ ?_ ?_ ?_
      trivial (fun e => absurd e hw)
      (fun _ _ => by simp only [DistState.goto, sendOp_box])
      (by simp only [DistState.goto, sendOp_box]; exact h.box_none hp nofun)
      (.inl nofun) (fun e => absurd hm e) (fun e => absurd e hw) <;>
      simp only [DistState.goto, sendOp_cm, sendOp_lk, sendOp_dl, sendOp_blk] <;> lk_auto h hp
  | numaEnd _ _ b1 off1 s1 i hp hc =>
    refine h.goto_inv hp ?_ ?_ ?_ ?_ ?_ ?_ trivial ?_ ?_ ?_ ?_ <;>
      simp [fills, CmOf, LkOf, SrcOf, DlOf, dlPhase, BlkOf, lockedFill, unpub]
  | numaOwn _ _ b1 off1 s1 i hp hn hi he =>
    refine h.goto_inv hp ?_ ?_ ?_ ?_ ?_ ?_ trivial ?_ ?_ ?_ ?_ <;>
      simp [fills, CmOf, LkOf, SrcOf, DlOf, dlPhase, BlkOf, lockedFill, unpub]
  | numaBusy _ _ b1 off1 s1 i hp hn hi he hc =>
    refine h.goto_inv hp ?_ ?_ ?_ ?_ ?_ ?_ trivial ?_ ?_ ?_ ?_ <;>
      simp [fills, CmOf, LkOf, SrcOf, DlOf, dlPhase, BlkOf, lockedFill, unpub]
  | numaTry _ _ b1 off1 s1 i hp hn hi he hno hc =>
    have o : OwnStep P st ({ st with
        cm := upd st.cm (P.rankOf (P.dom t) * P.domains + i) (some (.user t)) }.goto t b1 off1 s1
          (.numaCm i)) t b1 off1 s1 (.numa i) (.numaCm i) := ⟨hp, rfl, rfl, fun _ => rfl⟩
    refine o.inv h (fun _ _ _ _ => rfl) (fun _ => rfl) nofun
      (lock_take h.cm _ _ _ hc (by intro k; rw [hp]; simp [CmOf])) ?_ ?_ ?_
      ⟨hi, he⟩ nofun
      (fun _ _ => rfl) (h.box_none hp nofun) (.inl nofun) (fun _ => rfl)
      (fun hm => o.win_same h (h.win hm) rfl nofun nofun (fun _ => rfl)) <;> lk_auto h hp
  | numaMiss _ _ b1 off1 s1 i hp hc =>
    have o : OwnStep P st ({ st with
        cm := upd st.cm (P.rankOf (P.dom t) * P.domains + i) none }.goto t b1 off1 s1
          (.numa (i + 1))) t b1 off1 s1 (.numaCm i) (.numa (i + 1)) := ⟨hp, rfl, rfl, fun _ => rfl⟩
    refine o.inv h (fun _ _ _ _ => rfl) (fun _ => rfl) nofun
      (lock_drop h.cm _ _ _ (by rw [hp]; rfl) (by intro k; rw [hp]; simp [CmOf])) ?_ ?_ ?_
      trivial nofun
      (fun _ _ => rfl) (h.box_none hp nofun) (.inl nofun) (fun _ => rfl)
      (fun hm => o.win_same h (h.win hm) rfl nofun nofun (fun _ => rfl)) <;> lk_auto h hp
  | numaHit _ _ b1 off1 s1 i s' hp hk hc =>
    have o : OwnStep P st ({ st with
        lk := upd st.lk (P.rankOf (P.dom t) * P.domains + i, s') (some (.user t))
        cm := upd st.cm (P.rankOf (P.dom t) * P.domains + i) none }.goto t b1 off1 s1
          (.numaCopy i s' 0)) t b1 off1 s1 (.numaCm i) (.numaCopy i s' 0) :=
      ⟨hp, rfl, rfl, fun _ => rfl⟩
    obtain ⟨hi1, hi2⟩ := h.phase t b1 off1 s1 _ hp
    obtain ⟨hs1, hs2⟩ := h.peek_idx hk
    have hcm := (h.cm (P.rankOf (P.dom t) * P.domains + i) (.user t)).2 (by rw [hp]; rfl)
    refine o.inv h (fun _ _ _ _ => rfl) (fun _ => rfl) nofun
      (lock_drop h.cm _ _ _ (by rw [hp]; rfl) (by intro k; rw [hp]; simp [CmOf]))
      (lock_take h.lk _ _ _ hc (by intro k; rw [hp]; simp [LkOf, SrcOf])) ?_ ?_
      ⟨hi1, hi2, hs1, (o.assigned _ _ _).2 (.inr ⟨?_, hs2⟩), fun k hk => by omega⟩ nofun
      (fun _ _ => rfl) (h.box_none hp nofun) (.inl nofun) (fun _ => rfl)
      (fun hm => o.win_same h (h.win hm) rfl nofun nofun (fun _ => rfl))
    · lk_auto h hp
    · lk_auto h hp
    · intro u b' off' old hpu hd
      have := (h.cm (P.dom u) (.user u)).2 (by rw [hpu]; rfl)
      rw [hd, hcm] at this
      injection this with e; injection e with e; subst e
      rw [hp] at hpu; cases hpu
  | numaCell _ _ b1 off1 s1 i s' k hp hk =>
    obtain ⟨a1, a2, a3, a4, a5⟩ := h.phase t b1 off1 s1 _ hp
    have hsrc := h.numa_src hp k
    have o : OwnStep P st ({ st with
        data := setCell st.data (P.dom t) s1 k
          (st.data (P.rankOf (P.dom t) * P.domains + i) s' k) }.goto t b1 off1 s1
          (.numaCopy i s' (k + 1))) t b1 off1 s1 (.numaCopy i s' k) (.numaCopy i s' (k + 1)) :=
      ⟨hp, rfl, rfl, fun _ => rfl⟩
    refine h.cell_inv hp ?_ ?_ ?_ ?_ ?_ ?_
      ⟨a1, a2, a3, (o.assigned _ _ _).2 a4,
        prefix_cell a5 hsrc rfl⟩ ?_ ?_ ?_ ?_ <;>
      simp [fills, CmOf, LkOf, SrcOf, DlOf, dlPhase, BlkOf, lockedFill, unpub]
  | numaDone _ _ b1 off1 s1 i s' k hp hk =>
    have o : OwnStep P st ({ st with
        lk := upd st.lk (P.rankOf (P.dom t) * P.domains + i, s') none }.goto t b1 off1 s1
          .add) t b1 off1 s1 (.numaCopy i s' k) .add :=
      ⟨hp, rfl, rfl, fun _ => rfl⟩
    obtain ⟨a1, a2, a3, a4, a5⟩ := h.phase t b1 off1 s1 _ hp
    refine o.inv h (fun _ _ _ _ => rfl) (fun _ => rfl) (fun _ _ => prefix_good a5 hk) ?_
      (lock_drop h.lk _ _ _ (by rw [hp]; exact .inr rfl) (by
        intro k; rw [hp]; simp only [LkOf, SrcOf, or_false]
        constructor
        · intro e; subst e
          refine ⟨.inl rfl, fun e => a2 ?_⟩
          injection e with e _
          rw [e, Nat.mul_comm, Nat.mul_add_mod, Nat.mod_eq_of_lt a1]
        · rintro ⟨e | e, hn⟩
          · exact e
          · exact absurd e hn)) ?_ ?_
      trivial nofun
      (fun _ _ => rfl) (h.box_none hp nofun) (.inl nofun) (fun _ => rfl)
      (fun hm => o.win_same h (h.win hm) rfl nofun nofun (fun _ => rfl)) <;> lk_auto h hp
  | addNone _ _ b1 off1 s1 hp hm =>
    have hw : P.mode ≠ .window := by rw [hm]; nofun
    refine h.goto_inv hp ?_ ?_ ?_ ?_ ?_ ?_ trivial ?_ ?_ ?_ ?_ <;>
      simp [fills, CmOf, LkOf, SrcOf, DlOf, dlPhase, BlkOf, lockedFill, unpub]
  | addWin _ _ b1 off1 s1 hp hm hf =>
    have o : OwnStep P st ({ st with
        dl := upd st.dl b1 (some (.user t))
        dir := upd st.dir b1 (dictAdd (st.dir b1) (P.entry (P.dom t) s1)) }.goto t b1 off1 s1
          .addLocked) t b1 off1 s1 .add .addLocked := ⟨hp, rfl, rfl, nofun⟩
    refine o.inv h (fun _ _ _ _ => rfl) (fun _ => rfl) nofun ?_ ?_
      (lock_take h.dl _ _ b1 hf (by intro k; rw [hp]; simp [DlOf, dlPhase, hm, eq_comm])) ?_
      hm nofun
      (fun _ _ => rfl) (h.box_none hp nofun) (.inl nofun) (fun _ => rfl)
      (fun hm => o.win_add h (h.win hm) hD rfl nofun (.inr rfl) rfl rfl) <;> lk_auto h hp
  | addWinEnd _ _ b1 off1 s1 hp =>
    have o : OwnStep P st ({ st with dl := upd st.dl b1 none }.goto t b1 off1 s1 .use)
      t b1 off1 s1 .addLocked .use := ⟨hp, rfl, rfl, nofun⟩
    have hm : P.mode = .window := h.phase t b1 off1 s1 _ hp
    refine o.inv h (fun _ _ _ _ => rfl) (fun _ => rfl) nofun ?_ ?_
      (lock_drop h.dl _ _ b1 (by rw [hp]; exact ⟨hm, rfl⟩)
        (by intro k; rw [hp]; simp [DlOf, dlPhase, hm]; exact fun e => e.symm)) ?_
      trivial nofun
      (fun _ _ => rfl) (h.box_none hp nofun) (.inl nofun) (fun _ => rfl)
      (fun hm => o.win_same h (h.win hm) rfl nofun nofun nofun) <;> lk_auto h hp
  | addThread _ _ b1 off1 s1 hp hm =>
    have o : OwnStep P st ((st.sendOp P (P.rankOf (P.dom t)) b1
        (.add (P.entry (P.dom t) s1))).goto t b1 off1 s1 .use) t b1 off1 s1
          .add .use := ⟨hp, by simp only [DistState.goto, sendOp_pc],
            by simp only [DistState.goto, sendOp_cl], nofun⟩
    have hw : P.mode ≠ .window := by rw [hm]; nofun
    refine o.inv h (fun _ _ _ _ => by simp only [DistState.goto, sendOp_data])
      (fun _ => by simp only [DistState.goto, sendOp_data]) nofun ?_ ?_ ?_ ?_
      trivial (fun e => absurd e hw)
      (fun _ _ => by simp only [DistState.goto, sendOp_box])
      (by simp only [DistState.goto, sendOp_box]; exact h.box_none hp nofun)
      (.inl nofun) (fun e => absurd hm e) (fun e => absurd e hw) <;>
      simp only [DistState.goto, sendOp_cm, sendOp_lk, sendOp_dl, sendOp_blk] <;> lk_auto h hp
  | startNone _ _ b1 off1 s1 hp hm =>
    have hw : P.mode ≠ .window := by rw [hm]; nofun
    refine h.goto_inv hp ?_ ?_ ?_ ?_ ?_ ?_ ⟨fun e => absurd e hw, fun _ => by decide⟩ ?_ ?_ ?_ ?_ <;>
      simp [fills, CmOf, LkOf, SrcOf, DlOf, dlPhase, BlkOf, lockedFill, unpub, hm]
  | startWin _ _ b1 off1 s1 rnd hp hm hf =>
    have o : OwnStep P st ({ st with
        dl := upd st.dl b1 (some (.user t))
        dir := upd st.dir b1 (dictFetchAndUpdate (st.dir b1) (P.entry (P.dom t) s1) rnd).2
        }.goto t b1 off1 s1 (.xfer (dictFetchAndUpdate (st.dir b1) (P.entry (P.dom t) s1) rnd).1))
      t b1 off1 s1 .start (.xfer (dictFetchAndUpdate (st.dir b1) (P.entry (P.dom t) s1) rnd).1) :=
      ⟨hp, rfl, rfl, fun _ => rfl⟩
    refine o.inv h (fun _ _ _ _ => rfl) (fun _ => rfl) nofun ?_ ?_
      (lock_take h.dl _ _ b1 hf (by intro k; rw [hp]; simp [DlOf, dlPhase, hm, eq_comm])) ?_
      ⟨fun _ e he => o.src ?_ nofun, fun e => by rw [hm] at e; cases e⟩ nofun
      (fun _ _ => rfl) (h.box_none hp nofun) (.inl nofun) (fun _ => rfl)
      (fun hm => o.win_add h (h.win hm) hD rfl nofun (.inl rfl) rfl rfl)
    · lk_auto h hp
    · lk_auto h hp
    · lk_auto h hp
    · obtain ⟨L, h1, h2, h3, h4⟩ := (h.win hm).dir b1
      simp only [dictFetchAndUpdate] at he
      rw [h1, dictFetch_enc] at he
      by_cases hL : L = []
      · rw [if_pos hL] at he; omega
      · rw [if_neg hL] at he
        have hpos : 0 < L.length := List.length_pos_of_ne_nil hL
        have hlt : rnd % L.length < L.length := Nat.mod_lt _ hpos
        rw [List.getD_eq_getElem?_getD, List.getElem?_eq_getElem hlt, Option.getD_some] at he
        have hin : e ∈ L := by
          have : L[rnd % L.length] = e := by exact_mod_cast he
          rw [← this]; exact List.getElem_mem hlt
        rcases h4 e hin with hsrc | ⟨u, off2, s2, ph2, hpu, _, _, hlf⟩
        · exact hsrc
        · have := (h.dl b1 (.user u)).2 (by
            rw [hpu]; refine ⟨hm, ?_⟩
            cases ph2 <;> first | rfl | cases hlf)
          rw [hf] at this; cases this
  | startThread _ _ b1 off1 s1 rnd hp hm hc =>
    have hw : P.mode ≠ .window := by rw [hm]; nofun
    refine h.goto_inv hp ?_ ?_ ?_ ?_ ?_ ?_ ⟨fun e => absurd e hw, fun e => by rw [hm] at e; cases e⟩
      ?_ ?_ ?_ ?_ <;>
      simp [fills, CmOf, LkOf, SrcOf, DlOf, dlPhase, BlkOf, lockedFill, unpub, hm]
  | xferNone _ _ b1 off1 s1 e hp he =>
    refine h.goto_inv hp ?_ ?_ ?_ ?_ ?_ ?_ (fun k hk => by omega) ?_ ?_ ?_ ?_ <;>
      simp [fills, CmOf, LkOf, SrcOf, DlOf, dlPhase, BlkOf, lockedFill, unpub]
  | xferWin _ _ b1 off1 s1 e hp hm =>
    have o : OwnStep P st (st.goto t b1 off1 s1 (.copy e 0)) t b1 off1 s1 (.xfer e) (.copy e 0) :=
      ⟨hp, rfl, rfl, fun _ => rfl⟩
    refine h.goto_inv hp ?_ ?_ ?_ ?_ ?_ ?_
      ⟨hm, o.src ((h.phase t b1 off1 s1 _ hp).1 hm e rfl) nofun, fun k hk => by omega⟩ ?_ ?_ ?_ ?_ <;>
      simp [fills, CmOf, LkOf, SrcOf, DlOf, dlPhase, BlkOf, lockedFill, unpub]
  | copyCell _ _ b1 off1 s1 e k hp hk =>
    obtain ⟨a1, a2, a3⟩ := h.phase t b1 off1 s1 _ hp
    obtain ⟨d2, s2, hs2, he2, hg⟩ := h.src_good a2
    have hsrc : P.valid b1 k → st.data (P.entryDom e) (P.entrySlot e) k = P.file b1 k := by
      rw [he2, (entry_dom hD hs2).1, (entry_dom hD hs2).2]; exact hg k
    have o : OwnStep P st ({ st with
        data := setCell st.data (P.dom t) s1 k (st.data (P.entryDom e) (P.entrySlot e) k)
        }.goto t b1 off1 s1 (.copy e (k + 1))) t b1 off1 s1 (.copy e k) (.copy e (k + 1)) :=
      ⟨hp, rfl, rfl, fun _ => rfl⟩
    refine h.cell_inv hp ?_ ?_ ?_ ?_ ?_ ?_
      ⟨a1, o.src a2 nofun, prefix_cell a3 hsrc rfl⟩ ?_ ?_ ?_ ?_ <;>
      simp [fills, CmOf, LkOf, SrcOf, DlOf, dlPhase, BlkOf, lockedFill, unpub]
  | copyDone _ _ b1 off1 s1 e k hp hk =>
    obtain ⟨a1, a2, a3⟩ := h.phase t b1 off1 s1 _ hp
    refine h.goto_inv hp ?_ (fun _ _ => prefix_good a3 hk) ?_ ?_ ?_ ?_ trivial ?_ ?_ ?_ ?_ <;>
      simp [fills, CmOf, LkOf, SrcOf, DlOf, dlPhase, BlkOf, lockedFill, unpub]
  | xferThread _ _ b1 off1 s1 e hp hm hf =>
    have hw : P.mode ≠ .window := by rw [hm]; nofun
    have o : OwnStep P st ({ st with
        blk := upd st.blk (P.rankOf (P.dom t)) (some (.user t))
        }.goto t b1 off1 s1 (.ask (ownerRank P.rankCache e))) t b1 off1 s1 (.xfer e)
        (.ask (ownerRank P.rankCache e)) := ⟨hp, rfl, rfl, fun _ => rfl⟩
    refine o.inv h (fun _ _ _ _ => rfl) (fun _ => rfl) nofun ?_ ?_
      (lock_keep h.dl _ _ (by intro k; rw [hp]; simp [DlOf, hw]))
      (lock_take h.blk _ _ _ hf (by intro k; rw [hp]; simp [BlkOf]))
      hm nofun
      (fun _ _ => rfl) (h.box_none hp nofun) (.inl nofun) (fun _ => rfl)
      (fun e => absurd e hw) <;> lk_auto h hp
  | askFail _ _ b1 off1 s1 r hp hb =>
    have hm : P.mode = .thread := h.phase t b1 off1 s1 _ hp
    have hw : P.mode ≠ .window := by rw [hm]; nofun
    have o : OwnStep P st ({ st with
        box := upd st.box t none
        blk := upd st.blk (P.rankOf (P.dom t)) none }.goto t b1 off1 s1 .start) t b1 off1 s1 (.ask r)
        .start := ⟨hp, rfl, rfl, fun _ => rfl⟩
    refine o.inv h (fun _ _ _ _ => rfl) (fun _ => rfl) nofun ?_ ?_
      (lock_keep h.dl _ _ (by intro k; rw [hp]; simp [DlOf, hw]))
      (lock_drop h.blk _ _ _ (by rw [hp]; rfl) (by intro k; rw [hp]; simp [BlkOf]))
      trivial nofun
      (fun _ hu => upd_ne _ _ hu) (upd_self _ _ _) (.inr (by rw [hb]; nofun)) (fun _ => rfl)
      (fun e => absurd e hw) <;> lk_auto h hp
  | askDone _ _ b1 off1 s1 r buf hp hb =>
    have hm : P.mode = .thread := h.phase t b1 off1 s1 _ hp
    have hw : P.mode ≠ .window := by rw [hm]; nofun
    have o : OwnStep P st ({ st with box := upd st.box t none }.goto t b1 off1 s1 (.recv buf 0))
      t b1 off1 s1 (.ask r) (.recv buf 0) := ⟨hp, rfl, rfl, fun _ => rfl⟩
    have hbuf : ∀ j, P.valid b1 j → buf j = P.file b1 j := by
      obtain ⟨b2, off2, s2, r2, hp2, hh⟩ := h.box t _ hb
      rw [hp] at hp2
      injection hp2 with e1
      subst e1
      exact hh buf rfl
    refine o.inv h (fun _ _ _ _ => rfl) (fun _ => rfl) nofun ?_ ?_
      (lock_keep h.dl _ _ (by intro k; rw [hp]; simp [DlOf, hw])) ?_
      ⟨hm, hbuf, fun k hk => by omega⟩ nofun
      (fun _ hu => upd_ne _ _ hu) (upd_self _ _ _) (.inr (by rw [hb]; nofun)) (fun _ => rfl)
      (fun e => absurd e hw) <;> lk_auto h hp
  | recvCell _ _ b1 off1 s1 k buf hp hk =>
    obtain ⟨a0, a1, a2⟩ := h.phase t b1 off1 s1 _ hp
    refine h.cell_inv hp ?_ ?_ ?_ ?_ ?_ ?_ ⟨a0, a1, prefix_cell a2 (a1 k) rfl⟩ ?_ ?_ ?_ ?_ <;>
      simp [fills, CmOf, LkOf, SrcOf, DlOf, dlPhase, BlkOf, lockedFill, unpub]
  | recvDone _ _ b1 off1 s1 k buf hp hk =>
    obtain ⟨hm, a1, a2⟩ := h.phase t b1 off1 s1 _ hp
    have hw : P.mode ≠ .window := by rw [hm]; nofun
    have o : OwnStep P st ({ st with blk := upd st.blk (P.rankOf (P.dom t)) none }.goto t b1 off1 s1
      .fin) t b1 off1 s1 (.recv buf k) .fin := ⟨hp, rfl, rfl, nofun⟩
    refine o.inv h (fun _ _ _ _ => rfl) (fun _ => rfl) (fun _ _ => prefix_good a2 hk) ?_ ?_
      (lock_keep h.dl _ _ (by intro k; rw [hp]; simp [DlOf, hw]))
      (lock_drop h.blk _ _ _ (by rw [hp]; rfl) (by intro k; rw [hp]; simp [BlkOf]))
      trivial nofun
      (fun _ _ => rfl) (h.box_none hp nofun) (.inl nofun) (fun _ => rfl)
      (fun e => absurd e hw) <;> lk_auto h hp
  | loadCell _ _ b1 off1 s1 k v hp hk hv =>
    refine h.cell_inv hp ?_ ?_ ?_ ?_ ?_ ?_ (prefix_cell (h.phase t b1 off1 s1 _ hp) (fun hx => hv hx.2) rfl)
      ?_ ?_ ?_ ?_ <;>
      simp [fills, CmOf, LkOf, SrcOf, DlOf, dlPhase, BlkOf, lockedFill, unpub]
  | loadDone _ _ b1 off1 s1 k hp hk =>
    refine h.goto_inv hp ?_ (fun _ _ => prefix_good (h.phase t b1 off1 s1 _ hp) hk)
      ?_ ?_ ?_ ?_ trivial ?_ ?_ ?_ ?_ <;>
      simp [fills, CmOf, LkOf, SrcOf, DlOf, dlPhase, BlkOf, lockedFill, unpub]
  | finNone _ _ b1 off1 s1 hp hm =>
    refine h.goto_inv hp ?_ ?_ ?_ ?_ ?_ ?_ trivial ?_ ?_ ?_ ?_ <;>
      simp [fills, CmOf, LkOf, SrcOf, DlOf, dlPhase, BlkOf, lockedFill, unpub, hm]
  | finWin _ _ b1 off1 s1 hp hm =>
    have o : OwnStep P st ({ st with dl := upd st.dl b1 none }.goto t b1 off1 s1 .use)
      t b1 off1 s1 .fin .use := ⟨hp, rfl, rfl, nofun⟩
    refine o.inv h (fun _ _ _ _ => rfl) (fun _ => rfl) nofun ?_ ?_
      (lock_drop h.dl _ _ b1 (by rw [hp]; exact ⟨hm, rfl⟩)
        (by intro k; rw [hp]; simp [DlOf, dlPhase, hm]; exact fun e => e.symm)) ?_
      trivial nofun
      (fun _ _ => rfl) (h.box_none hp nofun) (.inl nofun) (fun _ => rfl)
      (fun hm => o.win_same h (h.win hm) rfl nofun nofun nofun) <;> lk_auto h hp
  | finThread _ _ b1 off1 s1 hp hm =>
    have o : OwnStep P st ((st.sendOp P (P.rankOf (P.dom t)) b1
        (.add (P.entry (P.dom t) s1))).goto t b1 off1 s1 .use) t b1 off1 s1
          .fin .use := ⟨hp, by simp only [DistState.goto, sendOp_pc],
            by simp only [DistState.goto, sendOp_cl], nofun⟩
    have hw : P.mode ≠ .window := by rw [hm]; nofun
    refine o.inv h (fun _ _ _ _ => by simp only [DistState.goto, sendOp_data])
      (fun _ => by simp only [DistState.goto, sendOp_data]) nofun ?_ ?_
      (lock_keep (by simp only [DistState.goto, sendOp_dl]; exact h.dl) _ _
        (by intro k; rw [hp]; simp [DlOf, hw])) ?_
      trivial (fun e => absurd e hw)
      (fun _ _ => by simp only [DistState.goto, sendOp_box])
      (by simp only [DistState.goto, sendOp_box]; exact h.box_none hp nofun)
      (.inl nofun) (fun e => absurd hm e) (fun e => absurd e hw) <;>
      simp only [DistState.goto, sendOp_cm, sendOp_lk, sendOp_dl, sendOp_blk] <;> lk_auto h hp
  | convert _ _ b1 off1 s1 hp =>
    refine h.goto_inv hp ?_ ?_ ?_ ?_ ?_ ?_
      (h.own_good hp rfl off1 (h.own t b1 off1 s1 _ hp).1) ?_ ?_ ?_ ?_ <;>
      simp [fills, CmOf, LkOf, SrcOf, DlOf, dlPhase, BlkOf, lockedFill, unpub]

end DistInv

end Asagi
