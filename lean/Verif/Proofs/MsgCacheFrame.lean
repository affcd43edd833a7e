import Verif.Model.MsgCache
import Verif.Proofs.CacheDistThread
/-
The caches with the communication thread and the implemented messages: steps without messages do
not look at messages or at other threads; blocks are blocks of the grid.
-/
namespace Asagi
open Spec
variable {β : Type} {C : MsgParams β} {P : DistParams β}

/-- `st` and `a` agree except for positions and messages. -/
structure SameMem (st a : DistState β) : Prop where
  cl : a.cl = st.cl
  cm : a.cm = st.cm
  lk : a.lk = st.lk
  data : a.data = st.data
  dir : a.dir = st.dir
  dl : a.dl = st.dl
  blk : a.blk = st.blk

/-- The memory of `st` with the positions and messages of `a`. -/
def DistState.under (a st : DistState β) : DistState β :=
  { st with pc := a.pc, net := a.net, box := a.box }

theorem SameMem.under (a st : DistState β) : SameMem st (a.under st) :=
  ⟨rfl, rfl, rfl, rfl, rfl, rfl, rfl⟩

theorem SameMem.eq {st a : DistState β} (h : SameMem st a) : a = a.under st := by
  cases a; cases st
  obtain ⟨h1, h2, h3, h4, h5, h6, h7⟩ := h
  simp only at h1 h2 h3 h4 h5 h6 h7
  subst h1 h2 h3 h4 h5 h6 h7
  rfl

/-- A step of a thread without messages is possible whatever the other threads and the messages
are. -/
theorem plain_frame (hm : P.mode = .thread) {C : MsgParams β} (hC : C.P = P) {t : Nat}
    {st st' a : DistState β} (hs : UserStep P t st st') (ht : ¬ C.talks t (st.pc (.user t)))
    (hsame : SameMem st a) (hp : a.pc (.user t) = st.pc (.user t)) :
    UserStep P t a { st' with
      pc := upd a.pc (.user t) (st'.pc (.user t)), net := a.net, box := a.box } ∧
    st'.net = st.net ∧ st'.box = st.box ∧ st'.pc = upd st.pc (.user t) (st'.pc (.user t)) ∧
    ∀ b off s r, st'.pc (.user t) ≠ .own b off s (.ask r) := by
  subst hC
  rw [hsame.eq]
  change (a.under st).pc _ = _ at hp
  have e0 : ∀ p, (DistState.under a st).pc p = a.pc p := fun _ => rfl
  cases hs with
  | call _ _ b off h1 h2 =>
    refine ⟨?_, rfl, rfl, by simp only [upd_self], by simp⟩
    simp only [upd_self]; exact .call (a.under st) t b off (by rw [hp, h1]) h2
  | lookup _ _ b off s c' old h1 h2 h3 =>
    refine ⟨?_, rfl, rfl, by simp only [upd_self], by simp⟩
    simp only [upd_self]; exact .lookup (a.under st) t b off s c' old (by rw [hp, h1]) h2 h3
  | lockSlot _ _ b off s old h1 h2 =>
    refine ⟨?_, rfl, rfl, by simp only [upd_self], by
      intro b' off' s' r
      simp only [upd_self]
      split <;> simp⟩
    simp only [upd_self]; exact .lockSlot (a.under st) t b off s old (by rw [hp, h1]) h2
  | unlock _ _ b off s v h1 =>
    refine ⟨?_, rfl, rfl, by simp only [upd_self], by simp⟩
    simp only [upd_self]; exact .unlock (a.under st) t b off s v (by rw [hp, h1])
  | delSkip _ _ b off s old h1 h2 =>
    refine ⟨?_, rfl, rfl, by simp [DistState.goto], by simp [DistState.goto]⟩
    simp only [DistState.goto, upd_self]
    exact .delSkip (a.under st) t b off s old (by rw [hp, h1]) h2
  | delWin _ _ b off s o h1 h2 => rw [hm] at h2; cases h2
  | delWinEnd _ _ b off s o h1 =>
    refine ⟨?_, rfl, rfl, by simp [DistState.goto], by simp [DistState.goto]⟩
    simp only [DistState.goto, upd_self]
    exact .delWinEnd (a.under st) t b off s o (by rw [hp, h1])
  | delThread _ _ b off s o h1 h2 =>
    rw [h1] at ht
    have hh : C.P.home o = C.P.rankOf (C.P.dom t) := Classical.not_not.1 ht
    simp only [DistState.goto, DistState.sendOp, if_pos hh, upd_self]
    refine ⟨?_, by trivial, by trivial, by trivial, by simp⟩
    have := UserStep.delThread (a.under st) t b off s o (by rw [hp, h1]) h2
    simp only [DistState.goto, DistState.sendOp, if_pos hh] at this
    exact this
  | numaEnd _ _ b off s i h1 h2 =>
    refine ⟨?_, rfl, rfl, by simp [DistState.goto], by simp [DistState.goto]⟩
    simp only [DistState.goto, upd_self]
    exact .numaEnd (a.under st) t b off s i (by rw [hp, h1]) h2
  | numaOwn _ _ b off s i h1 h2 h3 h4 =>
    refine ⟨?_, rfl, rfl, by simp [DistState.goto], by simp [DistState.goto]⟩
    simp only [DistState.goto, upd_self]
    exact .numaOwn (a.under st) t b off s i (by rw [hp, h1]) h2 h3 h4
  | numaBusy _ _ b off s i h1 h2 h3 h4 h5 =>
    refine ⟨?_, rfl, rfl, by simp [DistState.goto], by simp [DistState.goto]⟩
    simp only [DistState.goto, upd_self]
    exact .numaBusy (a.under st) t b off s i (by rw [hp, h1]) h2 h3 h4 h5
  | numaTry _ _ b off s i h1 h2 h3 h4 h5 h6 =>
    refine ⟨?_, rfl, rfl, by simp [DistState.goto], by simp [DistState.goto]⟩
    simp only [DistState.goto, upd_self]
    exact .numaTry (a.under st) t b off s i (by rw [hp, h1]) h2 h3 h4 h5 h6
  | numaMiss _ _ b off s i h1 h2 =>
    refine ⟨?_, rfl, rfl, by simp [DistState.goto], by simp [DistState.goto]⟩
    simp only [DistState.goto, upd_self]
    exact .numaMiss (a.under st) t b off s i (by rw [hp, h1]) h2
  | numaHit _ _ b off s i s' h1 h2 h3 =>
    refine ⟨?_, rfl, rfl, by simp [DistState.goto], by simp [DistState.goto]⟩
    simp only [DistState.goto, upd_self]
    exact .numaHit (a.under st) t b off s i s' (by rw [hp, h1]) h2 h3
  | numaCell _ _ b off s i s' k h1 h2 =>
    refine ⟨?_, rfl, rfl, by simp [DistState.goto], by simp [DistState.goto]⟩
    simp only [DistState.goto, upd_self]
    exact .numaCell (a.under st) t b off s i s' k (by rw [hp, h1]) h2
  | numaDone _ _ b off s i s' k h1 h2 =>
    refine ⟨?_, rfl, rfl, by simp [DistState.goto], by simp [DistState.goto]⟩
    simp only [DistState.goto, upd_self]
    exact .numaDone (a.under st) t b off s i s' k (by rw [hp, h1]) h2
  | addNone _ _ b off s h1 h2 => rw [hm] at h2; cases h2
  | addWin _ _ b off s h1 h2 => rw [hm] at h2; cases h2
  | addWinEnd _ _ b off s h1 =>
    refine ⟨?_, rfl, rfl, by simp [DistState.goto], by simp [DistState.goto]⟩
    simp only [DistState.goto, upd_self]
    exact .addWinEnd (a.under st) t b off s (by rw [hp, h1])
  | addThread _ _ b off s h1 h2 =>
    rw [h1] at ht
    have hh : C.P.home b = C.P.rankOf (C.P.dom t) := Classical.not_not.1 ht
    simp only [DistState.goto, DistState.sendOp, if_pos hh, upd_self]
    refine ⟨?_, by trivial, by trivial, by trivial, by simp⟩
    have := UserStep.addThread (a.under st) t b off s (by rw [hp, h1]) h2
    simp only [DistState.goto, DistState.sendOp, if_pos hh] at this
    exact this
  | startNone _ _ b off s h1 h2 => rw [hm] at h2; cases h2
  | startWin _ _ b off s rnd h1 h2 => rw [hm] at h2; cases h2
  | startThread _ _ b off s rnd h1 h2 h3 =>
    rw [h1] at ht
    have hh : C.P.home b = C.P.rankOf (C.P.dom t) := Classical.not_not.1 ht
    refine ⟨?_, rfl, rfl, by simp [DistState.goto], by simp [DistState.goto]⟩
    simp only [DistState.goto, upd_self]
    exact .startThread (a.under st) t b off s rnd (by rw [hp, h1]) h2 (.inl hh)
  | xferNone _ _ b off s e h1 h2 =>
    refine ⟨?_, rfl, rfl, by simp [DistState.goto], by simp [DistState.goto]⟩
    simp only [DistState.goto, upd_self]
    exact .xferNone (a.under st) t b off s e (by rw [hp, h1]) h2
  | xferWin _ _ b off s e h1 h2 => rw [hm] at h2; cases h2
  | copyCell _ _ b off s e k h1 h2 =>
    refine ⟨?_, rfl, rfl, by simp [DistState.goto], by simp [DistState.goto]⟩
    simp only [DistState.goto, upd_self]
    exact .copyCell (a.under st) t b off s e k (by rw [hp, h1]) h2
  | copyDone _ _ b off s e k h1 h2 =>
    refine ⟨?_, rfl, rfl, by simp [DistState.goto], by simp [DistState.goto]⟩
    simp only [DistState.goto, upd_self]
    exact .copyDone (a.under st) t b off s e k (by rw [hp, h1]) h2
  | xferThread _ _ b off s e h1 h2 h3 =>
    rw [h1] at ht
    exact absurd (Int.natCast_nonneg e) ht
  | askFail _ _ b off s r h1 h2 => rw [h1] at ht; exact absurd trivial ht
  | askDone _ _ b off s r buf h1 h2 => rw [h1] at ht; exact absurd trivial ht
  | recvCell _ _ b off s k buf h1 h2 =>
    refine ⟨?_, rfl, rfl, by simp [DistState.goto], by simp [DistState.goto]⟩
    simp only [DistState.goto, upd_self]
    exact .recvCell (a.under st) t b off s k buf (by rw [hp, h1]) h2
  | recvDone _ _ b off s k buf h1 h2 =>
    refine ⟨?_, rfl, rfl, by simp [DistState.goto], by simp [DistState.goto]⟩
    simp only [DistState.goto, upd_self]
    exact .recvDone (a.under st) t b off s k buf (by rw [hp, h1]) h2
  | loadCell _ _ b off s k v h1 h2 h3 =>
    refine ⟨?_, rfl, rfl, by simp [DistState.goto], by simp [DistState.goto]⟩
    simp only [DistState.goto, upd_self]
    exact .loadCell (a.under st) t b off s k v (by rw [hp, h1]) h2 h3
  | loadDone _ _ b off s k h1 h2 =>
    refine ⟨?_, rfl, rfl, by simp [DistState.goto], by simp [DistState.goto]⟩
    simp only [DistState.goto, upd_self]
    exact .loadDone (a.under st) t b off s k (by rw [hp, h1]) h2
  | finNone _ _ b off s h1 h2 => rw [hm] at h2; cases h2
  | finWin _ _ b off s h1 h2 => rw [hm] at h2; cases h2
  | finThread _ _ b off s h1 h2 =>
    rw [h1] at ht
    have hh : C.P.home b = C.P.rankOf (C.P.dom t) := Classical.not_not.1 ht
    simp only [DistState.goto, DistState.sendOp, if_pos hh, upd_self]
    refine ⟨?_, by trivial, by trivial, by trivial, by simp⟩
    have := UserStep.finThread (a.under st) t b off s (by rw [hp, h1]) h2
    simp only [DistState.goto, DistState.sendOp, if_pos hh] at this
    exact this
  | convert _ _ b off s h1 =>
    refine ⟨?_, rfl, rfl, by simp [DistState.goto], by simp [DistState.goto]⟩
    simp only [DistState.goto, upd_self]
    exact .convert (a.under st) t b off s (by rw [hp, h1])

/-! ### Blocks of the grid -/

/-- A block of the grid. -/
def DistParams.isBlock (P : DistParams β) (b : Nat) : Prop := ∃ k, P.valid b k

/-- The block from which a slot was taken. -/
def Pc.oldBlock : Pc β → Option Nat
  | .wantSlot _ _ _ old => old
  | .own _ _ _ (.del old) => old
  | _ => none

structure BlockInv (P : DistParams β) (st : DistState β) : Prop where
  idx : ∀ d s b, Idx st d s b → P.isBlock b
  old : ∀ t o, (st.pc (.user t)).oldBlock = some o → P.isBlock o

theorem BlockInv.frame {st st' : DistState β} (h : BlockInv P st) (ecl : st'.cl = st.cl)
    (ho : ∀ t o, (st'.pc (.user t)).oldBlock = some o → (st.pc (.user t)).oldBlock = some o) :
    BlockInv P st' :=
  ⟨fun d s b hi => h.idx d s b (by unfold Idx at hi ⊢; rw [← ecl]; exact hi),
    fun t o hto => h.old t o (ho t o hto)⟩

theorem BlockInv.goto {st st1 : DistState β} (h : BlockInv P st) (ecl : st1.cl = st.cl)
    (epc : st1.pc = st.pc) {t b off s : Nat} {ph : Phase β} (hph : ∀ o, ph ≠ .del o) :
    BlockInv P (st1.goto t b off s ph) := by
  refine h.frame ecl fun u o hu => ?_
  by_cases e : u = t
  · subst e
    change (upd st1.pc (.user u) (.own b off s ph) (.user u)).oldBlock = _ at hu
    rw [upd_self] at hu
    cases ph <;> first | exact absurd rfl (hph _) | cases hu
  · change (upd st1.pc (.user t) (.own b off s ph) (.user u)).oldBlock = _ at hu
    rw [upd_ne _ _ (fun x => e (by injection x)), epc] at hu
    exact hu

theorem BlockInv.user {st st' : DistState β} (hI : DistInv P st) (h : BlockInv P st) {t : Nat}
    (hs : UserStep P t st st') : BlockInv P st' := by
  have op : ∀ (r b : Nat) (op : DictOp), (st.sendOp P r b op).cl = st.cl ∧
      (st.sendOp P r b op).pc = st.pc := by
    intro r b op
    unfold DistState.sendOp
    split <;> exact ⟨rfl, rfl⟩
  cases hs with
  | call _ _ b off h1 h2 =>
    refine h.frame rfl fun u o hu => ?_
    by_cases e : u = t
    · subst e
      dsimp only at hu
      rw [upd_self] at hu; cases hu
    · dsimp only at hu
      rw [upd_ne _ _ (fun x => e (by injection x))] at hu; exact hu
  | lookup _ _ b off s c' old h1 h2 h3 =>
    have hb : P.isBlock b := ⟨off, hI.wantc t b off h1⟩
    obtain ⟨hh, inv, -⟩ := hI.lists (P.dom t)
    obtain ⟨c2, s2, o2, e1, -, -, -, -, hx⟩ := inv.get b
    rw [e1] at h3
    injection h3 with h3
    injection h3 with h3 h4
    injection h4 with h4 h5
    subst h3 h4 h5
    have hold : ∀ o, o2 = some o → P.isBlock o := by
      rintro o rfl
      rcases hx with ⟨-, ho, -⟩ | ⟨-, -, ho, -⟩
      · cases ho; exact hb
      · exact h.idx (P.dom t) s2 o ho
    have hidx : ∀ s x : Nat, c2.indexToBlock[s]? = some (some x) → P.isBlock x := by
      intro s x hsx
      rcases hx with ⟨-, -, ho, -⟩ | ⟨-, -, -, ho, -⟩
      · rw [ho] at hsx; exact h.idx (P.dom t) s x hsx
      · rw [ho, List.getElem?_set] at hsx
        split at hsx
        · split at hsx
          · injection hsx with hsx; injection hsx with hsx; subst hsx; exact hb
          · cases hsx
        · exact h.idx (P.dom t) s x hsx
    constructor
    · intro d s x hi
      unfold Idx at hi
      dsimp only at hi
      by_cases e : d = P.dom t
      · subst e; rw [upd_self] at hi; exact hidx s x hi
      · rw [upd_ne _ _ e] at hi; exact h.idx d s x hi
    · intro u o hu
      dsimp only at hu
      by_cases e : u = t
      · subst e; rw [upd_self] at hu; exact hold o hu
      · rw [upd_ne _ _ (fun x => e (by injection x))] at hu; exact h.old u o hu
  | lockSlot _ _ b off s old h1 h2 =>
    refine h.frame rfl fun u o hu => ?_
    dsimp only at hu
    by_cases e : u = t
    · subst e
      rw [upd_self] at hu
      rw [h1]
      split at hu
      · cases hu
      · exact hu
    · rw [upd_ne _ _ (fun x => e (by injection x))] at hu; exact hu
  | unlock _ _ b off s v h1 =>
    refine h.frame rfl fun u o hu => ?_
    dsimp only at hu
    by_cases e : u = t
    · subst e
      rw [upd_self] at hu; cases hu
    · rw [upd_ne _ _ (fun x => e (by injection x))] at hu; exact hu
  | delThread _ _ b off s o h1 h2 => exact h.goto (op ..).1 (op ..).2 (by simp)
  | addThread _ _ b off s h1 h2 => exact h.goto (op ..).1 (op ..).2 (by simp)
  | finThread _ _ b off s h1 h2 => exact h.goto (op ..).1 (op ..).2 (by simp)
  | _ =>
    refine h.goto ?_ ?_ ?_
    · rfl
    · rfl
    · simp

theorem BlockInv.reach (hl : Legal P) {st : DistState β} (h : DistReach P st) : BlockInv P st := by
  induction h with
  | init h =>
    obtain ⟨c, hc, rfl⟩ := h
    refine ⟨fun d s b hi => ?_, fun t o ho => nomatch ho⟩
    obtain ⟨c2, -, e1, -, -, -, e2, -⟩ := CacheList.init_inv hl.size hl.hand
    rw [e1] at hc
    injection hc with hc; subst hc
    change c2.indexToBlock[s]? = _ at hi
    rw [e2, List.getElem?_replicate] at hi
    split at hi <;> cases hi
  | @step st st' hr hs ih =>
    cases hs with
    | user t hs => exact ih.user (DistInv.reach hl.domains hl.size hl.hand hr) hs
    | comm r hs =>
      refine ih.frame ?_ fun t o ho => ?_
      · cases hs <;> rfl
      · rw [comm_other hs (by nofun)] at ho; exact ho

end Asagi
