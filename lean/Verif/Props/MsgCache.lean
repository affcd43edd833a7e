import Verif.Proofs.MsgCacheLive
import Verif.Proofs.MsgCacheBuf
import Verif.Proofs.MsgCacheRun
import Verif.Props.SharedLib
import Verif.Props.SharedValues
import Verif.Props.SharedRetry
/-
C82: the caches with the communication thread and the messages as they are implemented.
-/
namespace Asagi.Props
open Asagi Asagi.Spec
variable {β : Type} {C : MsgParams β} {ms ms' : MsgSt β}

/-- **C82**, the implemented messages are as good as ideal ones: for every state that can be reached
with the implemented messages there is a state with the same contents of all caches, bookkeeping,
directories and mutexes that can be reached if requests know their thread and replies find it, and
in which all threads that are not just sending or waiting for a message are at the same positions.
So everything that holds for the contents of the latter (C09, C17, C63) holds for the former. -/
theorem C82_refines (hC : LegalMsg C) (h : MsgReach C ms) :
    ∃ a, DistReach C.P a ∧ SameCaches ms.st a ∧
      ∀ t, ms.call t = .out → a.pc (.user t) = ms.st.pc (.user t) := by
  obtain ⟨a, is, xs, h1, h2⟩ := MsgReach.sim hC h
  refine ⟨a, h1, ⟨h2.same.cl, h2.same.cm, h2.same.lk, h2.same.data, h2.same.dir, h2.same.dl,
    h2.same.blk⟩, fun t ht => ?_⟩
  have := h2.users t
  rw [ht] at this
  exact this.1

theorem awaits_info {c : CallPc} (h : awaitsInfo c = true) : c = .waitInfo ∨ ∃ k, c = .sendInfo k := by
  cases c <;> first | exact .inl rfl | exact .inr ⟨_, rfl⟩ | cases h

theorem awaits_xfer {c : CallPc} (h : awaitsXfer c = true) : c = .waitXfer ∨ ∃ k, c = .sendXfer k := by
  cases c <;> first | exact .inl rfl | exact .inr ⟨_, rfl⟩ | cases h

theorem told_info {a : DistState β} {is : Nat → InfoStage} {xs : Nat → XferStage β}
    (h : MsgSim C ms a is xs) {q t b : Nat} {e : Int} (hi : is q = .told t b e) :
    C.rankT t = q ∧ AwaitsEntry C ms (C.P.home b) t b := by
  obtain ⟨h1, h2⟩ := h.ist q t (by rw [hi]; rfl)
  obtain ⟨b', off, s, h3, -, h4⟩ := (h.users t).info h2
  rw [h1, hi] at h4
  rcases h4 with ⟨h4, -⟩ | ⟨e', h4, -⟩
  · cases h4
  · cases h4
    exact ⟨h1, rfl, ⟨off, s, h3⟩, awaits_info h2⟩

theorem stage_xfer {a : DistState β} {is : Nat → InfoStage} {xs : Nat → XferStage β}
    (h : MsgSim C ms a is xs) {q t b r : Nat}
    (hi : xs q = .working t b r ∨ ∃ v, xs q = .told t b r v) :
    C.rankT t = q ∧ AwaitsBlock ms r t b ∧ ∃ off s, a.pc (.user t) = .own b off s (.ask r) := by
  obtain ⟨h1, h2⟩ := h.xst q t (by rcases hi with hi | ⟨v, hi⟩ <;> (rw [hi]; rfl))
  obtain ⟨b', off, s, r', h3, h5, h4⟩ := (h.users t).xfer h2
  rw [h1] at h4
  have : b' = b ∧ r' = r := by
    rcases hi with hi | ⟨v, hi⟩ <;> rw [hi] at h4 <;>
      rcases h4 with h4 | h4 | ⟨v', h4⟩ <;> cases h4 <;> exact ⟨rfl, rfl⟩
  obtain ⟨rfl, rfl⟩ := this
  exact ⟨h1, ⟨⟨off, s, h3⟩, awaits_xfer h2⟩, off, s, h5.trans h3⟩

theorem mem_infoMail {l : List (Rep β)} {m : Rep β} (hm : m ∈ l) (ht : m.tag = 0) :
    m.val ∈ infoMail l :=
  List.mem_map.2 ⟨m, List.mem_filter.2 ⟨hm, by simp [ht]⟩, rfl⟩

theorem mem_xferMail {l : List (Rep β)} {m : Rep β} (hm : m ∈ l) (ht : m.tag ≠ 0) :
    (m.tag, m.val) ∈ xferMail l :=
  List.mem_map.2 ⟨m, List.mem_filter.2 ⟨hm, by simp [ht]⟩, rfl⟩

/-- **C82**, every reply finds the thread that asked: a reply on the way from process `r` to process
`q` belongs to a thread of process `q` that has asked exactly this process and still waits: with tag
0 it contains an entry, and the thread has asked for an entry; with tag 1 it contains all values of
the block for which the thread has asked; with tag 2 it is the refusal. There is no other reply of
this kind between the two processes, so receiving by tag and process cannot deliver the wrong one. -/
theorem C82_reply_owner (hC : LegalMsg C) (h : MsgReach C ms) (r q : Nat) (m : Rep β)
    (hm : m ∈ ms.mail r q) :
    ∃ t b, C.P.rankT t = q ∧
      ((m.tag = 0 ∧ (∃ e, m.val = .entry e) ∧ AwaitsEntry C ms r t b) ∨
       (m.tag = 1 ∧ (∃ buf, m.val = .block buf ∧ ∀ j, C.P.valid b j → buf j = C.P.file b j) ∧
          AwaitsBlock ms r t b) ∨
       (m.tag = 2 ∧ m.val = .ack ∧ AwaitsBlock ms r t b)) := by
  obtain ⟨a, is, xs, h1, h2⟩ := MsgReach.sim hC h
  have hD := hC.legal.inv h1
  by_cases ht : m.tag = 0
  · have hv := mem_infoMail hm ht
    rw [h2.mailI q r] at hv
    cases hi : is q with
    | none => rw [hi] at hv; cases hv
    | asked => rw [hi] at hv; cases hv
    | told t b e =>
      rw [hi] at hv
      simp only [InfoStage.tells] at hv
      split at hv
      next hb =>
        obtain ⟨h3, h4⟩ := told_info h2 hi
        rw [hb] at h4
        exact ⟨t, b, h3, .inl ⟨ht, ⟨e, List.mem_singleton.1 hv⟩, h4⟩⟩
      next => cases hv
  · have hv := mem_xferMail hm ht
    rw [h2.mailX q r] at hv
    cases hi : xs q with
    | none => rw [hi] at hv; cases hv
    | asked => rw [hi] at hv; cases hv
    | working => rw [hi] at hv; cases hv
    | told t b r' v =>
      rw [hi] at hv
      simp only [XferStage.tells] at hv
      split at hv
      next hb =>
        subst hb
        obtain ⟨h3, h4, off, s, h5⟩ := stage_xfer h2 (.inr ⟨v, hi⟩)
        have hb := List.mem_singleton.1 hv
        cases v with
        | none =>
          injection hb with e1 e2
          exact ⟨t, b, h3, .inr (.inr ⟨e1, e2, h4⟩)⟩
        | some buf =>
          injection hb with e1 e2
          refine ⟨t, b, h3, .inr (.inl ⟨e1, ⟨buf, e2, ?_⟩, h4⟩)⟩
          have hbox : a.box t = some (some buf) := by
            rw [h2.box t, h3, hi]
            simp [XferStage.boxOf]
          obtain ⟨b', off', s', r'', h6, h7⟩ := hD.box t _ hbox
          rw [h5] at h6
          cases h6
          exact h7 buf rfl
      next => cases hv

/-- **C82**: between two processes there is at most one reply to requests for entries and at most one
reply to requests for blocks. -/
theorem C82_one_reply (hC : LegalMsg C) (h : MsgReach C ms) (r q : Nat) :
    ((ms.mail r q).filter fun m => decide (m.tag = 0)).length ≤ 1 ∧
    ((ms.mail r q).filter fun m => decide (m.tag ≠ 0)).length ≤ 1 := by
  obtain ⟨a, is, xs, h1, h2⟩ := MsgReach.sim hC h
  constructor
  · have := congrArg List.length (h2.mailI q r)
    rw [infoMail, List.length_map] at this
    rw [this]
    cases is q <;> simp only [InfoStage.tells] <;> first | (split <;> simp) | simp
  · have := congrArg List.length (h2.mailX q r)
    rw [xferMail, List.length_map] at this
    rw [this]
    cases xs q <;> simp only [XferStage.tells] <;> first | (split <;> simp) | simp

/-- **C82**, only one thread of a process waits for an entry, and only one for a block. -/
theorem C82_one_waits (hC : LegalMsg C) (h : MsgReach C ms) (t u b b' r r' : Nat)
    (hr : C.P.rankT t = C.P.rankT u)
    (hw : (AwaitsEntry C ms r t b ∧ AwaitsEntry C ms r' u b') ∨
      (AwaitsBlock ms r t b ∧ AwaitsBlock ms r' u b')) : t = u := by
  obtain ⟨a, is, xs, h1, h2⟩ := MsgReach.sim hC h
  have hD := hC.legal.inv h1
  rcases hw with ⟨ht, hu⟩ | ⟨ht, hu⟩
  · have key : ∀ {t b r}, AwaitsEntry C ms r t b → ms.info (C.P.rankT t) = some t := by
      rintro t b r ⟨-, -, hc⟩
      refine (h2.info _ _).2 ⟨rfl, ?_⟩
      rcases hc with hc | ⟨k, hc⟩ <;> (rw [hc]; rfl)
    have e := key ht
    rw [hr, key hu] at e
    injection e with e; exact e.symm
  · have key : ∀ {t b r}, AwaitsBlock ms r t b → a.blk (C.P.rankT t) = some (.user t) := by
      rintro t b r ⟨-, hc⟩
      have hx : XferOk t (ms.st.pc (.user t)) (a.pc (.user t)) (xs (C.rankT t)) :=
        (h2.users t).xfer (by rcases hc with hc | ⟨k, hc⟩ <;> (rw [hc]; rfl))
      obtain ⟨b1, off, s, r1, e1, e2, -⟩ := hx
      refine (hD.blk _ _).2 ?_
      rw [e2, e1]
      exact rfl
    have e := key ht
    rw [hr, key hu] at e
    injection e with e; injection e with e; exact e.symm

/-- **C82**, requests are not mixed up: while the communication thread of process `r` looks for block
`b` for process `q` or copies it, a thread of process `q` waits for exactly this block from this
process. -/
theorem C82_request_owner (hC : LegalMsg C) (h : MsgReach C ms) (r q b : Nat)
    (hw : (∃ i, ms.st.pc (.comm r) = .tryDom q b i) ∨ (∃ i, ms.st.pc (.comm r) = .tryCm q b i) ∨
      ∃ i s k buf, ms.st.pc (.comm r) = .send q b i s k buf) :
    ∃ t, C.P.rankT t = q ∧ AwaitsBlock ms r t b := by
  obtain ⟨a, is, xs, h1, h2⟩ := MsgReach.sim hC h
  have hc := h2.comm r
  rcases hw with ⟨i, e⟩ | ⟨i, e⟩ | ⟨i, s, k, buf, e⟩ <;> rw [e] at hc <;> obtain ⟨t, h3, -⟩ := hc <;>
  · obtain ⟨h4, h5, -⟩ := stage_xfer h2 (.inl h3)
    exact ⟨t, h4, h5⟩

/-- **C82**, MPI may read the memory of a block until the end of the send: until `MPI_Test` has
reported the end of the send of a block (`wait`), the communication thread has the lock of the slot
from which the block is sent, so nobody replaces the content of the slot, and the slot still contains
the values of the message. -/
theorem C82_send_buffer (hC : LegalMsg C) (h : MsgReach C ms) (r q : Nat) (m : Rep β)
    (hw : ms.wait r = some (q, m.ticket)) (hm : m ∈ ms.mail r q) (buf : Nat → β)
    (hv : m.val = .block buf) :
    ∃ i s, ms.st.pc (.comm r) = .sent i s ∧
      ms.st.lk (r * C.P.domains + i, s) = some (.comm r) ∧
      (∀ t b off ph, ms.call t = .out → ms.st.pc (.user t) = .own b off s ph →
        C.P.dom t ≠ r * C.P.domains + i) ∧
      ∀ j, j < C.P.cells → ms.st.data (r * C.P.domains + i) s j = buf j := by
  obtain ⟨a, is, xs, h1, h2⟩ := MsgReach.sim hC h
  have hD := hC.legal.inv h1
  obtain ⟨i, s, e1, e2⟩ := (BufInv.reach hC h).sent r q _ hw m hm rfl buf hv
  exact ⟨i, s, e1, h2.reads_locked hD (.inr e1),
    fun t b off ph ho hp => h2.reads_not_own hD (.inr e1) ho hp, fun j hj => (e2 j hj).symm⟩

/-- Where the thread is, if it is outside of the functions that send and receive. -/
theorem out_of_pc {t : Nat} {c : CallPc} {p pa : Pc β} {i : InfoStage} {x : XferStage β}
    (h : UserOk C t c p pa i x) (h1 : p.update C = none) (h2 : ∀ b off s, p ≠ .own b off s .start)
    (h3 : ∀ b off s r, p ≠ .own b off s (.ask r)) : pa = p ∧ c = .out := by
  cases c with
  | out => exact ⟨h.1, rfl⟩
  | sendOp k => obtain ⟨tag, o, e, -⟩ := h; rw [h1] at e; cases e
  | reqInfo => obtain ⟨-, ⟨b, off, s, e, -⟩, -⟩ := h; exact absurd e (h2 b off s)
  | sendInfo | waitInfo => obtain ⟨b, off, s, e, -⟩ := h; exact absurd e (h2 b off s)
  | reqXfer => obtain ⟨-, ⟨b, off, s, r, e⟩, -⟩ := h; exact absurd e (h3 b off s r)
  | sendXfer | waitXfer => obtain ⟨b, off, s, r, e, -⟩ := h; exact absurd e (h3 b off s r)

/-- **C82** and C37: a thread that has received a block copies the values of the file; when the
transfer or the load is finished, and while it announces the block to the directory, its slot
contains the block. -/
theorem C82_received (hC : LegalMsg C) (h : MsgReach C ms) (t b off s : Nat) :
    (∀ buf k, ms.st.pc (.user t) = .own b off s (.recv buf k) →
      ∀ j, C.P.valid b j → buf j = C.P.file b j) ∧
    (ms.st.pc (.user t) = .own b off s .fin → Holds C.P ms.st (C.P.dom t) s b) := by
  obtain ⟨a, is, xs, h1, h2⟩ := MsgReach.sim hC h
  have hD := hC.legal.inv h1
  have hu := h2.users t
  refine ⟨fun buf k e => ?_, fun e => ?_⟩
  · rw [e] at hu
    exact (hD.phase t b off s _ (out_of_pc hu rfl nofun nofun).1).2.1
  · rw [e] at hu
    have key : ∀ {ph : Phase β}, fills ph = false → a.pc (.user t) = .own b off s ph →
        Holds C.P ms.st (C.P.dom t) s b := fun hf hp => by
      have hg : Good C.P a (C.P.dom t) s b := hD.own_good hp hf
      unfold Good at hg
      rw [h2.same.data] at hg
      exact hg
    cases hc : ms.call t with
    | out => rw [hc] at hu; exact key rfl hu.1
    | sendOp k =>
      rw [hc] at hu
      obtain ⟨tag, o, e, -⟩ := hu
      injection e with e; injection e with e1 e; injection e with e2 e
      exact key rfl e.symm
    | reqInfo => rw [hc] at hu; obtain ⟨-, ⟨b, off, s, h3, -⟩, -⟩ := hu; cases h3
    | sendInfo | waitInfo => rw [hc] at hu; obtain ⟨b, off, s, h3, -⟩ := hu; cases h3
    | reqXfer => rw [hc] at hu; obtain ⟨-, ⟨b, off, s, r, h3⟩, -⟩ := hu; cases h3
    | sendXfer | waitXfer => rw [hc] at hu; obtain ⟨b, off, s, r, h3, -⟩ := hu; cases h3

theorem call_sim {a : DistState β} {is : Nat → InfoStage} {xs : Nat → XferStage β}
    (h : MsgSim C ms a is xs) (hD : DistInv C.P a) {t : Nat} (hp : ms.st.pc (.user t) = .idle) (b off : Nat) :
    a.pc (.user t) = .idle ∧
    MsgSim C { ms with st := { ms.st with pc := upd ms.st.pc (.user t) (.wantCm b off) } }
      { a with pc := upd a.pc (.user t) (.wantCm b off) } is xs := by
  have ha := (h.idle_iff t).2 hp
  have hu := h.users t
  have h1 : ms.call t = .out := by
    rw [hp] at hu
    exact (out_of_pc hu rfl nofun nofun).2
  have hpc : ∀ u, u ≠ t → upd ms.st.pc (.user t) (.wantCm b off) (.user u) = ms.st.pc (.user u) :=
    fun u hu => upd_ne _ _ (user_ne' hu)
  have hcm : ∀ r, upd ms.st.pc (.user t) (.wantCm b off) (.comm r) = ms.st.pc (.comm r) :=
    fun r => upd_ne _ _ (by nofun)
  refine ⟨ha, ?_⟩
  exact { h with
    same := ⟨h.same.cl, h.same.cm, h.same.lk, h.same.data, h.same.dir, h.same.dl, h.same.blk⟩
    users := h.users' hD t
      (by dsimp only; rw [h1, upd_self, upd_self]; exact ⟨rfl, by nofun⟩) (fun _ _ => rfl) hpc
      (fun u hu => upd_ne _ _ (user_ne' hu)) (.inl rfl) (.inl rfl)
    comm := fun r => by dsimp only; rw [hcm, upd_ne _ _ (by nofun)]; exact h.comm r
    work := fun q u b r hx => by dsimp only; rw [hcm]; exact h.work q u b r hx }

theorem msg_during (hC : LegalMsg C) {t : Nat} {a : DistState β} {is : Nat → InfoStage}
    {xs : Nat → XferStage β} (h : DistReach C.P a) (hs : MsgSim C ms a is xs)
    (hd : MsgDuring C t ms ms') :
    ∃ a' is' xs', DistReach C.P a' ∧ During C.P t a a' ∧ MsgSim C ms' a' is' xs' := by
  induction hd with
  | refl => exact ⟨a, is, xs, h, .refl _, hs⟩
  | @tail m1 m2 _ hs1 hn ih =>
    obtain ⟨a1, is1, xs1, e1, e2, e3⟩ := ih
    obtain ⟨a2, is2, xs2, e4, e5⟩ := e3.step hC (hC.legal.inv e1) (BlockInv.reach hC.legal e1) hs1
    rcases e4 with ⟨rfl, -⟩ | ⟨e4, -, -⟩
    · exact ⟨_, is2, xs2, e1, e2, e5⟩
    · exact ⟨a2, is2, xs2, .step e1 e4, .tail e2 e4 (fun e => hn ((e5.idle_iff t).1 e)), e5⟩

/-- **C82** and C09: the value that a getter returns with the implemented messages, after any
interleaving with the steps of all other threads of all processes, is the value of the file at the
selected index. -/
theorem C82_value {α : Type} {fp : Fp} {cc : Bool} {nc : List NcAxis} {val : List Nat → α}
    {c : LevelCfg α} (h : Opened fp cc nc val c) (S : SharedCfg α) {C : MsgParams α}
    (hP : C.P = c.shared S) (hC : LegalMsg C) {ms ms1 ms2 : MsgSt α} (hr : MsgReach C ms)
    (t : Nat) (pos : List Dbl) (idx : List Nat)
    (hp : pos2index fp (openAxes fp cc nc) pos = some idx)
    (hc : MsgCalled c t pos ms ms1) (hd : MsgDuring C t ms1 ms2) (v : α)
    (hv : GetterReturns t ms2.st v) : v = val idx := by
  obtain ⟨a, is, xs, h1, h2⟩ := MsgReach.sim hC hr
  obtain ⟨st', ⟨idx', hp', hi, rfl⟩, rfl⟩ := hc
  obtain ⟨k1, k2⟩ := call_sim h2 (hC.legal.inv h1) hi (blockByCoords c.geom idx')
    (calcOffsetInBlock c.geom idx')
  obtain ⟨wf, hx, -, -, -⟩ := h.spec
  have hin := shared_inside wf S (pos2index_inBox wf hx hp')
  rw [← hP] at hin
  obtain ⟨a2, is2, xs2, -, k4, k5⟩ := msg_during hC (.step h1 (.user t (.call a t _ _ k1 hin))) k2 hd
  obtain ⟨b, off, s, hv⟩ := hv
  have hu := k5.users t
  rw [hv] at hu
  have hv2 : GetterReturns t a2 v := ⟨b, off, s, (out_of_pc hu rfl nofun nofun).1⟩
  have hl := hC.legal
  rw [hP] at h1 k4 hl
  exact C09_shared_cache_value h S hl h1 t pos idx hp ⟨idx', hp', k1, rfl⟩ k4 v hv2

/-- **C82** and C18: in every reachable state in which a thread is inside of a getter, a thread
inside of a getter or a communication thread can continue, although threads wait for replies with
slots locked, and even if `MPI_Send` and `MPI_Isend` never buffer a message (`early = false`). -/
theorem C82_no_deadlock (hC : LegalMsg C) (h : MsgReach C ms) (early : Bool) (t : Nat)
    (hn : ms.st.pc (.user t) ≠ .idle) : ∃ ms', MsgQuiet C early ms ms' := by
  obtain ⟨a, is, xs, h1, h2⟩ := MsgReach.sim hC h
  exact h2.progress hC (hC.legal.inv h1) hn

/-- **C82** and C49, the part that holds: only refused requests for blocks can prolong an execution
without new calls; the bound on the number of steps grows by a constant for each refusal, and when
the execution cannot be continued, all calls have returned. Missing: the refusals are not bounded
(`C49_livelock_violated`). -/
theorem C82_only_refusals_partial (hC : LegalMsg C) :
    ∃ K, ∀ ms, MsgReach C ms → ∃ N, ∀ early n f ms', MsgQuietRunF C early n f ms ms' →
      n ≤ N + f * K ∧
      ((∀ ms'', ¬ MsgQuiet C early ms' ms'') → ∀ t, ms'.st.pc (.user t) = .idle) := by
  refine ⟨8 * refusalCost C.P, fun ms h => ?_⟩
  obtain ⟨a, is, xs, h1, h2⟩ := MsgReach.sim hC h
  obtain ⟨p, hp⟩ := MsgReach.pot hC h
  obtain ⟨m, hw⟩ := work_exists hC.legal h1
  refine ⟨p + 8 * m, fun early n f ms' hq => ?_⟩
  obtain ⟨h3, a', is', xs', k, g, m', -, -, -, e4, e5, e6⟩ := msgQuietRun_sim hC h h1 h2 hp hq
  obtain ⟨-, m2, -, hle⟩ := quietRunF_le hC.legal hC.thread h1 hw e4
  refine ⟨?_, fun hend t => ?_⟩
  · have : g * refusalCost C.P ≤ f * refusalCost C.P := Nat.mul_le_mul_right _ e5
    have e : f * (8 * refusalCost C.P) = 8 * (f * refusalCost C.P) := by
      rw [Nat.mul_left_comm]
    rw [e]; omega
  · by_contra hn
    obtain ⟨ms'', hq'⟩ := C82_no_deadlock hC h3 early t hn
    exact hend ms'' hq'

theorem quietRunF_run {P : DistParams β} {a a' : DistState β} {n f : Nat} (h : QuietRunF P n f a a') :
    QuietRun P n a a' := by
  induction h with
  | zero => exact .zero _
  | served _ hq _ ih => exact .succ ih hq
  | refused _ hq _ ih => exact .succ ih hq

/-- **C82** and C49, the part that holds: a getter that is not disturbed returns. If thread `t` calls a
getter for a value in block `b`, while no other thread is inside of a getter, no communication thread is
at work and no update of the directory entry of `b` is on the way, then it returns after a bounded
number of steps, whatever the caches and the directory contain. Missing: accesses with concurrent
accesses (`C49_livelock_violated`) and builds without thread support (`C49_noop_violated`). -/
theorem C82_undisturbed_partial (hC : LegalMsg C) (hno : C.P.noop = false) (h : MsgReach C ms)
    {t b off : Nat} (hp : ms.st.pc (.user t) = .wantCm b off)
    (halone : ∀ u, u ≠ t → ms.st.pc (.user u) = .idle) (hcomm : ∀ r, ms.st.pc (.comm r) = .idle)
    (hmail : ∀ q r, ∀ m ∈ ms.wire q r, m.tag = C.addTag ∨ m.tag = C.delTag → C.opBlock r m.data ≠ b) :
    ∃ N, ∀ early n f ms', MsgQuietRunF C early n f ms ms' → n ≤ N ∧
      ((∀ ms'', ¬ MsgQuiet C early ms' ms'') → ms'.st.pc (.user t) = .idle) := by
  obtain ⟨a, is, xs, h1, h2⟩ := MsgReach.sim hC h
  obtain ⟨p, hpot⟩ := MsgReach.pot hC h
  have ha : a.pc (.user t) = .wantCm b off := by
    have hu := h2.users t
    rw [hp] at hu
    exact (out_of_pc hu rfl nofun nofun).1
  obtain ⟨N, hN⟩ := C49_undisturbed_partial hC.legal hC.thread hno h1 ha
    (fun u hu => (h2.idle_iff u).2 (halone u hu))
    (fun r => by
      have := h2.comm r
      rw [hcomm r] at this
      exact this)
    (fun q r op hm => by
      rw [h2.net q r] at hm
      obtain ⟨m, hm, e⟩ := List.mem_filterMap.1 hm
      unfold MsgParams.op at e
      split at e
      · next ht => injection e with e; injection e with e; exact hmail q r m hm (.inl ht) e
      · split at e
        · next ht => injection e with e; injection e with e; exact hmail q r m hm (.inr ht) e
        · cases e)
  refine ⟨p + 8 * N, fun early n f ms' hq => ?_⟩
  obtain ⟨h3, a', is', xs', k, g, m', -, -, -, e4, -, e6⟩ := msgQuietRun_sim hC h h1 h2 hpot hq
  have := (hN k a' (quietRunF_run e4)).1
  refine ⟨by omega, fun hend => ?_⟩
  by_contra hn
  obtain ⟨ms'', hq'⟩ := C82_no_deadlock hC h3 early t hn
  exact hend ms'' hq'

/-! ### Other levels of the grid -/

theorem mail_tags (ho : C.tagOffset ≠ 0) (h : MsgReach C ms) : ∀ r q, ∀ m ∈ ms.mail r q, m.tag ≠ 0 := by
  have key : ∀ {f : Nat → Nat → List (Rep β)} {r q : Nat} {l : List (Rep β)},
      (∀ r q, ∀ m ∈ f r q, m.tag ≠ 0) → (∀ m ∈ l, m.tag ≠ 0) →
      ∀ r' q', ∀ m ∈ upd f r (upd (f r) q l) r' q', m.tag ≠ 0 := by
    intro f r q l hf hl r' q' m hm
    simp only [upd_apply] at hm
    split at hm
    · next e =>
      subst e
      rw [upd_apply] at hm
      split at hm
      · exact hl m hm
      · exact hf _ _ m hm
    · exact hf _ _ m hm
  have ans : ∀ {f : Nat → Nat → List (Rep β)} {r q k g : Nat} {v : RepVal β},
      (∀ r q, ∀ m ∈ f r q, m.tag ≠ 0) → ∀ m ∈ f r q ++ [⟨C.tagOffset + g, k, v⟩], m.tag ≠ 0 := by
    intro f r q k g v hf m hm
    rcases List.mem_append.1 hm with hm | hm
    · exact hf _ _ m hm
    · rw [List.mem_singleton.1 hm]; dsimp only; omega
  have rcv : ∀ {f : Nat → Nat → List (Rep β)} {r q g : Nat} {m : Rep β} {rest : List (Rep β)},
      (∀ r q, ∀ m ∈ f r q, m.tag ≠ 0) → TakeRep (f r q) g m rest → ∀ m ∈ rest, m.tag ≠ 0 := by
    rintro f r q g m rest hf ⟨l1, l2, e1, rfl, -, -⟩ x hx
    refine hf r q x ?_
    rw [e1]
    rcases List.mem_append.1 hx with hx | hx
    · exact List.mem_append_left _ hx
    · exact List.mem_append_right _ (List.mem_cons_of_mem _ hx)
  induction h with
  | init h => obtain ⟨c, -, rfl⟩ := h; intro r q m hm; cases hm
  | step _ hs ih =>
    cases hs with
    | infoRecv t b off s m rest e _ _ h3 => exact key ih (rcv ih h3)
    | xferOk t b off s r m rest buf _ _ h3 => exact key ih (rcv ih h3)
    | xferFail t b off s r m rest _ _ h3 => exact key ih (rcv ih h3)
    | takeInfo src r rnd m rest => exact key ih (ans ih)
    | refuse r src b i => exact key ih (ans ih)
    | reply r src b i s k buf => exact key ih (ans ih)
    | _ => exact ih

/-- **C82**, violated (see C38): in all levels but the first one (`tagOffset` is not 0) no reply has
the tag 0 for which a thread waits that has asked for an entry: it waits for ever, unless it
receives a reply that another level of the grid has sent. -/
theorem C82_other_levels_violated (ho : C.tagOffset ≠ 0) (h : MsgReach C ms) (t : Nat)
    (hw : ms.call t = .waitInfo) (hs : Steps (MsgCacheStep C true) ms ms') :
    ms'.call t = .waitInfo ∧ ms'.st.pc (.user t) = ms.st.pc (.user t) := by
  induction hs with
  | refl => exact ⟨hw, rfl⟩
  | @tail m1 m2 h1 hs ih =>
    have hm := mail_tags ho (h1.reachable h)
    obtain ⟨ih, ip⟩ := ih
    have ne : ∀ {u : Nat}, m1.call u ≠ .waitInfo → t ≠ u := fun hne e => hne (by rw [← e]; exact ih)
    have other : ∀ {u : Nat} {c : CallPc}, m1.call u ≠ .waitInfo → upd m1.call u c t = .waitInfo := by
      intro u c hne
      rw [upd_ne _ _ (ne hne)]; exact ih
    have opc : ∀ {u : Nat} {p : Pc β}, m1.call u ≠ .waitInfo →
        upd m1.st.pc (.user u) p (.user t) = ms.st.pc (.user t) := by
      intro u c hne
      rw [upd_ne _ _ (user_ne' (ne hne))]; exact ip
    cases hs with
    | infoRecv u b off s m rest e _ _ h3 =>
      obtain ⟨l1, l2, e1, -, e2, -⟩ := h3
      exact absurd e2 (hm _ _ m (by rw [e1]; simp))
    | plain u st' hc _ hu =>
      exact ⟨ih, (user_other hu (user_ne' (ne (by rw [hc]; nofun)))).trans ip⟩
    | opSend | infoLock | infoSend | infoSent | xferSend | xferSent =>
      exact ⟨other (by simp_all), ip⟩
    | opSent | xferLock | xferOk | xferFail =>
      exact ⟨other (by simp_all), opc (by simp_all)⟩
    | work r st' _ hk =>
      obtain ⟨hk, -, -, -⟩ := hk
      exact ⟨ih, (comm_other hk (a := .user t) (by nofun)).trans ip⟩
    | takeXfer src r m => exact ⟨ih, (upd_ne m1.st.pc (.tryDom src m.data 0) (agent_ne r t).symm).trans ip⟩
    | refuse r src => exact ⟨ih, (upd_ne m1.st.pc .idle (agent_ne r t).symm).trans ip⟩
    | reply r src b i s k => exact ⟨ih, (upd_ne m1.st.pc (.sent i s) (agent_ne r t).symm).trans ip⟩
    | _ => exact ⟨ih, ip⟩

/-! ### Examples -/

/-- Two processes with two domains each (threads 0, 1 and 2, 3); process `b % 2` has the directory
entry of block `b`, at position `b / 2`. -/
def exMsg (off : Nat) : MsgParams Nat :=
  { P := exShared .thread false false, doff := fun b => b / 2, blockAt := fun r o => 2 * o + r,
    infoTag := 1, xferTag := 2, addTag := 3, delTag := 4, tagOffset := off }

theorem exMsg_legal : LegalMsg (exMsg 0) :=
  ⟨exShared_legal .thread false false, rfl, by decide,
    fun b _ _ => by show 2 * (b / 2) + b % 2 = b; omega, rfl⟩

/-- A state that a schedule reaches. -/
theorem exMsg_state {off : Nat} (cmds : List MsgCmd) (chk : MsgSt Nat → Bool)
    (h : (msgRun (exMsg off) cmds).any chk = true) :
    ∃ ms, MsgReach (exMsg off) ms ∧ chk ms = true := by
  cases hr : msgRun (exMsg off) cmds with
  | none => rw [hr] at h; cases h
  | some ms => rw [hr] at h; exact ⟨ms, msgRun_reach (fun _ _ => trivial) hr, h⟩

def msgSteps (t n : Nat) : List MsgCmd := List.replicate n (.user t 0)

/-- Thread 2 (process 1) loads block 6, whose entry is in process 0. Then thread 0 (process 0) asks
process 1 for block 6, and thread 1 (process 0) asks process 1 for the entry of block 5. -/
def exMsgRequests : List MsgCmd :=
  [.call 2 6 0] ++ msgSteps 2 7 ++ [.take 0 1 0, .comm 0] ++ msgSteps 2 7 ++ [.take 0 1 0] ++
    msgSteps 2 2 ++ [.call 0 6 1] ++ msgSteps 0 8 ++ [.call 1 5 0] ++ msgSteps 1 7

/-- Both requests are on the way from process 0 to process 1. -/
example : ∃ ms, MsgReach (exMsg 0) ms ∧ AwaitsBlock ms 1 0 6 ∧ AwaitsEntry (exMsg 0) ms 1 1 5 ∧
    ms.wire 0 1 = [⟨2, 6, 3⟩, ⟨1, 2, 4⟩] ∧ ms.st.dir 6 = [4, -1, -1, -1] := by
  obtain ⟨ms, hr, hc⟩ := exMsg_state (off := 0) exMsgRequests
    (fun ms => match ms.st.pc (.user 0), ms.st.pc (.user 1) with
      | .own 6 1 0 (.ask 1), .own 5 0 0 .start => decide (ms.call 0 = .waitXfer ∧
        ms.call 1 = .waitInfo ∧ ms.wire 0 1 = [⟨2, 6, 3⟩, ⟨1, 2, 4⟩] ∧ ms.st.dir 6 = [4, -1, -1, -1])
      | _, _ => false) (by decide +kernel)
  refine ⟨ms, hr, ?_⟩
  revert hc
  split
  · next h1 h2 =>
    intro hc
    obtain ⟨h3, h4, h5, h6⟩ := of_decide_eq_true hc
    exact ⟨⟨⟨1, 0, h1⟩, .inl h3⟩, ⟨rfl, ⟨0, 0, h2⟩, .inl h4⟩, h5, h6⟩
  · intro hc; cases hc

/-- The communication thread of process 1 copies the block for process 0; nobody has received it. -/
example : ∃ ms, MsgReach (exMsg 0) ms ∧
    ∃ i s k buf, ms.st.pc (.comm 1) = .send 0 6 i s k buf := by
  obtain ⟨ms, hr, hc⟩ := exMsg_state (off := 0)
    (exMsgRequests ++ [.take 1 0 0] ++ List.replicate 3 (.comm 1))
    (fun ms => match ms.st.pc (.comm 1) with
      | .send 0 6 0 0 1 _ => true
      | _ => false) (by decide +kernel)
  refine ⟨ms, hr, ?_⟩
  revert hc
  split
  · next h1 => intro _; exact ⟨_, _, _, _, h1⟩
  · intro hc; cases hc

/-- The block is sent; MPI has not reported the end of the send. -/
example : ∃ ms, MsgReach (exMsg 0) ms ∧ ∃ m buf, m ∈ ms.mail 1 0 ∧ ms.wait 1 = some (0, m.ticket) ∧
    m.val = .block buf := by
  obtain ⟨ms, hr, hc⟩ := exMsg_state (off := 0)
    (exMsgRequests ++ [.take 1 0 0] ++ List.replicate 5 (.comm 1))
    (fun ms => match ms.wait 1, ms.mail 1 0 with
      | some (0, 5), [⟨1, 5, .block _⟩] => true
      | _, _ => false) (by decide +kernel)
  refine ⟨ms, hr, ?_⟩
  revert hc
  split
  · next buf h1 h2 => intro _; rw [h1, h2]; exact ⟨_, buf, List.mem_singleton.2 rfl, rfl, rfl⟩
  · intro hc; cases hc

/-- Both replies are on the way from process 1 to process 0: the block (tag 1) for thread 0 and the
entry (tag 0) for thread 1. -/
def exMsgReplies : List MsgCmd :=
  exMsgRequests ++ [.take 1 0 0] ++ List.replicate 7 (.comm 1) ++ [.take 1 0 0]

example : ∃ ms, MsgReach (exMsg 0) ms ∧ AwaitsBlock ms 1 0 6 ∧ AwaitsEntry (exMsg 0) ms 1 1 5 ∧
    (ms.mail 1 0).map Rep.tag = [1, 0] := by
  obtain ⟨ms, hr, hc⟩ := exMsg_state (off := 0) exMsgReplies
    (fun ms => match ms.st.pc (.user 0), ms.st.pc (.user 1) with
      | .own 6 1 0 (.ask 1), .own 5 0 0 .start => decide (ms.call 0 = .waitXfer ∧
        ms.call 1 = .waitInfo ∧ (ms.mail 1 0).map Rep.tag = [1, 0])
      | _, _ => false) (by decide +kernel)
  refine ⟨ms, hr, ?_⟩
  revert hc
  split
  · next h1 h2 =>
    intro hc
    obtain ⟨h3, h4, h5⟩ := of_decide_eq_true hc
    exact ⟨⟨⟨1, 0, h1⟩, .inl h3⟩, ⟨rfl, ⟨0, 0, h2⟩, .inl h4⟩, h5⟩
  · intro hc; cases hc

/-- The entry is received first, although the block was sent first; then the block is received, and
thread 0 returns the second value of block 6. -/
example : ∃ ms, MsgReach (exMsg 0) ms ∧ GetterReturns 0 ms.st 61 ∧
    ∃ s, ms.st.pc (.user 1) = .own 5 0 s (.load 0) := by
  obtain ⟨ms, hr, hc⟩ := exMsg_state (off := 0) (exMsgReplies ++ msgSteps 1 2 ++ msgSteps 0 6)
    (fun ms => match ms.st.pc (.user 0), ms.st.pc (.user 1) with
      | .own 6 1 0 (.out 61), .own 5 0 0 (.load 0) => true
      | _, _ => false) (by decide +kernel)
  refine ⟨ms, hr, ?_⟩
  revert hc
  split
  · next h1 h2 => intro _; exact ⟨⟨6, 1, 0, h1⟩, 0, h2⟩
  · intro hc; cases hc

/-- The hypotheses of `C82_undisturbed_partial`: thread 2 calls a getter for a value of block 6, whose
entry is in the other process. -/
example : ∃ ms, MsgReach (exMsg 0) ms ∧ (exMsg 0).P.noop = false ∧
    ms.st.pc (.user 2) = .wantCm 6 0 ∧ (∀ u, u ≠ 2 → ms.st.pc (.user u) = .idle) ∧
    (∀ r, ms.st.pc (.comm r) = .idle) ∧
    (∀ q r, ∀ m ∈ ms.wire q r, m.tag = 3 ∨ m.tag = 4 → (exMsg 0).opBlock r m.data ≠ 6) := by
  obtain ⟨l, _, hl, -⟩ := CacheList.init_inv exMsg_legal.legal.size exMsg_legal.legal.hand
  refine ⟨_, .step (.init ⟨l, hl, rfl⟩) (.plain _ 2 _ rfl (by nofun) (.call _ _ 6 0 rfl
    ⟨Nat.zero_lt_succ 1, trivial⟩)), rfl, ?_, fun u hu => ?_, fun r => ?_, nofun⟩
  · exact upd_self (MsgSt.start (exMsg 0) l).st.pc (.user 2) (.wantCm 6 0)
  · exact upd_ne (MsgSt.start (exMsg 0) l).st.pc (.wantCm 6 0) (user_ne' hu)
  · exact upd_ne (MsgSt.start (exMsg 0) l).st.pc (.wantCm 6 0) (agent_ne r 2)

/-- In the second level, thread 2 waits for the entry of block 6; the reply has arrived with tag 3
(`tagOffset` 3, mpithreadcache.h 401). -/
example : ∃ ms, MsgReach (exMsg 3) ms ∧ ms.call 2 = .waitInfo ∧ (ms.mail 0 1).map Rep.tag = [3] := by
  obtain ⟨ms, hr, hc⟩ := exMsg_state (off := 3)
    ([.call 2 6 0] ++ msgSteps 2 7 ++ [.take 0 1 0, .comm 0])
    (fun ms => decide (ms.call 2 = .waitInfo ∧ (ms.mail 0 1).map Rep.tag = [3])) (by decide +kernel)
  exact ⟨ms, hr, of_decide_eq_true hc⟩

end Asagi.Props
