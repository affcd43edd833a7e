import Verif.Proofs.CacheDistStep
import Verif.Proofs.CacheDistRun
import Verif.Proofs.CacheDistPoke
import Verif.Spec.SharedCache
/-
Properties of caches that are shared between threads, NUMA domains and processes: C17, C19, C35, C37.
-/
namespace Asagi.Props
open Asagi Asagi.Spec
variable {β : Type} {P : DistParams β} {st st' : DistState β}

/-! ### Auxiliary facts -/

theorem _root_.Asagi.Spec.Legal.inv (hl : Legal P) (h : DistReach P st) : DistInv P st :=
  DistInv.reach hl.domains hl.size hl.hand h

theorem uses_locked (h : DistInv P st) {a : Agent} {d s : Nat} (hu : Uses P a (st.pc a) d s) :
    st.lk (d, s) = some a := by
  refine (h.lk _ _).2 ?_
  generalize st.pc a = p at hu
  cases hu with
  | own => exact .inl rfl
  | numa => exact .inr rfl
  | send => exact rfl

theorem writes_uses {a : Agent} {p : Pc β} {d s : Nat} (hw : Writes P a p d s) : Uses P a p d s := by
  cases hw <;> exact .own ..

theorem reads_holds (hl : Legal P) (h : DistInv P st) {a : Agent} {d s b : Nat}
    (hr : Reads P a (st.pc a) d s b) : Holds P st d s b := by
  generalize hp : st.pc a = p at hr
  cases hr with
  | use t b off s => exact h.own_good hp rfl
  | numa t b off s i s' k => exact h.numa_src hp
  | window t b off s e k =>
    obtain ⟨-, hs, -⟩ := h.phase t b off s _ hp
    obtain ⟨d, s1, hlt, he, hg⟩ := h.src_good hs
    obtain ⟨e1, e2⟩ := entry_dom (d := d) hl.domains hlt
    rw [he, e1, e2]; exact hg
  | send r t b i s k buf => exact h.send_src hp

theorem reads_writes (hl : Legal P) (h : DistInv P st) {a a' : Agent} {d s b : Nat}
    (hr : Reads P a (st.pc a) d s b) (hw : Writes P a' (st.pc a') d s) : False := by
  have hlk := uses_locked h (writes_uses hw)
  generalize hp : st.pc a = p at hr
  generalize hq : st.pc a' = q at hw
  have hsame : ∀ a1, Uses P a1 (st.pc a1) d s → a1 = a' := by
    intro a1 hu
    have := uses_locked h hu
    rw [hlk] at this
    injection this with e; exact e.symm
  cases hr with
  | use t b off s =>
    have e := hsame (.user t) (by rw [hp]; exact .own ..)
    subst e; rw [hp] at hq; subst hq; cases hw
  | numa t b off s1 i s' k =>
    have e := hsame (.user t) (by rw [hp]; exact .numa ..)
    subst e; rw [hp] at hq; subst hq
    obtain ⟨h1, h2, -⟩ := h.phase t b off s1 _ hp
    have hd : P.dom t = P.rankOf (P.dom t) * P.domains + i := by
      generalize hx : P.rankOf (P.dom t) * P.domains + i = x at hw
      cases hw; rfl
    apply h2
    have := congrArg (· % P.domains) hd
    rw [this, Nat.mul_comm, Nat.mul_add_mod, Nat.mod_eq_of_lt h1]
  | window t b off s1 e k =>
    obtain ⟨-, hs, -⟩ := h.phase t b off s1 _ hp
    obtain ⟨d, s2, hlt, he, hg⟩ := hs
    obtain ⟨e1, e2⟩ := entry_dom (d := d) hl.domains hlt
    rw [he, e1, e2] at hw hlk
    rcases hg with ⟨-, hn⟩ | ⟨u, b', off', hu, hd⟩
    · apply hn
      cases hw with
      | numa => exact ⟨_, _, _, _, hq, rfl, rfl⟩
      | window => exact ⟨_, _, _, _, hq, rfl, rfl⟩
      | recv => exact ⟨_, _, _, _, hq, rfl, rfl⟩
      | load => exact ⟨_, _, _, _, hq, rfl, rfl⟩
    · have := h.lk_own hu
      rw [hd, hlk] at this
      injection this with e3; subst e3
      rw [hu] at hq; subst hq; cases hw
  | send r t b i s k buf =>
    have e := hsame (.comm r) (by rw [hp]; exact .send ..)
    subst e; rw [hp] at hq; subst hq; cases hw

/-- Only the positions of `Writes` change the memory of the caches. -/
theorem step_writes {a : Agent} (hs : StepOf P a st st') {d s k : Nat}
    (hne : st'.data d s k ≠ st.data d s k) : Writes P a (st.pc a) d s := by
  have hset : ∀ {d1 s1 k1 : Nat} {v : β}, setCell st.data d1 s1 k1 v d s k ≠ st.data d s k →
      d = d1 ∧ s = s1 := by
    intro d1 s1 k1 v hx
    by_cases hc : d = d1 ∧ s = s1 ∧ k = k1
    · exact ⟨hc.1, hc.2.1⟩
    · exact absurd (if_neg hc) hx
  cases a with
  | user t =>
    cases hs with
    | numaCell _ _ b off s1 i s' k1 hp =>
      obtain ⟨rfl, rfl⟩ := hset hne
      rw [hp]; exact .numa ..
    | copyCell _ _ b off s1 e k1 hp =>
      obtain ⟨rfl, rfl⟩ := hset hne
      rw [hp]; exact .window ..
    | recvCell _ _ b off s1 k1 buf hp =>
      obtain ⟨rfl, rfl⟩ := hset hne
      rw [hp]; exact .recv ..
    | loadCell _ _ b off s1 k1 v hp =>
      obtain ⟨rfl, rfl⟩ := hset hne
      rw [hp]; exact .load ..
    | delThread => simp only [DistState.goto, sendOp_data] at hne; exact absurd rfl hne
    | addThread => simp only [DistState.goto, sendOp_data] at hne; exact absurd rfl hne
    | finThread => simp only [DistState.goto, sendOp_data] at hne; exact absurd rfl hne
    | _ => exact absurd rfl hne
  | comm r => cases hs <;> exact absurd rfl hne

/-! ### C17 -/

/-- **C17.** In every reachable state of any number of threads, domains and processes:
(1) at most one agent works with a slot; (2) whoever reads a slot (to convert a value for the user,
to copy it to another domain, to copy it from another process or to send it) finds all values of the
block it takes the slot for; (3) nobody reads a slot that is being written; (4) writers are the
only ones that change the caches. -/
theorem C17_exclusive_complete (hl : Legal P) (h : DistReach P st) :
    (∀ a a' d s, Uses P a (st.pc a) d s → Uses P a' (st.pc a') d s → a = a') ∧
    (∀ a d s b, Reads P a (st.pc a) d s b → Holds P st d s b) ∧
    (∀ a a' d s b, Reads P a (st.pc a) d s b → ¬ Writes P a' (st.pc a') d s) ∧
    (∀ a st', StepOf P a st st' → ∀ d s k, st'.data d s k ≠ st.data d s k →
      Writes P a (st.pc a) d s) := by
  have hI := hl.inv h
  refine ⟨?_, fun a d s b hr => reads_holds hl hI hr, fun a a' d s b hr hw => reads_writes hl hI hr hw,
    fun a st' hs d s k hne => step_writes hs hne⟩
  intro a a' d s h1 h2
  have e1 := uses_locked hI h1
  rw [uses_locked hI h2] at e1
  injection e1 with e; exact e.symm

/-- Two processes with two domains each, two slots per domain, blocks with two values; thread `t`
belongs to domain `t % 4`; two processes that store the directory. -/
def exShared (mode : DistMode) (numa noop : Bool) : DistParams Nat :=
  { domains := 2, size := 2, handDiff := -1, cells := 2, file := fun b k => 10 * b + k,
    inside := fun _ _ => True, zero := 0, dom := fun t => t % 4, home := fun b => b % 2, mode,
    numa := fun _ _ => numa, noop }

theorem exShared_legal (mode : DistMode) (numa noop : Bool) : Legal (exShared mode numa noop) :=
  ⟨by show 0 < 2; decide, by show 0 < 2; decide, by show (-1 : Int) < (2 : Nat); decide⟩

/-- A state that a schedule reaches. -/
theorem ex_state {mode : DistMode} {numa noop : Bool} (cmds : List DistCmd) (chk : DistState Nat → Bool)
    (h : (distRun (exShared mode numa noop) cmds).any chk = true) :
    ∃ st, DistReach (exShared mode numa noop) st ∧ chk st = true := by
  cases hr : distRun (exShared mode numa noop) cmds with
  | none => rw [hr] at h; cases h
  | some st => rw [hr] at h; exact ⟨st, distRun_reach (fun _ _ => trivial) hr, h⟩

/-- Thread 0 has loaded block 5 and returned; thread 1 (another domain of the same process) copies
it and has copied one value; thread 5 (same domain as thread 1) waits for the slot, thread 4 (same
domain as thread 0) wants block 5, too, and waits; thread 2 (another process) loads the block. -/
example : ∃ st, DistReach (exShared .none true false) st ∧
    ∃ s s' old, st.pc (.user 1) = .own 5 1 s (.numaCopy 0 s' 1) ∧
      Reads (exShared .none true false) (.user 1) (st.pc (.user 1)) 0 s' 5 ∧
      Writes (exShared .none true false) (.user 1) (st.pc (.user 1)) 1 s ∧
      st.pc (.user 5) = .wantSlot 5 0 s old ∧
      st.pc (.user 4) = .wantSlot 5 1 s' (some 5) ∧
      Writes (exShared .none true false) (.user 2) (st.pc (.user 2)) 2 0 := by
  obtain ⟨st, hr, hc⟩ := ex_state (mode := .none) (numa := true) (noop := false)
    ([.call 0 5 0] ++ steps 0 15 ++ [.call 1 5 1] ++ steps 1 6 ++ [.call 5 5 0] ++ steps 5 1 ++
      [.call 4 5 1] ++ steps 4 1 ++ [.call 2 5 0] ++ steps 2 10)
    (fun st => match st.pc (.user 1), st.pc (.user 5), st.pc (.user 4), st.pc (.user 2) with
      | .own 5 1 0 (.numaCopy 0 0 1), .wantSlot 5 0 0 _, .wantSlot 5 1 0 (some 5),
        .own 5 0 0 (.load 1) => true
      | _, _, _, _ => false) (by decide +kernel)
  refine ⟨st, hr, 0, 0, ?_⟩
  revert hc
  split
  · next old h1 h2 h3 h4 =>
    intro _
    rw [h1, h2, h3, h4]
    exact ⟨old, rfl, .numa 1 5 1 0 0 0 1, .numa 1 5 1 0 0 0 1, rfl, rfl, .load 2 5 0 0 1⟩
  · intro hc; cases hc

/-- **C17**: what a thread does depends only on the slots that it is reading: with any other content of
a slot that it neither reads nor writes, the same step is possible and has the same effect. So the
content of a slot, which may be incomplete while somebody fills it, is not seen by anybody else. -/
theorem C17_only_readers (a : Agent) (hs : StepOf P a st st') (d s : Nat)
    (hr : ∀ b, ¬ Reads P a (st.pc a) d s b) (hw : ¬ Writes P a (st.pc a) d s) (k : Nat) (v : β) :
    StepOf P a (st.poke d s k v) (st'.poke d s k v) :=
  step_poke hs hr hw

/-- Thread 1 copies block 5 into slot 0 of domain 1 and has copied one value, while thread 2 loads a
value into slot 0 of domain 2. -/
example : ∃ st st', DistReach (exShared .none true false) st ∧
    Writes (exShared .none true false) (.user 1) (st.pc (.user 1)) 1 0 ∧
    StepOf (exShared .none true false) (.user 2) st st' ∧
    (∀ b, ¬ Reads (exShared .none true false) (.user 2) (st.pc (.user 2)) 1 0 b) ∧
    ¬ Writes (exShared .none true false) (.user 2) (st.pc (.user 2)) 1 0 := by
  obtain ⟨st, hr, hc⟩ := ex_state (mode := .none) (numa := true) (noop := false)
    ([.call 0 5 0] ++ steps 0 15 ++ [.call 1 5 1] ++ steps 1 6 ++ [.call 2 5 0] ++ steps 2 10)
    (fun st => match st.pc (.user 1), st.pc (.user 2) with
      | .own 5 1 0 (.numaCopy 0 0 1), .own 5 0 0 (.load 1) => true
      | _, _ => false) (by decide +kernel)
  revert hc
  split
  · next h1 h2 =>
    intro _
    refine ⟨st, _, hr, by rw [h1]; exact .numa 1 5 1 0 0 0 1,
      .loadCell st 2 5 0 0 1 51 h2 (by decide) fun _ => rfl, fun b hb => ?_, fun hb => ?_⟩
    · rw [h2] at hb; nomatch hb
    · rw [h2] at hb
      generalize hd : (1 : Nat) = d at hb
      generalize hz : (0 : Nat) = z at hb
      cases hb
      cases hd
  · intro hc; cases hc

/-! ### C19 -/

/-- **C19.** A thread that looks for its block in the caches of the other domains of its process
(positions `numa`, `numaCm`, `numaCopy`): (1) it copies only from a slot that contains the complete
block, and that nobody is writing; when the copy is finished, its own slot contains the block;
(2) it never waits: in each of these positions its next step is possible, whatever locks the others
hold; (3) a failed attempt at domain `i` changes nothing in the caches, their bookkeeping, the locks
of the slots and the directory, and leaves the mutex of the cache as it was before the attempt: not
touched, or taken when it was free and released. -/
theorem C19_numa_copy (hl : Legal P) (h : DistReach P st) (t b off s : Nat) :
    (∀ i s' k, st.pc (.user t) = .own b off s (.numaCopy i s' k) →
      Holds P st (P.rankOf (P.dom t) * P.domains + i) s' b ∧
      ∀ a, ¬ Writes P a (st.pc a) (P.rankOf (P.dom t) * P.domains + i) s') ∧
    (st.pc (.user t) = .own b off s .add → Holds P st (P.dom t) s b) ∧
    (∀ i s' k ph, st.pc (.user t) = .own b off s ph →
      ph = .numa i ∨ ph = .numaCm i ∨ ph = .numaCopy i s' k → ∃ st', UserStep P t st st') ∧
    (∀ i ph st', st.pc (.user t) = .own b off s ph → ph = .numa i ∨ ph = .numaCm i →
      UserStep P t st st' → st'.pc (.user t) = .own b off s (.numa (i + 1)) →
      st'.data = st.data ∧ st'.cl = st.cl ∧ st'.lk = st.lk ∧ st'.dir = st.dir ∧ st'.dl = st.dl ∧
      st'.net = st.net ∧ (ph = .numa i → st'.cm = st.cm) ∧
      (ph = .numaCm i → st.cm (P.rankOf (P.dom t) * P.domains + i) = some (.user t) ∧
        st'.cm = upd st.cm (P.rankOf (P.dom t) * P.domains + i) none)) ∧
    (∀ i st', st.pc (.user t) = .own b off s (.numa i) → UserStep P t st st' →
      st'.pc (.user t) = .own b off s (.numaCm i) →
      st.cm (P.rankOf (P.dom t) * P.domains + i) = none ∧ st'.data = st.data ∧ st'.cl = st.cl ∧
      st'.lk = st.lk ∧ st'.dir = st.dir ∧ st'.dl = st.dl ∧ st'.net = st.net ∧
      st'.cm = upd st.cm (P.rankOf (P.dom t) * P.domains + i) (some (.user t))) := by
  have hI := hl.inv h
  refine ⟨?_, fun hp => hI.own_good hp rfl, ?_, ?_, ?_⟩
  · intro i s' k hp
    have hr : Reads P (.user t) (st.pc (.user t)) (P.rankOf (P.dom t) * P.domains + i) s' b := by
      rw [hp]; exact .numa ..
    exact ⟨reads_holds hl hI hr, fun a hw => reads_writes hl hI hr hw⟩
  · intro i s' k ph hp hph
    have hx : ∃ st', execOwn P st t 0 b off s ph = some st' := by
      rcases hph with rfl | rfl | rfl
      · simp only [execOwn]; repeat' split
        all_goals exact ⟨_, rfl⟩
      · simp only [execOwn]; repeat' split
        all_goals exact ⟨_, rfl⟩
      · simp only [execOwn]; repeat' split
        all_goals exact ⟨_, rfl⟩
    obtain ⟨st', hx⟩ := hx
    exact ⟨st', execOwn_sound hp hx⟩
  · intro i ph st' hp hph hs hp'
    have hno : ∀ ph', ph' ≠ .numa (i + 1) → st'.pc = upd st.pc (.user t) (.own b off s ph') → False := by
      intro ph' hne e
      rw [e, upd_self] at hp'
      injection hp' with _ _ _ e4
      exact hne e4
    rcases hph with rfl | rfl
    · cases hs with
      | call _ _ _ _ hq => rw [hp] at hq; cases hq
      | numaEnd _ _ b1 off1 s1 i1 hq =>
        rw [hp] at hq; cases hq
        exact (hno .start nofun rfl).elim
      | numaOwn _ _ b1 off1 s1 i1 hq =>
        rw [hp] at hq; cases hq
        exact ⟨rfl, rfl, rfl, rfl, rfl, rfl, fun _ => rfl, nofun⟩
      | numaBusy _ _ b1 off1 s1 i1 hq =>
        rw [hp] at hq; cases hq
        exact ⟨rfl, rfl, rfl, rfl, rfl, rfl, fun _ => rfl, nofun⟩
      | numaTry _ _ b1 off1 s1 i1 hq =>
        rw [hp] at hq; cases hq
        exact (hno (.numaCm i) nofun rfl).elim
      | _ => simp_all
    · cases hs with
      | numaMiss _ _ b1 off1 s1 i1 hq =>
        rw [hp] at hq; cases hq
        refine ⟨rfl, rfl, rfl, rfl, rfl, rfl, nofun, fun _ => ⟨?_, rfl⟩⟩
        exact (hI.cm _ _).2 (by rw [hp]; exact rfl)
      | numaHit _ _ b1 off1 s1 i1 s' hq =>
        rw [hp] at hq; cases hq
        exact (hno (.numaCopy i s' 0) nofun rfl).elim
      | _ => simp_all
  · intro i st' hp hs hp'
    have hno : ∀ ph', ph' ≠ .numaCm i → st'.pc = upd st.pc (.user t) (.own b off s ph') → False := by
      intro ph' hne e
      rw [e, upd_self] at hp'
      injection hp' with _ _ _ e4
      exact hne e4
    cases hs with
    | numaEnd _ _ b1 off1 s1 i1 hq =>
      rw [hp] at hq; cases hq
      exact (hno .start nofun rfl).elim
    | numaOwn _ _ b1 off1 s1 i1 hq =>
      rw [hp] at hq; cases hq
      exact (hno (.numa (i + 1)) nofun rfl).elim
    | numaBusy _ _ b1 off1 s1 i1 hq =>
      rw [hp] at hq; cases hq
      exact (hno (.numa (i + 1)) nofun rfl).elim
    | numaTry _ _ b1 off1 s1 i1 hq _ _ _ _ hc =>
      rw [hp] at hq; cases hq
      exact ⟨hc, rfl, rfl, rfl, rfl, rfl, rfl, rfl⟩
    | _ => simp_all

/-- The state of the example for C17 contains a copy; here is a failed attempt: thread 4 has the
mutex of the cache of domain 0, while thread 1 asks domain 0. -/
example : ∃ st, DistReach (exShared .none true false) st ∧
    st.pc (.user 1) = .own 6 1 0 (.numa 0) ∧ st.cm 0 = some (.user 4) := by
  obtain ⟨st, hr, hc⟩ := ex_state (mode := .none) (numa := true) (noop := false)
    ([.call 4 5 0] ++ steps 4 1 ++ [.call 1 6 1] ++ steps 1 3)
    (fun st => match st.pc (.user 1), st.cm 0 with
      | .own 6 1 0 (.numa 0), some (.user 4) => true
      | _, _ => false) (by decide +kernel)
  refine ⟨st, hr, ?_⟩
  revert hc
  split
  · next h1 h2 => intro _; exact ⟨h1, h2⟩
  · intro hc; cases hc

/-! ### C35 -/

/-- **C35.** MPI windows: while a thread copies a block from the cache of a process (at every moment
of the copy, `k` values are already copied), the slot that it copies from contains the complete
block and nobody is writing it; the values copied so far are those of the block; when the copy is
finished, its own slot contains the block. -/
theorem C35_window_copy (hl : Legal P) (h : DistReach P st) (t b off s : Nat) :
    (∀ e k, st.pc (.user t) = .own b off s (.copy e k) →
      Holds P st (P.entryDom e) (P.entrySlot e) b ∧
      (∀ a, ¬ Writes P a (st.pc a) (P.entryDom e) (P.entrySlot e)) ∧
      ∀ j, j < k → P.valid b j → st.data (P.dom t) s j = P.file b j) ∧
    (st.pc (.user t) = .own b off s .fin → Holds P st (P.dom t) s b) := by
  have hI := hl.inv h
  refine ⟨?_, fun hp => hI.own_good hp rfl⟩
  intro e k hp
  have hr : Reads P (.user t) (st.pc (.user t)) (P.entryDom e) (P.entrySlot e) b := by
    rw [hp]; exact .window ..
  exact ⟨reads_holds hl hI hr, fun a hw => reads_writes hl hI hr hw, (hI.phase t b off s _ hp).2.2⟩

/-- Thread 0 (process 0) has loaded block 5 and then evicts it with two other blocks; thread 4 (same
domain) waits with the deletion, because thread 2 (process 1) copies the block. -/
example : ∃ st, DistReach (exShared .window false false) st ∧
    st.pc (.user 2) = .own 5 1 0 (.copy 0 1) ∧ st.pc (.user 4) = .own 7 0 0 (.del (some 5)) ∧
    (exShared .window false false).entryDom 0 = 0 ∧ st.data 2 0 0 = 50 ∧ st.dir 5 = [4, 0, -1, -1] := by
  obtain ⟨st, hr, hc⟩ := ex_state (mode := .window) (numa := false) (noop := false)
    ([.call 0 5 0] ++ steps 0 12 ++ [.call 0 6 0] ++ steps 0 12 ++ [.call 2 5 1] ++ steps 2 7 ++
      [.call 4 7 0] ++ steps 4 2)
    (fun st => match st.pc (.user 2), st.pc (.user 4) with
      | .own 5 1 0 (.copy 0 1), .own 7 0 0 (.del (some 5)) =>
        decide (st.data 2 0 0 = 50 ∧ st.dir 5 = [4, 0, -1, -1])
      | _, _ => false) (by decide +kernel)
  refine ⟨st, hr, ?_⟩
  revert hc
  split
  · next h1 h2 =>
    intro hc
    have := of_decide_eq_true hc
    exact ⟨h1, h2, rfl, this.1, this.2⟩
  · intro hc; cases hc

/-! ### C37 -/

/-- **C37.** Communication thread: (1) a successful reply that has arrived for a thread contains the
block that this thread has requested; (2) after the request, the thread continues only with the
reply: it either stores the received block, which is the requested one, or goes back to the lookup
in the directory; (3) after the lookup it asks the process named by the directory or, without an
entry, loads the block from the file; (4) when the transfer or the load is finished, its slot
contains the block. Together with `C37_block_replies` (replies reach the right thread). -/
theorem C37_reply_is_requested (hl : Legal P) (h : DistReach P st) (t : Nat) :
    (∀ buf, st.box t = some (some buf) → ∃ b off s r, st.pc (.user t) = .own b off s (.ask r) ∧
      ∀ k, P.valid b k → buf k = P.file b k) ∧
    (∀ b off s r st', st.pc (.user t) = .own b off s (.ask r) → UserStep P t st st' →
      (∃ buf, st'.pc (.user t) = .own b off s (.recv buf 0) ∧ ∀ k, P.valid b k → buf k = P.file b k) ∨
      st'.pc (.user t) = .own b off s .start) ∧
    (∀ b off s e st', st.pc (.user t) = .own b off s (.xfer e) → P.mode = .thread →
      UserStep P t st st' →
      (e < 0 ∧ st'.pc (.user t) = .own b off s (.load 0)) ∨
      (∃ e' : Nat, e = e' ∧ st'.pc (.user t) = .own b off s (.ask (ownerRank P.rankCache e')))) ∧
    (∀ b off s, st.pc (.user t) = .own b off s .fin → Holds P st (P.dom t) s b) := by
  have hI := hl.inv h
  refine ⟨?_, ?_, ?_, fun b off s hp => hI.own_good hp rfl⟩
  · intro buf hb
    obtain ⟨b, off, s, r, hp, hv⟩ := hI.box t _ hb
    exact ⟨b, off, s, r, hp, hv buf rfl⟩
  · intro b off s r st' hp hs
    cases hs with
    | askFail _ _ b1 off1 s1 r1 hq =>
      rw [hp] at hq; cases hq
      exact .inr (upd_self _ _ _)
    | askDone _ _ b1 off1 s1 r1 buf hq hb =>
      rw [hp] at hq; cases hq
      obtain ⟨b2, off2, s2, r2, hp2, hv⟩ := hI.box t _ hb
      rw [hp] at hp2; cases hp2
      exact .inl ⟨buf, upd_self _ _ _, hv buf rfl⟩
    | _ => simp_all
  · intro b off s e st' hp hm hs
    cases hs with
    | xferNone _ _ b1 off1 s1 e1 hq he =>
      rw [hp] at hq; cases hq
      exact .inl ⟨he, upd_self _ _ _⟩
    | xferThread _ _ b1 off1 s1 e1 hq =>
      rw [hp] at hq; cases hq
      exact .inr ⟨e1, rfl, upd_self _ _ _⟩
    | _ => simp_all

/-- Thread 0 (process 0) has loaded block 5, its directory entry is stored by process 1; thread 2
(process 1) has asked process 0, the reply has arrived. -/
example : ∃ st, DistReach (exShared .thread false false) st ∧
    st.pc (.user 2) = .own 5 1 0 (.ask 0) ∧ ∃ buf, st.box 2 = some (some buf) ∧ buf 1 = 51 := by
  obtain ⟨st, hr, hc⟩ := ex_state (mode := .thread) (numa := false) (noop := false)
    ([.call 0 5 0] ++ steps 0 12 ++ [.deliver 1 0, .call 2 5 1] ++ steps 2 6 ++
      [.accept 0 2, .comm 0, .comm 0, .comm 0, .comm 0, .comm 0])
    (fun st => match st.pc (.user 2), st.box 2 with
      | .own 5 1 0 (.ask 0), some (some buf) => decide (buf 1 = 51)
      | _, _ => false) (by decide +kernel)
  refine ⟨st, hr, ?_⟩
  revert hc
  split
  · next buf h1 h2 =>
    intro hc
    exact ⟨h1, buf, h2, of_decide_eq_true hc⟩
  · intro hc; cases hc

end Asagi.Props
