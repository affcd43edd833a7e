import Verif.Proofs.ManyCommKinds
import Verif.Proofs.MsgCacheRun
import Verif.Proofs.FullMsgRun
/-
What the interpreters of distributed FULL grids and of CACHE grids with the communication thread change, to construct
examples of executions with several grids.
-/
namespace Asagi
variable {α : Type}

/-- The thread whose step it is. -/
def XferCmd.thread : XferCmd → Option Nat
  | .call t _ | .user t => some t
  | .take _ _ | .answered _ => none

def MsgCmd.thread : MsgCmd → Option Nat
  | .call t _ _ | .user t _ => some t
  | .take _ _ _ | .comm _ => none

theorem execUser_other {P : DistParams α} {st st' : DistState α} {t rnd : Nat} (h : execUser P st t rnd = some st') {a : Agent}
    (ha : a ≠ .user t) : st'.pc a = st.pc a := by
  have := execUser_sound h
  cases this <;> simp [DistState.goto, upd_ne _ _ ha, sendOp_pc]

theorem execComm_other {P : DistParams α} {st st' : DistState α} {r : Nat} (h : execComm P st r = some st') {a : Agent}
    (ha : a ≠ .comm r) : st'.pc a = st.pc a := by
  have := execComm_sound h
  cases this <;> simp [upd_ne _ _ ha]

/-- What a step does with the messages. -/
def WireGrows (w w' : Nat → Nat → List Msg) : Prop :=
  w' = w ∨ ∃ q r m, w' = upd w q (upd (w q) r (w q r ++ [m]))

section
variable {c : LevelCfg α} {X : XferCfg α} {data : Nat → Mem α} {x x' : XferSt α} {t u : Nat}

theorem xferOut_other (h : xferOut c X data x t = some x') (hu : u ≠ t) :
    x'.st.pc (.user u) = x.st.pc (.user u) ∧ x'.wire = x.wire := by
  have hu' : Agent.user u ≠ .user t := by simpa using hu
  unfold xferOut at h
  split at h
  · split at h
    · split at h
      · simp only [Option.bind_eq_some_iff] at h
        obtain ⟨src, -, v, -, h⟩ := h
        cases h
        exact ⟨upd_ne _ _ hu', rfl⟩
      · split at h
        · cases h; exact ⟨rfl, rfl⟩
        · cases h
    · simp only [Option.map_eq_some_iff] at h
      obtain ⟨st', h1, rfl⟩ := h
      exact ⟨execUser_other h1 hu', rfl⟩
  · cases h
  · simp only [Option.map_eq_some_iff] at h
    obtain ⟨st', h1, rfl⟩ := h
    exact ⟨execUser_other h1 hu', rfl⟩

theorem xferUser_other (h : xferUser c X data x t = some x') (hu : u ≠ t) :
    x'.st.pc (.user u) = x.st.pc (.user u) ∧ WireGrows x.wire x'.wire := by
  have hu' : Agent.user u ≠ .user t := by simpa using hu
  unfold xferUser at h
  split at h
  · have := xferOut_other h hu; exact ⟨this.1, .inl this.2⟩
  · split at h
    · cases h; exact ⟨rfl, .inl rfl⟩
    · cases h; exact ⟨rfl, .inr ⟨_, _, _, rfl⟩⟩
  · cases h; exact ⟨rfl, .inl rfl⟩
  · split at h
    · cases h; exact ⟨rfl, .inl rfl⟩
    · cases h
  · split at h
    · rw [Option.bind_eq_some_iff] at h
      obtain ⟨v, -, h⟩ := h
      cases h
      exact ⟨upd_ne _ _ hu', .inl rfl⟩
    · cases h; exact ⟨rfl, .inl rfl⟩
  · split at h
    · simp only [Option.bind_eq_some_iff] at h
      obtain ⟨src, -, v, -, h⟩ := h
      cases h
      exact ⟨upd_ne _ _ hu', .inl rfl⟩
    · cases h; exact ⟨rfl, .inl rfl⟩
  · cases h; exact ⟨rfl, .inl rfl⟩
  · cases h

theorem xferUser_wire (h : xferUser c X data x t = some x') : WireGrows x.wire x'.wire :=
  (xferUser_other (u := t + 1) h (by omega)).2

theorem xferCmd_other {a : XferCmd} (h : a.exec c X data x = some x') (hu : a.thread ≠ some u) :
    x'.st.pc (.user u) = x.st.pc (.user u) := by
  cases a with
  | call t pos =>
    have hu' : Agent.user u ≠ .user t := by intro e; apply hu; injection e with e; rw [e]; rfl
    simp only [XferCmd.exec, Option.map_eq_some_iff] at h
    obtain ⟨st', h1, rfl⟩ := h
    unfold fullCall at h1
    split at h1
    · split at h1
      · cases h1
      · cases h1; exact upd_ne _ _ hu'
    · cases h1
  | user t => exact (xferUser_other h (by intro e; apply hu; rw [e]; rfl)).1
  | take r src =>
    simp only [XferCmd.exec] at h
    split at h
    · split at h
      · rw [Option.bind_eq_some_iff] at h
        obtain ⟨buf, -, h⟩ := h
        cases h; rfl
      · cases h
    · cases h
  | answered r =>
    simp only [XferCmd.exec] at h
    split at h
    · cases h; rfl
    · cases h

theorem xferCmd_wire {a : XferCmd} (h : a.exec c X data x = some x') :
    WireGrows x.wire x'.wire ∨ ∃ r src m rest, a = .take r src ∧ x.comm r = none ∧ x.wire src r = m :: rest ∧
      x'.wire = upd x.wire src (upd (x.wire src) r rest) := by
  cases a with
  | call t pos =>
    simp only [XferCmd.exec, Option.map_eq_some_iff] at h
    obtain ⟨st', h1, rfl⟩ := h
    exact .inl (.inl rfl)
  | user t => exact .inl (xferUser_wire h)
  | take r src =>
    simp only [XferCmd.exec] at h
    split at h
    · next m rest h1 h2 =>
      split at h
      · rw [Option.bind_eq_some_iff] at h
        obtain ⟨buf, -, h⟩ := h
        cases h; exact .inr ⟨r, src, m, rest, rfl, h1, h2, rfl⟩
      · cases h
    · cases h
  | answered r =>
    simp only [XferCmd.exec] at h
    split at h
    · cases h; exact .inl (.inl rfl)
    · cases h
end

section
variable {C : MsgParams α} {ms ms' : MsgSt α} {t u rnd : Nat}

theorem msgUser_other (h : msgUser C ms t rnd = some ms') (hu : u ≠ t) :
    ms'.st.pc (.user u) = ms.st.pc (.user u) ∧ WireGrows ms.wire ms'.wire := by
  have hu' : Agent.user u ≠ .user t := by simpa using hu
  unfold msgUser at h
  split at h
  · unfold msgOut at h
    split at h
    · simp only [Option.map_eq_some_iff] at h
      obtain ⟨st', h1, rfl⟩ := h
      exact ⟨execUser_other h1 hu', .inl rfl⟩
    · split at h
      · cases h; exact ⟨rfl, .inr ⟨_, _, _, rfl⟩⟩
      · cases h; exact ⟨rfl, .inr ⟨_, _, _, rfl⟩⟩
      · cases h; exact ⟨rfl, .inr ⟨_, _, _, rfl⟩⟩
      · split at h
        · cases h; exact ⟨rfl, .inl rfl⟩
        · cases h
      · split at h
        · cases h; exact ⟨upd_ne _ _ hu', .inl rfl⟩
        · cases h
      · cases h
  · split at h
    · cases h; exact ⟨upd_ne _ _ hu', .inl rfl⟩
    · cases h
  · cases h; exact ⟨rfl, .inr ⟨_, _, _, rfl⟩⟩
  · cases h; exact ⟨rfl, .inl rfl⟩
  · split at h
    · cases h; exact ⟨upd_ne _ _ hu', .inl rfl⟩
    · cases h
  · cases h; exact ⟨rfl, .inr ⟨_, _, _, rfl⟩⟩
  · cases h; exact ⟨rfl, .inl rfl⟩
  · split at h
    · cases h; exact ⟨upd_ne _ _ hu', .inl rfl⟩
    · cases h; exact ⟨upd_ne _ _ hu', .inl rfl⟩
    · cases h
  · cases h

theorem msgComm_other {r : Nat} (h : msgComm C ms r = some ms') :
    ms'.st.pc (.user u) = ms.st.pc (.user u) ∧ ms'.wire = ms.wire := by
  have hu : Agent.user u ≠ .comm r := nofun
  unfold msgComm at h
  split at h
  · cases h; exact ⟨rfl, rfl⟩
  · split at h
    · split at h
      · cases h; exact ⟨upd_ne ms.st.pc .idle hu, rfl⟩
      · simp only [Option.map_eq_some_iff] at h
        obtain ⟨st', h1, rfl⟩ := h
        exact ⟨execComm_other h1 hu, rfl⟩
    · next q b i s k buf hp =>
      split at h
      · cases h; exact ⟨upd_ne ms.st.pc (.sent i s) hu, rfl⟩
      · simp only [Option.map_eq_some_iff] at h
        obtain ⟨st', h1, rfl⟩ := h
        exact ⟨execComm_other h1 hu, rfl⟩
    · simp only [Option.map_eq_some_iff] at h
      obtain ⟨st', h1, rfl⟩ := h
      exact ⟨execComm_other h1 hu, rfl⟩
    · simp only [Option.map_eq_some_iff] at h
      obtain ⟨st', h1, rfl⟩ := h
      exact ⟨execComm_other h1 hu, rfl⟩
    · cases h

theorem msgTake {r src : Nat} (h : MsgCmd.exec C ms (.take r src rnd) = some ms') :
    ms'.st.pc (.user u) = ms.st.pc (.user u) ∧ ∃ m rest, ms.st.pc (.comm r) = .idle ∧ ms.wait r = none ∧
      ms.wire src r = m :: rest ∧ ms'.wire = upd ms.wire src (upd (ms.wire src) r rest) := by
  have hu : Agent.user u ≠ .comm r := nofun
  simp only [MsgCmd.exec] at h
  split at h
  · next m rest h1 h2 h3 =>
    split at h
    · cases h; exact ⟨rfl, m, rest, h1, h2, h3, rfl⟩
    · split at h
      · cases h; exact ⟨upd_ne ms.st.pc (.tryDom src m.data 0) hu, m, rest, h1, h2, h3, rfl⟩
      · split at h
        · cases h; exact ⟨rfl, m, rest, h1, h2, h3, rfl⟩
        · split at h
          · cases h; exact ⟨rfl, m, rest, h1, h2, h3, rfl⟩
          · cases h
  · cases h

theorem msgCmd_other {a : MsgCmd} (h : a.exec C ms = some ms') (hu : a.thread ≠ some u) :
    ms'.st.pc (.user u) = ms.st.pc (.user u) := by
  cases a with
  | call t b off =>
    have hu' : Agent.user u ≠ .user t := by intro e; apply hu; injection e with e; rw [e]; rfl
    simp only [MsgCmd.exec] at h
    split at h
    · split at h
      · cases h; exact upd_ne _ _ hu'
      · cases h
    · cases h
  | user t rnd => exact (msgUser_other h (by intro e; apply hu; rw [e]; rfl)).1
  | take r src rnd => exact (msgTake h).1
  | comm r => exact (msgComm_other h).1

theorem msgCmd_wire {a : MsgCmd} (h : a.exec C ms = some ms') :
    WireGrows ms.wire ms'.wire ∨ ∃ r src rnd m rest, a = .take r src rnd ∧ ms.st.pc (.comm r) = .idle ∧
      ms.wait r = none ∧ ms.wire src r = m :: rest ∧ ms'.wire = upd ms.wire src (upd (ms.wire src) r rest) := by
  cases a with
  | call t b off =>
    simp only [MsgCmd.exec] at h
    split at h
    · split at h
      · cases h; exact .inl (.inl rfl)
      · cases h
    · cases h
  | user t rnd => exact .inl (msgUser_other (u := t + 1) h (by omega)).2
  | take r src rnd =>
    obtain ⟨-, m, rest, h1, h2, h3, h4⟩ := msgTake (u := 0) h
    exact .inr ⟨r, src, rnd, m, rest, rfl, h1, h2, h3, h4⟩
  | comm r => exact .inl (.inl (msgComm_other (u := 0) h).2)
end

end Asagi
