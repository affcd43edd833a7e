import Verif.Proofs.ManyClose
import Verif.Props.CloseMsg
import Verif.Props.ManyLevels
import Verif.Props.CloseFull
/-
Levels that are used and closed: the kinds of levels.
-/
namespace Asagi
open Spec Props
variable {α : Type} {f : OpenedFile α}

/-! ### CACHE with the communication thread -/

section
variable {c : LevelCfg α} {C : MsgParams α} {procs : Nat}

def MsgParams.closeRest (C : MsgParams α) (c : LevelCfg α) (procs : Nat) (s : (C.closeSys c procs).S) (m : Nat) : Prop :=
  ∃ a, MsgSt.Rest (CloseSt.ms s) a ∧ m = a + CloseSt.remain procs s

theorem msg_usesBusy {k : LibLock} {ms : (C.commSys c).S} {t : Nat} (h : (C.commSys c).uses k ms t) : (C.commSys c).busy ms t := by
  cases k with
  | mpi => exact h.elim
  | netcdf =>
    obtain ⟨b, off, sl, k, hp, -⟩ := reading_load h
    intro e; rw [hp] at e; cases e

theorem wire_growth {w w' : Nat → Nat → List Msg} (h : WireStep w w') (x : Nat × Nat) :
    (w' x.1 x.2).length ≤ (w x.1 x.2).length + 1 := by
  have h1 := h.tags x.1 x.2
  have h2 : (wireTags w' x.1 x.2).length ≤ (wireTags w x.1 x.2).length + 1 := by
    rcases h1 with e | ⟨tag, e⟩ | ⟨tag, e⟩
    · rw [e]; omega
    · rw [e]; simp
    · rw [e]; simp
      omega
  simpa [wireTags] using h2

theorem cVal_le (ms : MsgSt α) (r : Nat) : ms.cVal r ≤ 2 := by
  unfold MsgSt.cVal
  split <;> split <;> omega

theorem listens_serving {ms : MsgSt α} {r : Nat} (h : ¬ (C.commSys c).serving ms r) : ms.listens r := by
  have h : ¬ (ms.st.pc (.comm r) ≠ .idle ∨ ms.wait r ≠ none) := h
  rw [not_or] at h
  exact ⟨Classical.not_not.1 h.1, Classical.not_not.1 h.2⟩

theorem unused_iff {W : CloseSys α} {s : W.S} : ¬ W.Used procs s ↔ ∀ q, q < procs → W.stage s q ≠ 0 :=
  ⟨fun h q hq h0 => h ⟨q, hq, h0⟩, fun h ⟨q, hq, h0⟩ => h q hq h0⟩

theorem wrap_cache {S : SharedCfg α} (h : Opened f.fp f.cc f.nc f.val c) (hP : C.P = c.shared S)
    (hC : LegalMsg C) (hp : ∀ t, C.P.rankT t < procs) :
    Wrap (C.commSys c) (C.closeSys c procs) CloseSt.ms C.P.rankT procs (C.closeRest c procs) f where
  good := good_comm_cache h hP hC
  ranks := hp
  start := by rintro s ⟨l, hl, rfl⟩; exact ⟨l, hl, rfl⟩
  busy := fun _ _ => rfl
  uses := fun _ _ _ => rfl
  called := fun _ _ _ _ => rfl
  returns := fun _ _ _ => rfl
  inbox := fun _ => rfl
  serving := fun _ _ => rfl
  refused := fun _ _ => rfl
  tags := rfl
  syncStep := fun _ _ h => CloseMsgStep.buffered h
  notCalled := by
    rintro t pos y ⟨st', ⟨idx, -, h1, h2⟩, h3⟩
    have h4 : y.st = st' := congrArg MsgSt.st h3
    rw [← h4] at h2
    have h5 := congrArg (fun y => DistState.pc y (.user t)) h2
    dsimp only at h5
    rw [upd_self, h1] at h5; cases h5
  retBusy := by
    rintro t y v ⟨b, off, s, e⟩ h
    rw [e] at h; cases h
  usesBusy := fun _ _ _ _ => msg_usesBusy
  used := fun s hr hu => (CloseReach.inv hC hp hr).used hu
  idle := fun s t hr h0 hb => hb ((CloseReach.inv hC hp hr).idle t h0)
  out := fun s r hr h0 => (CloseReach.inv hC hp hr).out r h0
  bar := fun s r hr h2 => unused_iff.2 ((CloseReach.inv hC hp hr).bar r h2)
  step := by
    intro s x hr hs
    have hi := CloseReach.inv hC hp hr
    have grow : ∀ {r k : Nat}, r < procs → s.stage r < k → k ≤ 8 → (CloseSt.ms { s with stage := upd s.stage r k } = s.ms ∧
        (∀ q, upd s.stage r k q = 0 → s.stage q = 0) ∧
        CloseSt.remain procs { s with stage := upd s.stage r k } + 1 ≤ s.remain procs) := by
      intro r k hr hk h8
      refine ⟨rfl, fun q hq => ?_, remain_grow hr hk h8⟩
      rw [upd_apply] at hq
      split at hq
      · omega
      · exact hq
    have inP : ∀ {r}, s.stage r ≠ 0 → r < procs := fun {r} h0 =>
      Nat.lt_of_not_le fun hn => h0 (hi.out r hn)
    cases hs with
    | use ms' h1 h2 h3 => exact .inl ⟨h1, rfl⟩
    | drop src r m rest h1 h2 h3 =>
      refine .inr (.inl ⟨?_, rfl⟩)
      rintro ⟨q, e1, e2⟩
      obtain ⟨a, is, xs, -, g⟩ := MsgReach.sim hC (hi.used ⟨q, e1, e2⟩)
      have := registered_stage (g.tags src r m (by rw [h2]; exact List.mem_cons_self)).1 h3
      exact absurd e2 (hi.bar r (by omega) q e1)
    | call r h1 h2 h3 => exact .inr (.inr (grow h1 (by omega) (by omega)))
    | pass r h1 h2 => exact .inr (.inr (grow (inP (by omega)) (by omega) (by omega)))
    | freeList r h1 => exact .inr (.inr (grow (inP (by omega)) (by omega) (by omega)))
    | unregister r k h1 h2 h3 => exact .inr (.inr (grow (inP (by omega)) (by omega) (by omega)))
    | free r h1 => exact .inr (.inr (grow (inP (by omega)) (by omega) (by omega)))
  msgs := by
    intro s x hr hs q r
    cases hs with
    | use ms' h1 => exact (cache_wire h1).tags q r
    | drop src r' m rest h1 h2 h3 =>
      exact WireStep.tags (w' := (s.ms.take src r' rest).wire) (.inr (.inr ⟨src, r', m, rest, h2, rfl⟩)) q r
    | _ => exact .inl rfl
  serves := by
    intro s x r hr hs h1 h2
    obtain ⟨h3, h4⟩ := listens_serving (C := C) (c := c) h2
    cases hs with
    | use ms' h5 =>
      obtain ⟨q, m, rest, e1, e2⟩ := cache_serves h5 h1 h3 h4
      refine ⟨q, m.tag, ?_⟩
      change (s.ms.wire q r).map _ = _ :: (ms'.wire q r).map _
      rw [e2, upd_self, upd_self, e1]; rfl
    | _ => exact absurd h1 h2
  lift := by
    rintro s y hr ⟨q, hq, h0⟩ _ hc
    refine ⟨{ s with ms := y }, C92_served hC hp hr q hq h0 y hc.1 fun t ht => ?_, rfl, rfl⟩
    have h1 := (CloseReach.inv hC hp hr).idle t ht
    rw [h1]
    exact Classical.byContradiction fun hn => hc.2 t hn h1
  tagged := by
    intro s q r hr hu tag ht
    obtain ⟨m, hm, rfl⟩ := List.mem_map.1 ht
    have := ((CloseReach.inv hC hp hr).all (unused_iff.1 hu)).wire q r m hm
    show m.tag ∈ [C.infoTag, C.xferTag, C.addTag, C.delTag]
    simp only [List.mem_cons, List.not_mem_nil, or_false]
    exact .inr (.inr this)
  serve := by
    intro s r hr hu hs
    have hq := (CloseReach.inv hC hp hr).all (unused_iff.1 hu)
    have same : ∀ {l : List Msg} {m rest}, l = m :: rest → l = rest → False := by
      intro l m rest e1 e2
      rw [e1] at e2
      exact absurd (congrArg List.length e2) (by simp)
    cases hw : s.ms.wait r with
    | some x =>
      obtain ⟨dst, k⟩ := x
      exact ⟨_, .use s _ (.answered s.ms r dst k hw (.inr (by rw [hq.mail]; nofun)))
        (fun _ _ => rfl) (fun src r' m rest e1 e2 => (same e1 e2).elim), rfl, rfl⟩
    | none =>
      rcases hq.comm r with hc | ⟨i, k, hc⟩
      · exact absurd hs (by rintro (e | e); exacts [e hc, e hw])
      · exact ⟨_, .use s _ (.work s.ms r _ hw ⟨.release s.ms.st r i k hc, by rw [hc]; nofun, rfl, rfl⟩)
          (fun t _ => upd_cu (pc := s.ms.st.pc) (r := r) (p := .idle)) (fun src r' m rest e1 e2 => (same e1 e2).elim),
          rfl, rfl⟩
  take := by
    intro s q r tag l hr hu hn hi
    have hl : s.ms.listens r := listens_serving (C := C) (c := c) (hn r)
    have hq := (CloseReach.inv hC hp hr).all (unused_iff.1 hu)
    change (s.ms.wire q r).map _ = _ at hi
    cases hw : s.ms.wire q r with
    | nil => rw [hw] at hi; cases hi
    | cons m rest =>
      rw [hw] at hi
      injection hi with _ hi
      subst hi
      by_cases hg : C.registered (s.stage r) m.tag
      · have htake : ∀ src r' m' rest', s.ms.wire src r' = m' :: rest' →
            (s.ms.take q r rest).wire src r' = rest' → C.registered (s.stage r') m'.tag := by
          intro src r' m' rest' e1 e2
          by_cases e : src = q ∧ r' = r
          · obtain ⟨rfl, rfl⟩ := e
            rw [hw] at e1
            injection e1 with e1 _
            exact e1 ▸ hg
          · rw [take_other _ _ (fun h => e h), e1] at e2
            exact absurd (congrArg List.length e2) (by simp)
        rcases hq.wire q r m (by rw [hw]; exact List.mem_cons_self) with e | e
        · exact ⟨_, .use s _ (.takeAdd s.ms q r m rest hl.1 hl.2 hw e) (fun _ _ => rfl) htake, rfl, cache_inbox (c := c) (C := C) rfl⟩
        · exact ⟨_, .use s _ (.takeDel s.ms q r m rest hl.1 hl.2 hw e) (fun _ _ => rfl) htake, rfl, cache_inbox (c := c) (C := C) rfl⟩
      · exact ⟨_, .drop s q r m rest hl hw hg, rfl, cache_inbox (c := c) (C := C) rfl⟩
  rest := fun s hr => by
    obtain ⟨m, hm⟩ := CloseReach.rest hr
    exact ⟨_, m, hm, rfl⟩
  grow := by
    rintro s x m hr hs ⟨a, ha, rfl⟩
    have hi := CloseReach.inv hC hp hr
    have grow : ∀ {r k : Nat}, r < procs → s.stage r < k → k ≤ 8 →
        ∃ m', C.closeRest c procs { s with stage := upd s.stage r k } m' ∧ m' ≤ a + s.remain procs + 3 := by
      intro r k hr hk h8
      have := remain_grow hr hk h8
      exact ⟨_, ⟨a, ha, rfl⟩, by omega⟩
    have inP : ∀ {r}, s.stage r ≠ 0 → r < procs := fun {r} h0 =>
      Nat.lt_of_not_le fun hn => h0 (hi.out r hn)
    cases hs with
    | use ms' h1 h2 h3 =>
      obtain ⟨y, r, h4, h5⟩ := h1.change
      obtain ⟨m', h6, h7⟩ := ha.change y r h4 h5
      refine ⟨_, ⟨m', h6, rfl⟩, ?_⟩
      have e1 := wire_growth (cache_wire h1) y
      have e2 := cVal_le ms' r
      have e3 : CloseSt.remain procs { s with ms := ms' } = s.remain procs := rfl
      simp only [MsgSt.wVal] at h7
      omega
    | drop src r y rest h1 h2 h3 =>
      obtain ⟨m', h4, h5⟩ := (CalmStep.take (early := true) src r y rest s.ms.st.dir h1 h2).less ha
      refine ⟨_, ⟨m', h4, rfl⟩, ?_⟩
      have e3 : CloseSt.remain procs { s with ms := s.ms.take src r rest } = s.remain procs := rfl
      omega
    | call r h1 h2 h3 => exact grow h1 (by omega) (by omega)
    | pass r h1 h2 => exact grow (inP (by omega)) (by omega) (by omega)
    | freeList r h1 => exact grow (inP (by omega)) (by omega) (by omega)
    | unregister r k h1 h2 h3 => exact grow (inP (by omega)) (by omega) (by omega)
    | free r h1 => exact grow (inP (by omega)) (by omega) (by omega)
  less := by
    rintro s x m hr hu hs ⟨a, ha, rfl⟩
    obtain ⟨-, m', h1, h2⟩ := (CloseReach.inv hC hp hr).less hC hp (unused_iff.1 hu) hs ha
    exact ⟨_, ⟨m', h1, rfl⟩, by omega⟩
  advance := by
    intro s r hr hb hn hrp h8
    have hi := CloseReach.inv hC hp hr
    have hl : ∀ r, s.ms.listens r := fun r => listens_serving (C := C) (c := c) (hn r)
    have hidle : ∀ t, s.ms.st.pc (.user t) = .idle := fun t => Classical.not_not.1 (hb t)
    have out : ∀ {r k : Nat}, r < procs → ∀ q, procs ≤ q → upd s.stage r k q = s.stage q :=
      fun h1 q hq => upd_ne _ _ (by omega)
    by_cases h0 : ∃ q, q < procs ∧ s.stage q = 0
    · obtain ⟨q, h1, h2⟩ := h0
      exact ⟨_, .call s q h1 h2 fun t _ => hidle t, rfl, out h1⟩
    · have ha : ∀ q, q < procs → s.stage q ≠ 0 := fun q hq h => h0 ⟨q, hq, h⟩
      have h1 := ha r hrp
      have h2 := hi.le r
      have : s.stage r ≠ 8 := h8
      have : s.stage r = 1 ∨ s.stage r = 2 ∨ (3 ≤ s.stage r ∧ s.stage r < 7) ∨ s.stage r = 7 := by omega
      rcases this with e | e | e | e
      · exact ⟨_, .pass s r e fun q hq => by have := ha q hq; omega, rfl, out hrp⟩
      · exact ⟨_, .freeList s r e, rfl, out hrp⟩
      · exact ⟨_, .unregister s r (s.stage r - 3) (by omega) (by omega) (hl r), rfl, out hrp⟩
      · exact ⟨_, .free s r e, rfl, out hrp⟩

end

/-! ### Distributed FULL with the communication thread -/

section
variable {c : LevelCfg α} {X : XferCfg α} {procs : Nat}

def XferCfg.closeRest (X : XferCfg α) (c : LevelCfg α) (data : Nat → Mem α) (procs : Nat)
    (s : (X.closeSys c data procs).S) (m : Nat) : Prop :=
  ∃ a, XferSt.Rest (CloseFullSt.x s) a ∧ m = a + CloseFullSt.remain procs s

theorem full_serves {data : Nat → Mem α} {early : Bool} {x x' : XferSt α} {r : Nat} (hs : XferStep c X data early x x')
    (h1 : x'.comm r ≠ none) (h2 : ¬ x.comm r ≠ none) :
    ∃ q tag, (x.wire q r).map Msg.tag = tag :: (x'.wire q r).map Msg.tag := by
  have h2 : x.comm r = none := Classical.not_not.1 h2
  cases hs with
  | take src r' m rest buf g1 g2 g3 =>
    by_cases e : r = r'
    · subst e
      refine ⟨src, m.tag, ?_⟩
      show _ = _ :: (upd x.wire src (upd (x.wire src) r rest) src r).map _
      rw [upd_self, upd_self, g2]; rfl
    · exact absurd ((upd_ne x.comm _ e).trans h2) h1
  | answered r' dst tk g1 =>
    change upd x.comm r' none r ≠ none at h1
    rw [upd_apply] at h1
    split at h1
    · exact absurd rfl h1
    · exact absurd h2 h1
  | _ => exact absurd h2 h1

theorem full_rPot_le (x : XferSt α) (r : Nat) : x.rPot r ≤ 1 := by
  unfold XferSt.rPot
  split <;> omega

theorem CloseFullStep.buffered {data : Nat → Mem α} {early : Bool} {s s' : CloseFullSt α}
    (h : CloseFullStep c X data procs early s s') : CloseFullStep c X data procs true s s' := by
  cases h with
  | use x' h1 h2 h3 => exact .use s x' h1.buffered h2 h3
  | drop src r m rest h1 h2 h3 => exact .drop s src r m rest h1 h2 h3
  | call r h1 h2 h3 => exact .call s r h1 h2 h3
  | pass r h1 h2 => exact .pass s r h1 h2
  | freeCache r h1 => exact .freeCache s r h1
  | unregister r h1 h2 h3 => exact .unregister s r h1 h2 h3
  | winFree r h1 h2 h3 => exact .winFree s r h1 h2 h3
  | free r h1 => exact .free s r h1

theorem wrap_full {s0 : FullDist α} (h : Opened f.fp f.cc f.nc f.val c) (ho : FullOpened c X.F s0) (hw : X.win = false)
    (hp : ∀ t, X.rankT t < procs) :
    Wrap (X.commSys c s0.data) (X.closeSys c s0.data procs) CloseFullSt.x X.rankT procs
      (X.closeRest c s0.data procs) f where
  good := good_comm_full h ho
  ranks := hp
  start := by rintro s ⟨l, hl, rfl⟩; exact ⟨l, hl, rfl⟩
  busy := fun _ _ => rfl
  uses := fun _ _ _ => rfl
  called := fun _ _ _ _ => rfl
  returns := fun _ _ _ => rfl
  inbox := fun _ => rfl
  serving := fun _ _ => rfl
  refused := fun _ _ => rfl
  tags := rfl
  syncStep := fun _ _ h => CloseFullStep.buffered h
  notCalled := by
    rintro t pos y ⟨st', ⟨idx, -, -, h1, h2⟩, h3⟩
    have h4 : y.st = st' := congrArg XferSt.st h3
    rw [← h4] at h2
    have h5 := congrArg (fun y => DistState.pc y (.user t)) h2
    dsimp only at h5
    rw [upd_self, h1] at h5; cases h5
  retBusy := by
    rintro t y v ⟨b, off, s, e⟩ h
    rw [e] at h; cases h
  usesBusy := by
    intro k s t hr hu
    cases k with
    | mpi => cases hu.1
    | netcdf => exact hu.elim
  used := fun s hr hu => (CloseFullReach.inv hp hr).used hu
  idle := fun s t hr h0 hb => hb ((CloseFullReach.inv hp hr).idle t h0)
  out := fun s r hr h0 => (CloseFullReach.inv hp hr).out r h0
  bar := fun s r hr h2 => unused_iff.2 ((CloseFullReach.inv hp hr).bar r h2)
  step := by
    intro s x hr hs
    have hi := CloseFullReach.inv hp hr
    have grow : ∀ {r k : Nat}, r < procs → s.stage r < k → k ≤ 5 → (CloseFullSt.x { s with stage := upd s.stage r k } = s.x ∧
        (∀ q, upd s.stage r k q = 0 → s.stage q = 0) ∧
        CloseFullSt.remain procs { s with stage := upd s.stage r k } + 1 ≤ s.remain procs) := by
      intro r k hr hk h8
      refine ⟨rfl, fun q hq => ?_, full_remain_grow hr hk h8⟩
      rw [upd_apply] at hq
      split at hq
      · omega
      · exact hq
    have inP : ∀ {r}, s.stage r ≠ 0 → r < procs := fun {r} h0 =>
      Nat.lt_of_not_le fun hn => h0 (hi.out r hn)
    cases hs with
    | use x' h1 h2 h3 => exact .inl ⟨h1, rfl⟩
    | drop src r m rest h1 h2 h3 =>
      refine .inr (.inl ⟨?_, rfl⟩)
      rintro ⟨q, e1, e2⟩
      have := wire_tag (hi.used ⟨q, e1, e2⟩) (q := src) (r := r) (m := m) (by rw [h2]; exact List.mem_cons_self)
      have h4 : ¬ s.stage r < 4 := fun h4 => h3 ⟨this, h4⟩
      exact absurd e2 (hi.bar r (by omega) q e1)
    | call r h1 h2 h3 => exact .inr (.inr (grow h1 (by omega) (by omega)))
    | pass r h1 h2 => exact .inr (.inr (grow (inP (by omega)) (by omega) (by omega)))
    | freeCache r h1 => exact .inr (.inr (grow (inP (by omega)) (by omega) (by omega)))
    | unregister r h1 h2 h3 => exact .inr (.inr (grow (inP (by omega)) (by omega) (by omega)))
    | winFree r h1 h2 h3 => exact .inr (.inr (grow (inP (by omega)) (by omega) (by omega)))
    | free r h1 => exact .inr (.inr (grow (inP (by omega)) (by omega) (by omega)))
  msgs := by
    intro s x hr hs q r
    cases hs with
    | use x' h1 => exact (full_wire h1).tags q r
    | drop src r' m rest h1 h2 h3 =>
      exact WireStep.tags (w' := upd s.x.wire src (upd (s.x.wire src) r' rest))
        (.inr (.inr ⟨src, r', m, rest, h2, rfl⟩)) q r
    | _ => exact .inl rfl
  serves := by
    intro s x r hr hs h1 h2
    cases hs with
    | use x' h5 => exact full_serves h5 h1 h2
    | _ => exact absurd h1 h2
  lift := by
    rintro s y hr ⟨q, hq, h0⟩ _ hc
    refine ⟨{ s with x := y }, C92_full_served hp hr q hq h0 y hc.1 fun t ht => ?_, rfl, rfl⟩
    have h1 := (CloseFullReach.inv hp hr).idle t ht
    rw [h1]
    exact Classical.byContradiction fun hn => hc.2 t hn h1
  tagged := by
    intro s q r hr hu tag ht
    obtain ⟨m, hm, rfl⟩ := List.mem_map.1 ht
    have hm : m ∈ s.x.wire q r := hm
    rw [((CloseFullReach.inv hp hr).all (unused_iff.1 hu)).wire q r] at hm
    cases hm
  serve := by
    intro s r hr hu hs
    have hq := (CloseFullReach.inv hp hr).all (unused_iff.1 hu)
    cases hc : s.x.comm r with
    | none => exact absurd hc hs
    | some y =>
      obtain ⟨dst, k⟩ := y
      exact ⟨_, .use s _ (.answered s.x r dst k hc (.inr (by rw [hq.mail]; nofun)))
        (fun _ _ => rfl) (fun src r' m rest e1 e2 => by rw [hq.wire] at e1; cases e1), rfl, rfl⟩
  take := by
    intro s q r tag l hr hu hn hi
    change (s.x.wire q r).map _ = _ at hi
    rw [((CloseFullReach.inv hp hr).all (unused_iff.1 hu)).wire q r] at hi
    cases hi
  rest := fun s hr => by
    obtain ⟨m, hm⟩ := CloseFullReach.rest hr
    exact ⟨_, m, hm, rfl⟩
  grow := by
    rintro s x m hr hs ⟨a, ha, rfl⟩
    have hi := CloseFullReach.inv hp hr
    have grow : ∀ {r k : Nat}, r < procs → s.stage r < k → k ≤ 5 →
        ∃ m', X.closeRest c s0.data procs { s with stage := upd s.stage r k } m' ∧ m' ≤ a + s.remain procs + 3 := by
      intro r k hr hk h8
      have := full_remain_grow hr hk h8
      exact ⟨_, ⟨a, ha, rfl⟩, by omega⟩
    have inP : ∀ {r}, s.stage r ≠ 0 → r < procs := fun {r} h0 =>
      Nat.lt_of_not_le fun hn => h0 (hi.out r hn)
    cases hs with
    | use x' h1 h2 h3 =>
      obtain ⟨r, h4⟩ := h1.comm_change
      obtain ⟨m', h6, h7⟩ := ha.change r h4
      refine ⟨_, ⟨m', h6, rfl⟩, ?_⟩
      have e2 := full_rPot_le x' r
      have e3 : CloseFullSt.remain procs { s with x := x' } = s.remain procs := rfl
      omega
    | drop src r y rest h1 h2 h3 =>
      refine ⟨_, ⟨a, ha, rfl⟩, ?_⟩
      exact Nat.le_add_right _ 3
    | call r h1 h2 h3 => exact grow h1 (by omega) (by omega)
    | pass r h1 h2 => exact grow (inP (by omega)) (by omega) (by omega)
    | freeCache r h1 => exact grow (inP (by omega)) (by omega) (by omega)
    | unregister r h1 h2 h3 => exact grow (inP (by omega)) (by omega) (by omega)
    | winFree r h1 h2 h3 => exact grow (inP (by omega)) (by omega) (by omega)
    | free r h1 => exact grow (inP (by omega)) (by omega) (by omega)
  less := by
    rintro s x m hr hu hs ⟨a, ha, rfl⟩
    obtain ⟨-, m', h1, h2⟩ := (CloseFullReach.inv hp hr).less hp (unused_iff.1 hu) hs ha
    exact ⟨_, ⟨m', h1, rfl⟩, by omega⟩
  advance := by
    intro s r hr hb hn hrp h8
    have hi := CloseFullReach.inv hp hr
    have hidle : ∀ t, s.x.st.pc (.user t) = .idle := fun t => Classical.not_not.1 (hb t)
    have out : ∀ {r k : Nat}, r < procs → ∀ q, procs ≤ q → upd s.stage r k q = s.stage q :=
      fun h1 q hq => upd_ne _ _ (by omega)
    by_cases h0 : ∃ q, q < procs ∧ s.stage q = 0
    · obtain ⟨q, h1, h2⟩ := h0
      exact ⟨_, .call s q h1 h2 fun t _ => hidle t, rfl, out h1⟩
    · have ha : ∀ q, q < procs → s.stage q ≠ 0 := fun q hq h => h0 ⟨q, hq, h⟩
      have h1 := ha r hrp
      have h2 := hi.le r
      have : s.stage r ≠ 5 := h8
      have : s.stage r = 1 ∨ s.stage r = 2 ∨ s.stage r = 3 ∨ s.stage r = 4 := by omega
      rcases this with e | e | e | e
      · exact ⟨_, .pass s r e fun q hq => by have := ha q hq; omega, rfl, out hrp⟩
      · exact ⟨_, .freeCache s r e, rfl, out hrp⟩
      · exact ⟨_, .unregister s r hw e (Classical.not_not.1 (hn r)), rfl, out hrp⟩
      · exact ⟨_, .free s r e, rfl, out hrp⟩

end

/-! ### Without communication thread -/

section
variable {L : LevelSys α} {rank : Nat → Nat} {procs : Nat}

structure LevelCloseInv (L : LevelSys α) (rank : Nat → Nat) (procs : Nat) (s : L.S × (Nat → Nat)) : Prop where
  reach : L.Reach s.1
  idle : ∀ t, s.2 (rank t) ≠ 0 → ¬ L.busy s.1 t
  out : ∀ r, procs ≤ r → s.2 r = 0
  bar : ∀ r, 2 ≤ s.2 r → ∀ q, q < procs → s.2 q ≠ 0
  le : ∀ r, s.2 r ≤ 3

theorem level_close_inv {s : L.S × (Nat → Nat)} (h : (L.closeSys rank procs).Reach s) : LevelCloseInv L rank procs s := by
  induction h with
  | init h =>
    obtain ⟨h1, h2⟩ := h
    constructor
    · exact .init h1
    · intro t ht; rw [h2] at ht; exact absurd rfl ht
    · intro r _; rw [h2]
    · intro r hr; rw [h2] at hr; exact absurd hr (by simp)
    · intro r; rw [h2]; exact Nat.zero_le _
  | @step s x _ hs ih =>
    obtain ⟨i1, i2, i3, i4, i5⟩ := ih
    have grow : ∀ {r v : Nat}, s.2 r ≠ 0 → s.2 r < v → v ≤ 3 → (∀ q, q < procs → s.2 q ≠ 0) →
        LevelCloseInv L rank procs (s.1, upd s.2 r v) := by
      intro r v h0 hv h3 ha
      have hr : r < procs := Nat.lt_of_not_le fun hn => h0 (i3 r hn)
      have hz : ∀ q, upd s.2 r v q ≠ 0 → s.2 q ≠ 0 := by
        intro q hq
        rw [upd_apply] at hq
        split at hq
        · next e => subst e; exact h0
        · exact hq
      refine ⟨i1, fun t ht => i2 t (hz _ ht), fun q hq => ?_, fun q _ p hp => ?_, fun q => ?_⟩
      · show upd s.2 r v q = 0
        rw [upd_ne _ _ (by omega)]; exact i3 q hq
      · show upd s.2 r v p ≠ 0
        rw [upd_apply]; split
        · omega
        · exact ha p hp
      · show upd s.2 r v q ≤ 3
        rw [upd_apply]; split
        · exact h3
        · exact i5 q
    cases hs with
    | use a x k h1 h2 h3 => exact ⟨.step i1 h1, h3, i3, i4, i5⟩
    | call a k r h1 h2 h3 =>
      refine ⟨i1, fun t ht => ?_, fun q hq => ?_, fun q hq p hp => ?_, fun q => ?_⟩
      all_goals simp only [upd_apply] at *
      · split at ht
        · next e => exact h3 t e
        · exact i2 t ht
      · split
        · omega
        · exact i3 q hq
      · split at hq
        · omega
        · exact absurd h2 (i4 q hq r h1)
      · split
        · omega
        · exact i5 q
    | pass a k r h1 h2 => exact grow (by simp only; omega) (by simp only; omega) (by omega) (fun q hq => by have := h2 q hq; simp only; omega)
    | free a k r h1 => exact grow (by simp only; omega) (by simp only; omega) (by omega) (i4 r (by simp only; omega))

theorem level_remain_grow {k : Nat → Nat} {r v : Nat} (hr : r < procs) (hk : k r < v) (h8 : v ≤ 3) :
    (∑ q ∈ Finset.range procs, (3 - upd k r v q)) + 1 ≤ ∑ q ∈ Finset.range procs, (3 - k q) := by
  rw [← Finset.add_sum_erase _ _ (Finset.mem_range.2 hr),
    ← Finset.add_sum_erase (Finset.range procs) (fun q => 3 - k q) (Finset.mem_range.2 hr)]
  have : ∑ x ∈ (Finset.range procs).erase r, (3 - upd k r v x) =
      ∑ x ∈ (Finset.range procs).erase r, (3 - k x) :=
    Finset.sum_congr rfl fun x hx => by rw [upd_ne _ _ (Finset.ne_of_mem_erase hx)]
  simp only [this, upd_self]
  omega

theorem proper_returns (h : ProperLevel rank f L) {t : Nat} {y : L.S} {v : α} (hv : L.returns t y v) : L.busy y t := by
  induction h with
  | cacheWindow c S C => obtain ⟨b, off, s, e⟩ := hv; intro e1; rw [e] at e1; cases e1
  | cache c S => obtain ⟨b, off, s, e⟩ := hv; intro e1; rw [e] at e1; cases e1
  | full c X s0 lib => obtain ⟨b, off, s, e⟩ := hv; intro e1; rw [e] at e1; cases e1
  | passThrough c slot r team buf0 => obtain ⟨pos, e⟩ := hv; intro e1; rw [e] at e1; cases e1
  | some L R rank' team _ _ _ ih => exact ih hv

theorem wrap_level (hg : L.Good f) (hnc : ∀ t pos y, ¬ L.called t pos y y) (hret : ∀ t y v, L.returns t y v → L.busy y t)
    (hp : ∀ t, rank t < procs) : Wrap L.noComm (L.closeSys rank procs) Prod.fst rank procs
      (fun s m => m = ∑ r ∈ Finset.range procs, (3 - s.2 r)) f where
  good := good_noComm hg
  ranks := hp
  start := fun s hs => hs.1
  busy := fun _ _ => rfl
  uses := fun _ _ _ => rfl
  called := fun _ _ _ _ => rfl
  returns := fun _ _ _ => rfl
  inbox := fun _ => rfl
  serving := fun _ _ => rfl
  refused := fun _ _ => rfl
  tags := rfl
  syncStep := fun _ _ h => h
  notCalled := hnc
  retBusy := hret
  usesBusy := fun k s t hr hu => hg.usesBusy _ k t (level_close_inv hr).reach hu
  used := fun s hr _ => (level_close_inv hr).reach
  idle := fun s t hr h0 => (level_close_inv hr).idle t h0
  out := fun s r hr h0 => (level_close_inv hr).out r h0
  bar := fun s r hr h2 => unused_iff.2 ((level_close_inv hr).bar r h2)
  step := by
    intro s x hr hs
    have hi := level_close_inv hr
    have grow : ∀ {r k : Nat}, r < procs → s.2 r < k → k ≤ 3 → (s.1 = s.1 ∧
        (∀ q, upd s.2 r k q = 0 → s.2 q = 0) ∧
        (∑ q ∈ Finset.range procs, (3 - upd s.2 r k q)) + 1 ≤ ∑ q ∈ Finset.range procs, (3 - s.2 q)) := by
      intro r k hr hk h8
      refine ⟨rfl, fun q hq => ?_, level_remain_grow hr hk h8⟩
      rw [upd_apply] at hq
      split at hq
      · omega
      · exact hq
    have inP : ∀ {r}, s.2 r ≠ 0 → r < procs := fun {r} h0 =>
      Nat.lt_of_not_le fun hn => h0 (hi.out r hn)
    cases hs with
    | use a x k h1 h2 h3 => exact .inl ⟨h1, rfl⟩
    | call a k r h1 h2 h3 => exact .inr (.inr (grow h1 (by simp only; omega) (by omega)))
    | pass a k r h1 h2 => exact .inr (.inr (grow (inP (by simp only; omega)) (by simp only; omega) (by omega)))
    | free a k r h1 => exact .inr (.inr (grow (inP (by simp only; omega)) (by simp only; omega) (by omega)))
  msgs := fun _ _ _ _ _ _ => .inl rfl
  serves := fun _ _ _ _ _ h => h.elim
  lift := by
    rintro s y hr hu ha hc
    rcases ha with ⟨t, ht⟩ | ⟨r, hs⟩ | ⟨q, r, hn⟩
    · have hi := level_close_inv hr
      refine ⟨(y, s.2), .use s.1 y s.2 hc.1 ⟨t, ?_, .inl ht⟩ fun u hu hb => hi.idle u hu (hc.2 u hb), rfl, rfl⟩
      exact Classical.byContradiction fun h0 => hi.idle t h0 ht
    · exact hs.elim
    · exact absurd rfl hn
  tagged := fun _ _ _ _ _ _ h => by cases h
  serve := fun _ _ _ _ h => h.elim
  take := fun _ _ _ _ _ _ _ _ h => by cases h
  rest := fun s _ => ⟨_, rfl⟩
  grow := by
    rintro s x m hr hs rfl
    have hi := level_close_inv hr
    have grow : ∀ {r k : Nat}, r < procs → s.2 r < k → k ≤ 3 → ∃ m', m' = (∑ q ∈ Finset.range procs, (3 - upd s.2 r k q)) ∧
        m' ≤ (∑ q ∈ Finset.range procs, (3 - s.2 q)) + 3 := by
      intro r k hr hk h8
      have := level_remain_grow hr hk h8
      exact ⟨_, rfl, by omega⟩
    have inP : ∀ {r}, s.2 r ≠ 0 → r < procs := fun {r} h0 =>
      Nat.lt_of_not_le fun hn => h0 (hi.out r hn)
    cases hs with
    | use a x k h1 h2 h3 => exact ⟨_, rfl, Nat.le_add_right _ _⟩
    | call a k r h1 h2 h3 => exact grow h1 (by simp only; omega) (by omega)
    | pass a k r h1 h2 => exact grow (inP (by simp only; omega)) (by simp only; omega) (by omega)
    | free a k r h1 => exact grow (inP (by simp only; omega)) (by simp only; omega) (by omega)
  less := by
    rintro s x m hr hu hs rfl
    have hi := level_close_inv hr
    have hu := unused_iff.1 hu
    have grow : ∀ {r k : Nat}, r < procs → s.2 r < k → k ≤ 3 → ∃ m', m' = (∑ q ∈ Finset.range procs, (3 - upd s.2 r k q)) ∧
        m' + 1 ≤ (∑ q ∈ Finset.range procs, (3 - s.2 q)) := by
      intro r k hr hk h8
      exact ⟨_, rfl, level_remain_grow hr hk h8⟩
    have inP : ∀ {r}, s.2 r ≠ 0 → r < procs := fun {r} h0 =>
      Nat.lt_of_not_le fun hn => h0 (hi.out r hn)
    cases hs with
    | use a x k h1 h2 h3 =>
      obtain ⟨t, h0, -⟩ := h2
      exact absurd h0 (hu _ (hp t))
    | call a k r h1 h2 h3 => exact absurd h2 (hu r h1)
    | pass a k r h1 h2 => exact grow (inP (by simp only; omega)) (by simp only; omega) (by omega)
    | free a k r h1 => exact grow (inP (by simp only; omega)) (by simp only; omega) (by omega)
  advance := by
    intro s r hr hb hn hrp h8
    have hi := level_close_inv hr
    have out : ∀ {r k : Nat}, r < procs → ∀ q, procs ≤ q → upd s.2 r k q = s.2 q :=
      fun h1 q hq => upd_ne _ _ (by omega)
    by_cases h0 : ∃ q, q < procs ∧ s.2 q = 0
    · obtain ⟨q, h1, h2⟩ := h0
      exact ⟨_, .call s.1 s.2 q h1 h2 fun t _ => hb t, rfl, out h1⟩
    · have ha : ∀ q, q < procs → s.2 q ≠ 0 := fun q hq h => h0 ⟨q, hq, h⟩
      have h1 := ha r hrp
      have h2 := hi.le r
      have : s.2 r ≠ 3 := h8
      have : s.2 r = 1 ∨ s.2 r = 2 := by omega
      rcases this with e | e
      · exact ⟨_, .pass s.1 s.2 r e fun q hq => by have := ha q hq; omega, rfl, out hrp⟩
      · exact ⟨_, .free s.1 s.2 r e, rfl, out hrp⟩

theorem wrap_other (h : ProperLevel rank f L) (hp : ∀ t, rank t < procs) :
    Wrap L.noComm (L.closeSys rank procs) Prod.fst rank procs
      (fun s m => m = ∑ r ∈ Finset.range procs, (3 - s.2 r)) f :=
  wrap_level (good_proper h) (fun _ _ _ hc => C85_value.not_called h hc) (fun _ _ _ => proper_returns h) hp

end

end Asagi
