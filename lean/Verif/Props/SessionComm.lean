import Verif.Spec.SessionComm
import Verif.Props.Session
import Verif.Props.WinCache
import Verif.Props.MsgCache
import Verif.Props.FullMsg
/-
C84: from `setParam` to the getters, with the communication as it is implemented.
-/
namespace Asagi.Props
open Asagi Asagi.Spec
variable {α : Type} {S : Session α} {K : CommNumbers} {sel : Selection} {c : LevelCfg α} {fp : Fp}
  {file : VarFile α} {nc : List NcAxis} {val : List Nat → α} {name : List Char}

theorem blockAtNode_owner {ds : Dist} {total b : Nat} (hr : 0 < ds.ranks) (hd : 0 < ds.domains)
    (hb : b < total) :
    ds.blockAtNode total (ds.blockRank total b) (ds.blockNodeOffset total b) = b := by
  obtain ⟨-, -, h⟩ := Dist.owner_bounds hr hd hb
  have hp : 0 < ds.localBlockCount total := by omega
  have e1 : ds.blockNodeOffset total b / ds.localBlockCount total = ds.blockDomain total b := by
    unfold Dist.blockNodeOffset
    rw [Nat.add_mul_div_right _ _ hp, Nat.div_eq_of_lt h, Nat.zero_add]
  have e2 : ds.blockNodeOffset total b % ds.localBlockCount total = ds.blockOffset total b := by
    unfold Dist.blockNodeOffset
    rw [Nat.add_mul_mod_self_right, Nat.mod_eq_of_lt h]
  unfold Dist.blockAtNode
  rw [e1, e2]
  exact Dist.local2global_owner

theorem session_ranks (hp : Possible S sel)
    (h1 : initContainers S.build S.params S.commSize S.domains = some sel) : 0 < sel.ranks := by
  rw [(C30_kind_and_mpi _ _ _ _ hp.env sel h1).2.1]
  split
  · omega
  · exact hp.someRank

theorem session_legalWin (hp : Possible S sel) (hK : ProperNumbers S K sel)
    (h2 : 0 < (openArgs S.params S.level).cacheSize) (hm : sel.type.mpi = .window) :
    LegalWin (S.win K sel c) :=
  ⟨⟨hp.someDomain, h2, hp.hand⟩, by show sel.type.mpi.mode = .window; rw [hm]; rfl, hK.threads⟩

theorem session_legalMsg (hp : Possible S sel) (hK : ProperNumbers S K sel) (wf : c.WF)
    (h1 : initContainers S.build S.params S.commSize S.domains = some sel)
    (h2 : 0 < (openArgs S.params S.level).cacheSize) (hm : sel.type.mpi = .thread) :
    LegalMsg (S.msg K sel c) := by
  refine ⟨⟨hp.someDomain, h2, hp.hand⟩, by show sel.type.mpi.mode = .thread; rw [hm]; rfl, hK.tags,
    fun b k hv => ?_, hK.first hm⟩
  obtain ⟨-, idx, hl, hin, rfl, -⟩ := hv
  exact blockAtNode_owner (session_ranks hp h1) hp.someDomain
    (block_lt wf (inBox_of_getElem? hl (fun {k a b} ha hb => hin k a b ha hb))).1

theorem xfer_during {X : XferCfg α} {s0 : FullDist α} {t : Nat} {x x' : XferSt α}
    (h : XferReach c X s0.data x) (hd : XferDuring c X s0.data t x x') :
    XferReach c X s0.data x' ∧ FullDuring c X.F s0.data t x.st x'.st := by
  induction hd with
  | refl => exact ⟨h, .refl _⟩
  | tail _ hs hn ih =>
    obtain ⟨i1, i2⟩ := ih
    refine ⟨.step i1 hs, ?_⟩
    rcases (C83_refines i1).2 _ _ hs with e | e
    · rw [e]; exact i2
    · exact .tail i2 e hn

/-- **C84**, the implemented communication is as good as an ideal one: what a getter can return with it
is what it can return with an atomic lock, with replies that find the thread that has asked, and with
direct reads of the memory of other processes (C65). -/
theorem C84_refines (hp : Possible S sel) (hK : ProperNumbers S K sel) (hne : nc ≠ [])
    (hx : SizesExact fp (nc.map NcAxis.size)) (hv : ReadsVariable S name)
    (hfile : file name = some (nc, val)) (ho : S.open fp file = some (sel, c)) {t : Nat} {pos : List Dbl}
    {v : α} (hr : ReturnsComm S K sel c t pos v) : Returns S sel c t pos v := by
  obtain ⟨h1, h2, h3⟩ := session_open hv hfile ho
  have hO : Opened fp (cellCentered S.params) nc val c := ⟨hne, hx, _, _, _, _, h3⟩
  obtain ⟨wf, hx', -, -, -⟩ := hO.spec
  cases hr with
  | full mem0 m ht hl hm hg => exact .full mem0 m ht hl hm hg
  | fullLocal s0 idx hk hf hO' hidx hloc hg => exact .fullLocal s0 idx hk hf hO' hidx hloc hg
  | fullRemote s0 x x1 x2 hk hf hO' hst hc hd hg =>
    obtain ⟨st', hc, rfl⟩ := hc
    exact .fullRemote s0 x.st st' x2.st hk hf hO' (C83_refines hst).1 hc
      (xfer_during (.step hst (.call x t pos st' hc)) hd).2 hg
  | cache st st1 st2 hk hm hst hc hd hg => exact .cache st st1 st2 hk hst hc hd hg
  | cacheWindow ws ws1 ws2 hk hm hst hs hc hd hg =>
    have hC := session_legalWin (c := c) hp hK h2 hm
    exact .cache ws.st ws1.st ws2.st hk (C81_refines hC hst) hc (win_during hC (.step hst hs) hd).2 hg
  | cacheThread ms ms1 ms2 hk hm hst hc hd hg =>
    have hC := session_legalMsg hp hK wf h1 h2 hm
    obtain ⟨a, is, xs, e1, e2⟩ := MsgReach.sim hC hst
    obtain ⟨st', ⟨idx, hp', hi, rfl⟩, rfl⟩ := hc
    obtain ⟨k1, k2⟩ := call_sim e2 (hC.legal.inv e1) hi (blockByCoords c.geom idx)
      (calcOffsetInBlock c.geom idx)
    have hin := shared_inside wf (S.cache sel c) (pos2index_inBox wf hx' hp')
    obtain ⟨a2, is2, xs2, -, k4, k5⟩ := msg_during hC (.step e1 (.user t (.call a t _ _ k1 hin))) k2 hd
    refine .cache a _ a2 hk e1 ⟨idx, hp', k1, rfl⟩ k4 ?_
    obtain ⟨b, off, s, hg⟩ := hg
    have hu := k5.users t
    rw [hg] at hu
    exact ⟨b, off, s, (out_of_pc hu rfl nofun nofun).1⟩
  | passThrough n buf0 st hk hb hst hg => exact .passThrough n buf0 st hk hb hst hg

/-- **C84.** Whatever a getter returns with the implemented communication, in any thread on any process,
for whatever parameters, build, machine and history: it is the value of the sample of the variable that is
nearest to the position. -/
theorem C84_nearest_value (hp : Possible S sel) (hK : ProperNumbers S K sel) (hf : RegularFile nc)
    (hv : ReadsVariable S name) (hfile : file name = some (nc, val))
    (ho : S.open .exact file = some (sel, c)) {t : Nat} {pos : List ℚ} (hpos : pos.length = nc.length)
    {v : α} (hr : ReturnsComm S K sel c t (pos.map .fin) v) : ∃ idx, Selected nc pos idx ∧ v = val idx :=
  C65_nearest_value hp hf hv hfile ho hpos (C84_refines hp hK hf.1
    (sizesExact_exact (by
      intro s hs
      obtain ⟨a, ha, rfl⟩ := List.mem_map.1 hs
      exact (hf.2 a ha).2.1)) hv hfile ho hr)

/-! ### Each access returns a value -/

theorem win_step_idle {C : WinParams α} (hC : LegalWin C) {ws ws' : WinState α} (h : WinReach C ws)
    (hs : WinStep C ws ws') {t : Nat} (hn : ws.st.pc (.user t) ≠ .idle)
    (hi : ws'.st.pc (.user t) = .idle) : ∃ v, GetterReturns t ws.st v := by
  obtain ⟨k1, k2, k3⟩ := WinReach.all hC.dist hC.legal hC.window h
  rcases (k3.step hC.dist hC.window (hC.legal.inv k1) k2 hs).1 with e | e
  · rw [e] at hi; exact absurd hi hn
  · exact step_idle e hn hi

theorem win_returns {C : WinParams α} (hC : LegalWin C) {ws : WinState α} (h : WinReach C ws) {t : Nat}
    (hn : ws.st.pc (.user t) ≠ .idle) : ∃ ws2 v, WinDuring C t ws ws2 ∧ GetterReturns t ws2.st v := by
  obtain ⟨N, hN⟩ := C81_every_access_returns hC h
  obtain ⟨n, ws2, ⟨-, h2, -, -⟩, v, h3⟩ := run_until
    (fun n w => WinQuietRun C n ws w ∧ WinDuring C t ws w ∧ WinReach C w ∧ w.st.pc (.user t) ≠ .idle)
    (fun w => ∃ v, GetterReturns t w.st v) N (fun n s h => (hN n s h.1).1)
    (fun n s h' => by
      obtain ⟨h1, h2, h3, h4⟩ := h'
      obtain ⟨s', hq⟩ := C81_no_deadlock hC h3 t h4
      by_cases hid : s'.st.pc (.user t) = .idle
      · exact .inl (win_step_idle hC h3 hq.1 h4 hid)
      · exact .inr ⟨s', .succ h1 hq, .tail h2 hq.1 hid, .step h3 hq.1, hid⟩)
    ws ⟨.zero _, .refl _, h, hn⟩
  exact ⟨ws2, v, h2, h3⟩

theorem xfer_returns {X : XferCfg α} {cc : Bool} {s0 : FullDist α} (hO : Opened fp cc nc val c)
    (hF : FullOpened c X.F s0) {x : XferSt α} (h : XferReach c X s0.data x) {t : Nat}
    (hn : x.st.pc (.user t) ≠ .idle) :
    ∃ x2 v, XferDuring c X s0.data t x x2 ∧ GetterReturns t x2.st v := by
  obtain ⟨wf, hx, -⟩ := hO.spec
  obtain ⟨N, hN⟩ := C83_returns hO hF h true
  obtain ⟨n, x2, ⟨-, h2, -, -⟩, v, h3⟩ := run_until
    (fun n w => XferQuietRun c X s0.data true n x w ∧ XferDuring c X s0.data t x w ∧
      XferReach c X s0.data w ∧ w.st.pc (.user t) ≠ .idle)
    (fun w => ∃ v, GetterReturns t w.st v) N (fun n s h => (hN n s h.1).1)
    (fun n s h' => by
      obtain ⟨h1, h2, h3, h4⟩ := h'
      obtain ⟨s', hq⟩ := Xfer.progress wf hx hF (early := true) h3 h4
      by_cases hid : s'.st.pc (.user t) = .idle
      · refine .inl ?_
        rcases (C83_refines h3).2 _ _ hq.1 with e | e
        · rw [e] at hid; exact absurd hid h4
        · exact step_idle (e.dist wf hx hF) h4 hid
      · exact .inr ⟨s', .succ h1 hq, .tail h2 hq.1 hid, .step h3 hq.1, hid⟩)
    x ⟨.zero _, .refl _, h, hn⟩
  exact ⟨x2, v, h2, h3⟩

theorem msg_step_idle {C : MsgParams α} {early : Bool} {ms ms' : MsgSt α} (hs : MsgCacheStep C early ms ms')
    {t : Nat} (hn : ms.st.pc (.user t) ≠ .idle) (hi : ms'.st.pc (.user t) = .idle) :
    ∃ v, GetterReturns t ms.st v := by
  have same : ms'.st.pc (.user t) = ms.st.pc (.user t) → ∃ v, GetterReturns t ms.st v :=
    fun e => absurd (e.symm.trans hi) hn
  have own : ∀ {u : Nat} {p : Pc α}, p ≠ .idle → ms'.st.pc (.user t) = upd ms.st.pc (.user u) p (.user t) →
      ∃ v, GetterReturns t ms.st v := by
    intro u p hp e
    by_cases hut : t = u
    · subst hut
      rw [upd_self] at e
      exact absurd (e.symm.trans hi) hp
    · exact same (e.trans (upd_ne _ _ (user_ne' hut)))
  cases hs with
  | plain u st' _ _ hu => exact step_idle (.user u hu) hn hi
  | opSent u ticket tag x p' _ hp =>
    refine own (p := p') ?_ rfl
    revert hp
    unfold Pc.update
    split <;> intro hp <;> first | (injection hp with hp; injection hp with _ hp; injection hp with _ hp; rw [← hp]; nofun) | cases hp
  | infoRecv u => exact own (u := u) (by nofun) rfl
  | xferLock u => exact own (u := u) (by nofun) rfl
  | xferOk u => exact own (u := u) (by nofun) rfl
  | xferFail u => exact own (u := u) (by nofun) rfl
  | work r st' _ hk =>
    obtain ⟨hk, -, -, -⟩ := hk
    exact same (comm_other hk (by nofun))
  | takeXfer src r m => exact same (upd_ne ms.st.pc (.tryDom src m.data 0) (agent_ne r t).symm)
  | refuse r => exact same (upd_ne ms.st.pc .idle (agent_ne r t).symm)
  | reply r src b i s => exact same (upd_ne ms.st.pc (.sent i s) (agent_ne r t).symm)
  | _ => exact same rfl

theorem msgQuiet_F {C : MsgParams α} {early : Bool} {n f : Nat} {ms ms1 ms2 : MsgSt α}
    (h : MsgQuietRunF C early n f ms ms1) (hq : MsgQuiet C early ms1 ms2) :
    ∃ f', MsgQuietRunF C early (n + 1) f' ms ms2 := by
  by_cases hr : MsgRefused ms1 ms2
  · exact ⟨_, .refused h hq hr⟩
  · exact ⟨_, .served h hq hr⟩

theorem msg_returns {C : MsgParams α} (hC : LegalMsg C) (hno : C.P.noop = false) {l : CacheList}
    (hl : CacheList.init C.P.size C.P.handDiff = some l) {t b off : Nat} (hv : C.P.valid b off) :
    ∃ ms2 v, MsgDuring C t { MsgSt.start C l with st := { (MsgSt.start C l).st with
      pc := upd (MsgSt.start C l).st.pc (.user t) (.wantCm b off) } } ms2 ∧ GetterReturns t ms2.st v := by
  have h : MsgReach C { MsgSt.start C l with st := { (MsgSt.start C l).st with
      pc := upd (MsgSt.start C l).st.pc (.user t) (.wantCm b off) } } :=
    .step (.init ⟨l, hl, rfl⟩) (.plain _ t _ rfl (by nofun) (.call _ _ b off rfl hv))
  have hpc := upd_self (MsgSt.start C l).st.pc (.user t) (.wantCm b off)
  have hoth : ∀ a, a ≠ .user t → upd (MsgSt.start C l).st.pc (.user t) (.wantCm b off) a = .idle :=
    fun a ha => upd_ne _ _ ha
  obtain ⟨N, hN⟩ := C82_undisturbed_partial hC hno h hpc (fun u hu => hoth _ (user_ne' hu))
    (fun r => hoth _ (agent_ne r t)) (by nofun)
  obtain ⟨n, ms2, ⟨-, h2, -, -⟩, v, h3⟩ := run_until
    (fun n w => (∃ f, MsgQuietRunF C true n f _ w) ∧ MsgDuring C t _ w ∧ MsgReach C w ∧
      w.st.pc (.user t) ≠ .idle)
    (fun w => ∃ v, GetterReturns t w.st v) N
    (fun n s h => by obtain ⟨⟨f, h⟩, -⟩ := h; exact (hN true n f s h).1)
    (fun n s h' => by
      obtain ⟨⟨f, h1⟩, h2, h3, h4⟩ := h'
      obtain ⟨s', hq⟩ := C82_no_deadlock hC h3 true t h4
      by_cases hid : s'.st.pc (.user t) = .idle
      · exact .inl (msg_step_idle hq.1 h4 hid)
      · exact .inr ⟨s', msgQuiet_F h1 hq, .tail h2 hq.1 hid, .step h3 hq.1, hid⟩)
    _ ⟨⟨0, .zero _⟩, .refl _, h, fun e => nomatch hpc.symm.trans e⟩
  exact ⟨ms2, v, h2, h3⟩

theorem session_returns_comm (hp : Possible S sel) (hK : ProperNumbers S K sel) (hne : nc ≠ [])
    (hx : SizesExact fp (nc.map NcAxis.size)) (hv : ReadsVariable S name)
    (hfile : file name = some (nc, val)) (ho : S.open fp file = some (sel, c))
    (hnoop : sel.type.mpi = .thread → S.noop = false) (t : Nat) (ht : K.tid t < K.total)
    {pos : List Dbl} {idx : List Nat} (hidx : pos2index fp (openAxes fp false nc) pos = some idx) :
    ∃ v, ReturnsComm S K sel c t pos v := by
  obtain ⟨v, hr⟩ := session_returns hp hne hx hv hfile ho hnoop t hidx
  obtain ⟨h1, h2, h3⟩ := session_open hv hfile ho
  have hO : Opened fp (cellCentered S.params) nc val c := ⟨hne, hx, _, _, _, _, h3⟩
  obtain ⟨wf, hx', hfp, hax, hval⟩ := hO.spec
  rw [pos2index_valuePosition fp false (cellCentered S.params)] at hidx
  have hidx' : pos2index c.fp c.axes pos = some idx := by rw [hfp, hax]; exact hidx
  have hin := shared_inside wf (S.cache sel c) (pos2index_inBox wf hx' hidx')
  obtain ⟨l, _, hl, -⟩ := CacheList.init_inv h2 hp.hand
  cases hr with
  | full mem0 m ht hl hm hg => exact ⟨v, .full mem0 m ht hl hm hg⟩
  | fullLocal s0 idx hk hf hO' hidx hloc hg => exact ⟨v, .fullLocal s0 idx hk hf hO' hidx hloc hg⟩
  | fullRemote s0 st st1 st2 hk hf hO' hst hc hd hg =>
    have hr0 : XferReach c (S.xfer K sel) s0.data (XferSt.start c (S.xfer K sel) l) := .init ⟨l, hl, rfl⟩
    obtain ⟨idx, hidx, hloc, -, -⟩ := hc
    have hc : FullCalled c (S.full sel) t pos (XferSt.start c (S.xfer K sel) l).st _ :=
      ⟨idx, hidx, hloc, rfl, rfl⟩
    obtain ⟨x2, v, e1, e2⟩ := xfer_returns (t := t) hO (X := S.xfer K sel) hO'
      (.step hr0 (.call _ t pos _ hc)) (by
        change upd _ (Agent.user t) _ (Agent.user t) ≠ Pc.idle
        rw [upd_self]; nofun)
    exact ⟨v, .fullRemote s0 _ _ x2 hk hf hO' hr0 ⟨_, hc, rfl⟩ e1 e2⟩
  | cache st st1 st2 hk hst hc hd hg =>
    cases hm : sel.type.mpi with
    | no => exact ⟨v, .cache st st1 st2 hk hm hst hc hd hg⟩
    | window =>
      have hC := session_legalWin (c := c) hp hK h2 hm
      have hr0 : WinReach (S.win K sel c) (WinState.start (S.win K sel c) l) := .init ⟨l, hl, rfl⟩
      have hs : WinStep (S.win K sel c) (WinState.start (S.win K sel c) l) _ :=
        .plain _ t _ ht rfl rfl (.call _ _ _ _ rfl hin)
      obtain ⟨ws2, v, e1, e2⟩ := win_returns (t := t) hC (.step hr0 hs) (by
        change upd _ (Agent.user t) _ (Agent.user t) ≠ Pc.idle
        rw [upd_self]; nofun)
      exact ⟨v, .cacheWindow _ _ ws2 hk hm hr0 hs ⟨idx, hidx', rfl, rfl⟩ e1 e2⟩
    | thread =>
      have hC := session_legalMsg hp hK wf h1 h2 hm
      obtain ⟨ms2, v, e1, e2⟩ := msg_returns (t := t) hC (hnoop hm) hl hin
      exact ⟨v, .cacheThread _ _ ms2 hk hm (.init ⟨l, hl, rfl⟩) ⟨_, ⟨idx, hidx', rfl, rfl⟩, rfl⟩ e1 e2⟩
  | passThrough n buf0 st hk hb hst hg => exact ⟨v, .passThrough n buf0 st hk hb hst hg⟩

/-- **C84.** What a getter of any thread can return for a position is exactly the value of the nearest
sample: it does return it (if nobody else uses the grid; see C81, C82, C83 for other threads), and nothing
else. The thread has taken part in `open`. With the communication thread the library has to be built with
thread support (see C49). -/
theorem C84_getter_returns (hp : Possible S sel) (hK : ProperNumbers S K sel) (hf : RegularFile nc)
    (hv : ReadsVariable S name) (hfile : file name = some (nc, val))
    (ho : S.open .exact file = some (sel, c)) (hnoop : sel.type.mpi = .thread → S.noop = false) (t : Nat)
    (ht : K.tid t < K.total) (pos : List ℚ) (hpos : pos.length = nc.length) :
    ∃ idx, Selected nc pos idx ∧ ∀ v, ReturnsComm S K sel c t (pos.map .fin) v ↔ v = val idx := by
  obtain ⟨idx, e1, e2⟩ := C65_getter_returns hp hf hv hfile ho hnoop t pos hpos
  have hx : SizesExact .exact (nc.map NcAxis.size) := sizesExact_exact (by
      intro s hs
      obtain ⟨a, ha, rfl⟩ := List.mem_map.1 hs
      exact (hf.2 a ha).2.1)
  obtain ⟨idx', e3, -, -⟩ := C01_nearest_sample false nc hf pos hpos
  obtain ⟨v, hr⟩ := session_returns_comm hp hK hf.1 hx hv hfile ho hnoop t ht e3
  have key : ∀ w, ReturnsComm S K sel c t (pos.map .fin) w → w = val idx :=
    fun w h => (e2 w).1 (C84_refines hp hK hf.1 hx hv hfile ho h)
  refine ⟨idx, e1, fun w => ⟨key w, ?_⟩⟩
  rintro rfl
  rw [← key v hr]
  exact hr

/-! ### Non-trivial cases -/

/-- Two threads in each of the four processes of `exSession`. -/
def exNumbers : CommNumbers :=
  { total := 2, tid := fun t => if t < 8 then t % 2 else t, tagOffset := 0, infoTag := 0, xferTag := 1
    addTag := 2, delTag := 3, fullTag := 0 }

theorem exNumbers_proper (build : Build) (calls : List (Str × Str × Nat)) (sel : Selection) :
    ProperNumbers (exSession build calls) exNumbers sel := by
  refine ⟨fun t u h1 h2 h3 => ?_, by decide, fun _ => rfl⟩
  change (if t < 8 then t % 2 else t) < 2 at h1
  change t % 8 / 2 = u % 8 / 2 at h2
  change (if t < 8 then t % 2 else t) = (if u < 8 then u % 2 else u) at h3
  by_cases ht : t < 8 <;> by_cases hu : u < 8 <;> simp only [ht, hu, if_true, if_false] at h1 h3 <;> omega

/-- CACHE with MPI windows. -/
def exSessionC : Session (List Nat) := exSession defaultBuild
  [("GRID".toList, "CACHE".toList, 0), ("VARIABLE".toList, "height".toList, 1),
   ("CACHE_SIZE".toList, "3".toList, 1), ("BLOCK_SIZE_0".toList, "2".toList, 1)]

theorem exSessionC_ok : ReadsVariable exSessionC "height".toList ∧
    (∃ c, exSessionC.open .exact exHeight = some (⟨.CACHE_MPIWIN_NUMA, 4⟩, c)) ∧
    Possible exSessionC ⟨.CACHE_MPIWIN_NUMA, 4⟩ := by
  have hv : ReadsVariable exSessionC "height".toList := by unfold ReadsVariable; decide +kernel
  have hfile : exHeight "height".toList = some (exFile, fun i => i) := if_pos rfl
  obtain ⟨sel, c, ho⟩ := C65_open_succeeds (fp := .exact) _ (by decide)
    (fun a ha => (exFile_regular.2 a ha).1) hv hfile rfl (by decide +kernel) rfl rfl
  have e : initContainers exSessionC.build exSessionC.params exSessionC.commSize exSessionC.domains =
    some ⟨.CACHE_MPIWIN_NUMA, 4⟩ := by decide +kernel
  have h1 : sel = ⟨.CACHE_MPIWIN_NUMA, 4⟩ :=
    Option.some.inj ((session_open hv hfile ho).1.symm.trans e)
  subst h1
  exact ⟨hv, ⟨c, ho⟩, by decide, by decide, nofun, nofun, fun h => absurd h (by decide +kernel),
    by decide +kernel, fun t => Nat.mod_lt _ (by decide)⟩

/-- The three sessions (FULL with windows, CACHE with the communication thread, CACHE with windows) meet the
hypotheses of all theorems: at position (3.6, 8.9) each returns the value of sample (1, 4), and nothing
else. -/
example : ∃ cA cB cC, exSessionA.open .exact exHeight = some (⟨.FULL_MPIWIN_NUMA, 4⟩, cA) ∧
    exSessionB.open .exact exHeight = some (⟨.CACHE_MPITHREAD_NUMA, 4⟩, cB) ∧
    exSessionC.open .exact exHeight = some (⟨.CACHE_MPIWIN_NUMA, 4⟩, cC) ∧
    (∀ v, ReturnsComm exSessionA exNumbers ⟨.FULL_MPIWIN_NUMA, 4⟩ cA 5 [.fin 3.6, .fin 8.9] v ↔
      v = [1, 4]) ∧
    (∀ v, ReturnsComm exSessionB exNumbers ⟨.CACHE_MPITHREAD_NUMA, 4⟩ cB 3 [.fin 3.6, .fin 8.9] v ↔
      v = [1, 4]) ∧
    (∀ v, ReturnsComm exSessionC exNumbers ⟨.CACHE_MPIWIN_NUMA, 4⟩ cC 6 [.fin 3.6, .fin 8.9] v ↔
      v = [1, 4]) := by
  obtain ⟨a1, ⟨cA, a2⟩, a3⟩ := exSessionA_ok
  obtain ⟨b1, ⟨cB, b2⟩, b3⟩ := exSessionB_ok
  obtain ⟨c1, ⟨cC, c2⟩, c3⟩ := exSessionC_ok
  have hfile : exHeight "height".toList = some (exFile, fun i => i) := if_pos rfl
  obtain ⟨i, i1, i2, -⟩ := C01_nearest_sample false exFile exFile_regular [3.6, 8.9] rfl
  have hi : i = [1, 4] := Option.some.inj (i1.symm.trans (by decide +kernel))
  subst hi
  refine ⟨cA, cB, cC, a2, b2, c2, ?_, ?_, ?_⟩
  · obtain ⟨j, j1, j2⟩ := C84_getter_returns a3 (exNumbers_proper _ _ _) exFile_regular a1 hfile a2 nofun 5
      (by decide) [3.6, 8.9] rfl
    rw [selected_unique i2 j1]; exact j2
  · obtain ⟨j, j1, j2⟩ := C84_getter_returns b3 (exNumbers_proper _ _ _) exFile_regular b1 hfile b2
      (fun _ => rfl) 3 (by decide) [3.6, 8.9] rfl
    rw [selected_unique i2 j1]; exact j2
  · obtain ⟨j, j1, j2⟩ := C84_getter_returns c3 (exNumbers_proper _ _ _) exFile_regular c1 hfile c2 nofun 6
      (by decide) [3.6, 8.9] rfl
    rw [selected_unique i2 j1]; exact j2

end Asagi.Props
