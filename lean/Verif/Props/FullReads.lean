import Verif.Props.FileReads
import Verif.Props.FullConc
/-
**C98** for distributed FULL grids: when a domain copies a block of another domain or process.
-/
namespace Asagi.Props
open Asagi Asagi.Spec
variable {α : Type} {c : LevelCfg α} {F : FullCfg α} {s0 : FullDist α} {st : DistState α} {ev : List Event}

theorem opened_wf {fp : Fp} {cc : Bool} {nc : List NcAxis} {val : List Nat → α} (ho : Opened fp cc nc val c) :
    c.WF ∧ SizesExact c.fp c.file.size := by
  obtain ⟨wf, hx, -⟩ := ho.spec
  exact ⟨wf, hx⟩

theorem inFull_fill {d b : Nat} {x : Event} : FillOf d b (x.inFull c F) ↔ FillOf d b x := by
  rcases x with _ | ⟨d', b', k⟩ | _ | _
  all_goals try exact Iff.rfl
  cases k <;> simp [Event.inFull, FillOf]

theorem inFull_eq {x y : Event} (hy : ∀ d b k, y ≠ .fill d b k) : x.inFull c F = y ↔ x = y := by
  rcases x with _ | ⟨d', b', k⟩ | _ | _
  all_goals try exact Iff.rfl
  all_goals cases k
  all_goals simp only [Event.inFull]
  all_goals exact ⟨fun h => absurd h.symm (hy _ _ _), fun h => absurd h.symm (hy _ _ _)⟩

theorem mem_inFull {y : Event} (hy : ∀ d b k, y ≠ .fill d b k) {l : List Event} :
    y ∈ l.map (Event.inFull c F) ↔ y ∈ l := by
  simp only [List.mem_map, inFull_eq hy, exists_eq_right]

theorem between_map {R E : Event → Prop} (f : Event → Event) (hR : ∀ x, R (f x) ↔ R x) (hE : ∀ x, E (f x) ↔ E x)
    {l : List Event} (h : Between R E l) : Between R E (l.map f) := by
  intro pre x mid y post e hx hy
  rw [List.append_assoc, List.map_eq_append_iff] at e
  obtain ⟨pre', l1, rfl, -, e⟩ := e
  rw [List.cons_append, List.map_eq_cons_iff] at e
  obtain ⟨x', l2, rfl, rfl, e⟩ := e
  rw [List.map_eq_append_iff] at e
  obtain ⟨mid', l3, rfl, rfl, e⟩ := e
  rw [List.map_eq_cons_iff] at e
  obtain ⟨y', post', rfl, rfl, -⟩ := e
  obtain ⟨z, hz, hz'⟩ := h pre' x' mid' y' post' (by simp) ((hR _).1 hx) ((hR _).1 hy)
  exact ⟨f z, List.mem_map_of_mem hz, (hE z).2 hz'⟩

/-- A step in which thread `t` moves is a step of thread `t` with the shared caches. -/
theorem full_user {t : Nat} {st' : DistState α} (wf : c.WF) (hx : SizesExact c.fp c.file.size)
    (h : FullOpened c F s0) (hs : FullStep c F s0.data st st') (hne : st'.pc (.user t) ≠ st.pc (.user t)) :
    UserStep (c.fullShared F) t st st' := by
  cases hs.dist wf hx h with
  | user u hu =>
    have : t = u := by
      by_contra hn
      exact hne ((user_shape hu).other (by simpa using hn))
    rw [this]; exact hu
  | comm r hc => exact absurd ((comm_users hc).2 t) hne

/-- The caches of a distributed FULL grid as shared caches, with the events. -/
theorem full_events (wf : c.WF) (hx : SizesExact c.fp c.file.size) (h : FullOpened c F s0)
    (he : FullEvents c F s0.data st ev) :
    ∃ cs ev0, EventHistory (c.fullShared F) ⟨st, cs⟩ ev0 ∧ ev = ev0.map (Event.inFull c F) := by
  induction he with
  | opened cl hc => exact ⟨_, _, .opened cl hc, rfl⟩
  | @user st st' ev t _ hs hne ih =>
    obtain ⟨cs, ev0, hh, rfl⟩ := ih
    exact ⟨_, _, .user (s' := ⟨st', bump cs (F.dom t) (pcCounts (fun _ => .file)
      (st.pc (.user t)) (st'.pc (.user t)))⟩) t hh ⟨full_user wf hx h hs hne, rfl⟩, (List.map_append ..).symm⟩

variable {fp : Fp} {cc : Bool} {nc : List NcAxis} {val : List Nat → α}

/-- **C98**, distributed FULL grids: a domain copies a block of another domain or process into its cache again only
after the block was evicted from this cache. -/
theorem C98_full_copied_again (ho : Opened fp cc nc val c) (h : FullOpened c F s0)
    (he : FullEvents c F s0.data st ev) (d b : Nat) : Between (FillOf d b) (· = .evict d b) ev := by
  obtain ⟨cs, ev0, hh, rfl⟩ := full_events (opened_wf ho).1 (opened_wf ho).2 h he
  exact between_map _ (fun x => inFull_fill) (fun x => inFull_eq (fun _ _ _ => by simp)) (C98_copied_again h.legal hh d b)

/-- **C98**, distributed FULL grids: a domain that accesses no more blocks of other domains and processes than its cache
has slots never evicts a block and copies each block at most once. -/
theorem C98_full_no_eviction (ho : Opened fp cc nc val c) (h : FullOpened c F s0)
    (he : FullEvents c F s0.data st ev) (d : Nat) (S : List Nat) (hS : S.length ≤ F.cacheSize)
    (ha : ∀ b, Event.ask d b ∈ ev → b ∈ S) :
    (∀ o, Event.evict d o ∉ ev) ∧ (∀ b, copyCount d b ev ≤ 1) ∧ fillCount d ev ≤ S.length := by
  obtain ⟨cs, ev0, hh, rfl⟩ := full_events (opened_wf ho).1 (opened_wf ho).2 h he
  obtain ⟨h1, h2, h3⟩ := C98_no_eviction h.legal hh d S hS fun b hb => ha b ((mem_inFull (fun _ _ _ => by simp)).2 hb)
  refine ⟨fun o hm => h1 o ((mem_inFull (fun _ _ _ => by simp)).1 hm), fun b => ?_, ?_⟩
  · refine Nat.le_trans (Nat.le_of_eq ?_) (h2 b)
    simp only [copyCount, List.countP_map]
    refine List.countP_congr fun x _ => ?_
    rcases x with _ | ⟨d', b', k⟩ | _ | _ <;> try exact Iff.rfl
    cases k <;> exact Iff.rfl
  · refine Nat.le_trans (Nat.le_of_eq ?_) h3
    simp only [fillCount, List.countP_map]
    refine List.countP_congr fun x _ => ?_
    rcases x with _ | ⟨d', b', k⟩ | _ | _ <;> try exact Iff.rfl
    cases k <;> exact Iff.rfl

/-- **C98**, distributed FULL grids: only blocks of other domains are copied into the cache of a domain, and none of them
is read from the file again. -/
theorem C98_full_foreign (ho : Opened fp cc nc val c) (h : FullOpened c F s0) (he : FullEvents c F s0.data st ev)
    (d b : Nat) (k : Source) (hm : Event.fill d b k ∈ ev) :
    k ≠ .file ∧ ¬ (F.ds.blockRank c.totalBlocks b = d / F.ds.domains ∧
      F.ds.blockDomain c.totalBlocks b = d % F.ds.domains) := by
  have hask : ∀ d b, Event.ask d b ∈ ev → ¬ (F.ds.blockRank c.totalBlocks b = d / F.ds.domains ∧
      F.ds.blockDomain c.totalBlocks b = d % F.ds.domains) := by
    clear hm
    induction he with
    | opened => intro d b hm; cases hm
    | @user st st' ev t _ hs hne ih =>
      intro d b hm
      rcases List.mem_append.1 hm with hm | hm
      · exact ih d b hm
      rw [mem_inFull (fun _ _ _ => by simp)] at hm
      have hu := full_user (opened_wf ho).1 (opened_wf ho).2 h hs hne
      rcases (user_shape hu).events with ⟨b', h1, -, e⟩ | ⟨b', -, -, e⟩ | ⟨b', -, -, e⟩
      · cases hs with
        | call t' pos hc =>
          obtain ⟨idx, -, hloc, -, rfl⟩ := hc
          have htt : t = t' := by
            by_contra hn
            exact hne (upd_ne _ _ (by simpa using hn))
          subst htt
          rw [h1] at hm
          change Event.ask d b ∈ events (F.dom t) .idle (upd _ _ _ _) at hm
          rw [upd_self] at hm
          simp only [events, List.mem_singleton, Event.ask.injEq] at hm
          rw [hm.1, hm.2]
          exact hloc
        | copy t' b1 off s k src v hp =>
          have htt : t = t' := by
            by_contra hn
            exact hne (upd_ne _ _ (by simpa using hn))
          rw [← htt, h1] at hp; cases hp
        | other t' hi _ hu' =>
          have htt : t = t' := by
            by_contra hn
            exact hne ((user_shape hu').other (by simpa using hn))
          rw [← htt] at hi
          exact absurd h1 hi
      · rcases e _ hm with ⟨k, hk⟩ | ⟨_, _, _, hk, -⟩ <;> cases hk
      · replace hm := e ▸ (show _ ∈ events ((c.fullShared F).dom t) _ _ from hm)
        simp at hm
  obtain ⟨cs, ev0, hh, rfl⟩ := full_events (opened_wf ho).1 (opened_wf ho).2 h he
  refine ⟨?_, hask d b ?_⟩
  · obtain ⟨x, -, hx⟩ := List.mem_map.1 hm
    rintro rfl
    rcases x with _ | ⟨d', b', k⟩ | _ | _ <;> try cases hx
    cases k <;> simp only [Event.inFull] at hx <;> try cases hx
    split_ifs at hx <;> cases hx
  · obtain ⟨x, hx0, hx⟩ := List.mem_map.1 hm
    obtain ⟨k', rfl⟩ : FillOf d b x := inFull_fill.1 ⟨k, hx⟩
    exact (mem_inFull (fun _ _ _ => by simp)).2 ((hist_ok h.legal hh).ask.fill d b k' hx0)

/-- **C98**, distributed FULL grids: when no getter is running, each block was returned to each domain that asked. -/
theorem C98_full_all_returned (ho : Opened fp cc nc val c) (h : FullOpened c F s0) (he : FullEvents c F s0.data st ev)
    (hq : ∀ t, st.pc (.user t) = .idle) (d b : Nat) (ha : Event.ask d b ∈ ev) : Event.ret d b ∈ ev := by
  obtain ⟨cs, ev0, hh, rfl⟩ := full_events (opened_wf ho).1 (opened_wf ho).2 h he
  exact (mem_inFull (fun _ _ _ => by simp)).2
    (C98_all_returned h.legal hh hq d b ((mem_inFull (fun _ _ _ => by simp)).1 ha))

/-- **C98**, distributed FULL grids: every execution has such a history. -/
theorem C98_full_histories {data : Nat → Mem α} (h : FullReach c F data st) : ∃ ev, FullEvents c F data st ev := by
  induction h with
  | init h => obtain ⟨cl, hc, rfl⟩ := h; exact ⟨_, .opened cl hc⟩
  | step _ hs ih =>
    obtain ⟨ev, hh⟩ := ih
    obtain ⟨t, ht⟩ := fullStep_ne hs
    exact ⟨_, .user t hh hs ht⟩

/-- `n` steps of thread `t` after a call, with events. -/
def fullEvExec (c : LevelCfg α) (F : FullCfg α) (data : Nat → Mem α) (t : Nat) :
    Nat → DistState α × List Event → Option (DistState α × List Event)
  | 0, x => some x
  | n + 1, x => (fullExec1 c F data x.1 t).bind fun st' => fullEvExec c F data t n (fullEvGo c F t x st')
where
  /-- A step of thread `t`. -/
  fullEvGo (c : LevelCfg α) (F : FullCfg α) (t : Nat) (x : DistState α × List Event) (st' : DistState α) :
      DistState α × List Event :=
    (st', x.2 ++ (events (F.dom t) (x.1.pc (.user t)) (st'.pc (.user t))).map (Event.inFull c F))

theorem fullEvExec_sound {data : Nat → Mem α} {t n : Nat} {x x' : DistState α × List Event}
    (h : fullEvExec c F data t n x = some x') (hh : FullEvents c F data x.1 x.2) :
    FullEvents c F data x'.1 x'.2 := by
  induction n generalizing x with
  | zero => cases h; exact hh
  | succ n ih =>
    simp only [fullEvExec, Option.bind_eq_some_iff] at h
    obtain ⟨st', h1, h2⟩ := h
    exact ih h2 (.user t hh (fullExec1_sound h1) (fullExec1_ne h1))

/-- A call and `n` steps. -/
def fullEvCall (c : LevelCfg α) (F : FullCfg α) (data : Nat → Mem α) (t : Nat) (pos : List Dbl) (n : Nat)
    (x : DistState α × List Event) : Option (DistState α × List Event) :=
  (fullCall c F x.1 t pos).bind fun st' => fullEvExec c F data t n (fullEvExec.fullEvGo c F t x st')

theorem fullEvCall_sound {data : Nat → Mem α} {t n : Nat} {pos : List Dbl} {x x' : DistState α × List Event}
    (h : fullEvCall c F data t pos n x = some x') (hh : FullEvents c F data x.1 x.2) :
    FullEvents c F data x'.1 x'.2 := by
  simp only [fullEvCall, Option.bind_eq_some_iff] at h
  obtain ⟨st', h1, h2⟩ := h
  refine fullEvExec_sound h2 ?_
  have hc := fullCall_sound h1
  refine .user t hh (.call t pos hc) ?_
  obtain ⟨idx, -, -, h3, rfl⟩ := hc
  simp [h3, fullEvExec.fullEvGo]

/-- Two processes with two domains: thread 2 (process 1) has copied block 2 by MPI, thread 3 (the
other domain) from the cache of the first domain; block 2 belongs to domain 1 of process 0. -/
example : ∃ s0 : FullDist (List Nat), FullOpened exLevel exFullCfg s0 ∧
    ∃ (st : DistState (List Nat)) (ev : List Event), FullEvents exLevel exFullCfg s0.data st ev ∧
    .fill 2 2 .process ∈ ev ∧ .fill 3 2 .domain ∈ ev ∧ .ret 2 2 ∈ ev ∧ .ret 3 2 ∈ ev := by
  have hsome : ((fullDistOpen exLevel exFullCfg.ds 2 1 [] (fun _ => List.replicate 12 [])).bind fun s0 =>
      (CacheList.init 2 1).bind fun cl =>
      (fullEvCall exLevel exFullCfg s0.data 2 [.fin 4, .fin 7.5] 19
        (DistState.start (exLevel.fullShared exFullCfg) cl, [])).bind fun x1 =>
      (fullEvCall exLevel exFullCfg s0.data 3 [.fin 4, .fin 7.5] 15 x1).bind fun x2 =>
      some (s0, cl, x1, x2)).any (fun x => decide (.fill 2 2 .process ∈ x.2.2.2.2 ∧ .fill 3 2 .domain ∈ x.2.2.2.2 ∧
        .ret 2 2 ∈ x.2.2.2.2 ∧ .ret 3 2 ∈ x.2.2.2.2)) = true := by decide +kernel
  revert hsome
  generalize hx : Option.bind _ _ = x
  cases x with
  | none => intro h; cases h
  | some x =>
    intro hv
    simp only [Option.bind_eq_some_iff] at hx
    obtain ⟨s0, h0, cl, hl, x1, h1, x2, h2, hx⟩ := hx
    injection hx with hx; subst hx
    have hh := fullEvCall_sound h2 (fullEvCall_sound h1 (.opened cl hl))
    refine ⟨s0, ?_, _, _, hh, of_decide_eq_true hv⟩
    refine ⟨by decide, by decide, by decide, by decide, fun t => ?_, .inl rfl,
      ⟨fun _ => List.replicate 12 [], fun r _ => ?_, h0⟩⟩
    · show t % 4 < 2 * 2
      omega
    · rw [List.length_replicate]; decide

end Asagi.Props
