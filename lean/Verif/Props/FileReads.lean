import Verif.Proofs.FileReads
import Verif.Props.CacheCount
/-
**C98**: when the threads, NUMA domains and processes that share a CACHE grid read a block from the file
or copy it from another cache.
-/
namespace Asagi.Props
open Asagi Asagi.Spec
variable {β : Type} {P : DistParams β} {s : CntState β} {ev : List Event}

/-- **C98**: a domain copies a block into its cache (from the file, another domain or another process)
again only after the block was evicted from this cache. -/
theorem C98_copied_again (hl : Legal P) (h : EventHistory P s ev) (d b : Nat) :
    Between (FillOf d b) (· = .evict d b) ev := (hist_ok hl h).fill.btw d b

/-- **C98**: with MPI windows, all processes together read a block from the file again only after the block
was evicted from some cache. -/
theorem C98_read_again (hl : Legal P) (hm : P.mode = .window) (h : EventHistory P s ev) (b : Nat) :
    Between (ReadOf b) (GoneOf b) ev := ((hist_ok hl h).read hm).btw b

/-- **C98**: a domain that accesses no more blocks than its cache has slots never evicts a block and
copies each block at most once. -/
theorem C98_no_eviction (hl : Legal P) (h : EventHistory P s ev) (d : Nat) (S : List Nat)
    (hS : S.length ≤ P.size) (ha : ∀ b, Event.ask d b ∈ ev → b ∈ S) :
    (∀ o, Event.evict d o ∉ ev) ∧ (∀ b, copyCount d b ev ≤ 1) ∧ fillCount d ev ≤ S.length := by
  have ok := hist_ok hl h
  have hno := (ok.cap d S hS ha).none
  have hn : (ev.filterMap (fillBlock d)).Nodup := by
    refine once_nodup fun b pre x mid y post e hx hy => ?_
    obtain ⟨z, hz, rfl⟩ := C98_copied_again hl h d b pre x mid y post e (fillBlock_iff.1 hx) (fillBlock_iff.1 hy)
    exact absurd (show Event.evict d b ∈ ev by rw [e]; simp [hz]) (hno b)
  refine ⟨hno, fun b => ?_, ?_⟩
  · rw [copyCount_eq]; exact List.nodup_iff_count_le_one.1 hn b
  · rw [fillCount_eq]
    refine length_le_of_subset hn fun b hb => ?_
    obtain ⟨x, hx, hxb⟩ := List.mem_filterMap.1 hb
    obtain ⟨k, rfl⟩ := fillBlock_iff.1 hxb
    exact ha b (ok.ask.fill d b k hx)

/-- **C98**: what a domain copies, and what a getter returns, was read from the file before by some
domain of some process: blocks come from nowhere else. (For an event in the middle, take the
history up to this event.) -/
theorem C98_from_file (hl : Legal P) (h : EventHistory P s ev) (d b : Nat)
    (hb : (∃ k, Event.fill d b k ∈ ev) ∨ Event.ret d b ∈ ev) : ∃ d', Event.fill d' b .file ∈ ev := by
  rcases hb with ⟨k, hk⟩ | hb
  · exact (hist_ok hl h).known.fill d b k hk
  · exact (hist_ok hl h).known.ret d b hb

/-- The blocks that were read from the file: each one once. -/
theorem reads_nodup (hl : Legal P) (hm : P.mode = .window) (h : EventHistory P s ev) (hf : Fits P ev) :
    (ev.filterMap readBlock).Nodup := by
  refine once_nodup fun b pre x mid y post e hx hy => ?_
  obtain ⟨z, hz, d, rfl⟩ := C98_read_again hl hm h b pre x mid y post e (readBlock_iff.1 hx) (readBlock_iff.1 hy)
  obtain ⟨S, hS, ha⟩ := hf d
  exact absurd (show Event.evict d b ∈ ev by rw [e]; simp [hz]) (((hist_ok hl h).cap d S hS ha).none b)

/-- **C98**: with MPI windows, if the accessed blocks fit into the caches, each block is read from the
file at most once by all processes together, and exactly once as soon as an access to it has
returned. -/
theorem C98_once (hl : Legal P) (hm : P.mode = .window) (h : EventHistory P s ev) (hf : Fits P ev) (b : Nat) :
    readCount b ev ≤ 1 ∧ (∀ d, Event.ret d b ∈ ev → readCount b ev = 1) := by
  have hn := List.nodup_iff_count_le_one.1 (reads_nodup hl hm h hf) b
  rw [← readCount_eq] at hn
  refine ⟨hn, fun d hd => ?_⟩
  obtain ⟨d', hd'⟩ := C98_from_file hl h d b (.inr hd)
  have : 0 < readCount b ev := by
    rw [readCount_eq]
    exact List.count_pos_iff.2 (List.mem_filterMap.2 ⟨_, hd', rfl⟩)
  omega

/-- **C98**: in every mode, the counter FILE of a domain is the number of times the domain has read a
block from the file (the counter wraps around like `unsigned long`). -/
theorem C98_file_counter (hl : Legal P) (h : EventHistory P s ev) (d : Nat) :
    (s.c d).get .file = fileCount d ev % ulongRange := (hist_ok hl h).count d

/-- **C98**: with MPI windows, if the accessed blocks fit into the caches, the counters FILE of any
domains `D` add up to at most the number of blocks accessed by all domains (`A`); and if `D` contains all
domains with accesses and each block was returned to each domain that asked for it, to exactly this
number. -/
theorem C98_file_counters (hl : Legal P) (hm : P.mode = .window) (h : EventHistory P s ev)
    (hf : Fits P ev) (A D : List Nat) (hD : D.Nodup) (hA : ∀ d b, Event.ask d b ∈ ev → b ∈ A) :
    (D.map fun d => (s.c d).get .file).sum ≤ A.length ∧
      (A.Nodup → A.length < ulongRange → (∀ b ∈ A, ∃ d, Event.ask d b ∈ ev) →
        (∀ d b, Event.ask d b ∈ ev → d ∈ D ∧ Event.ret d b ∈ ev) →
        (D.map fun d => (s.c d).get .file).sum = A.length) := by
  have hn := reads_nodup hl hm h hf
  have ok := hist_ok hl h
  have hsub : ∀ b ∈ ev.filterMap readBlock, b ∈ A := by
    intro b hb
    obtain ⟨x, hx, hxb⟩ := List.mem_filterMap.1 hb
    obtain ⟨d, rfl⟩ := readBlock_iff.1 hxb
    exact hA d b (ok.ask.fill d b _ hx)
  have hle := length_le_of_subset hn hsub
  have hsum := fileCount_sum D hD ev
  constructor
  · refine Nat.le_trans ?_ (Nat.le_trans hsum.1 hle)
    refine List.sum_le_sum fun d _ => ?_
    rw [C98_file_counter hl h d]
    exact Nat.mod_le ..
  · intro hAn hlt hAa hall
    have hge : A.length ≤ (ev.filterMap readBlock).length := by
      refine length_le_of_subset hAn fun b hb => ?_
      obtain ⟨d, hd⟩ := hAa b hb
      obtain ⟨d', hd'⟩ := C98_from_file hl h d b (.inr (hall d b hd).2)
      exact List.mem_filterMap.2 ⟨_, hd', rfl⟩
    have heq := hsum.2 fun d b hm => (hall d b (ok.ask.fill d b _ hm)).1
    rw [show A.length = (D.map fun d => fileCount d ev).sum by omega]
    congr 1
    refine List.map_congr_left fun d hd => ?_
    rw [C98_file_counter hl h d]
    refine Nat.mod_eq_of_lt ?_
    have : fileCount d ev ≤ (D.map fun d => fileCount d ev).sum :=
      List.le_sum_of_mem (List.mem_map.2 ⟨d, hd, rfl⟩)
    omega

/-- **C98**: when no getter is running, each block was returned to each domain that asked for it. -/
theorem C98_all_returned (hl : Legal P) (h : EventHistory P s ev) (hq : ∀ t, s.st.pc (.user t) = .idle) (d b : Nat)
    (ha : Event.ask d b ∈ ev) : Event.ret d b ∈ ev := by
  rcases (hist_ok hl h).ask.ends d b ha with h | ⟨t, -, ht⟩
  · exact h
  · rw [hq t] at ht; cases ht

/-- **C98**: every execution has such a history. -/
theorem C98_histories {st : DistState β} (h : DistReach P st) : ∃ c ev, EventHistory P ⟨st, c⟩ ev := by
  induction h with
  | init h => obtain ⟨c, hc, rfl⟩ := h; exact ⟨_, _, .opened c hc⟩
  | @step st st' _ hs ih =>
    obtain ⟨c, ev, hh⟩ := ih
    cases hs with
    | user t hs => exact ⟨_, _, .user (s' := ⟨st', bump c (P.dom t) (pcCounts (fun _ => .file)
        (st.pc (.user t)) (st'.pc (.user t)))⟩) t hh ⟨hs, rfl⟩⟩
    | comm r hs => exact ⟨c, ev, .comm r hh hs⟩

/-! ### Schedules -/

/-- One element of a schedule, with counters and events. -/
def evStep (P : DistParams β) (x : CntState β × List Event) : DistCmd → Option (CntState β × List Event)
  | .call t b off => ((DistCmd.call t b off).exec P x.1.st).map (go t)
  | .user t rnd => ((DistCmd.user t rnd).exec P x.1.st).map (go t)
  | cmd => (cmd.exec P x.1.st).map fun st' => (⟨st', x.1.c⟩, x.2)
where
  /-- A step of thread `t`. -/
  go (t : Nat) (st' : DistState β) : CntState β × List Event :=
    (⟨st', bump x.1.c (P.dom t) (pcCounts (fun _ => .file) (x.1.st.pc (.user t)) (st'.pc (.user t)))⟩,
      x.2 ++ events (P.dom t) (x.1.st.pc (.user t)) (st'.pc (.user t)))

/-- A schedule from opening. -/
def evRun (P : DistParams β) (cmds : List DistCmd) : Option (CntState β × List Event) :=
  (CacheList.init P.size P.handDiff).bind fun c =>
    cmds.foldlM (evStep P) (⟨DistState.start P c, fun _ => {}⟩, [])

theorem evStep_sound (hin : ∀ b k, P.inside b k) {x x' : CntState β × List Event} {cmd : DistCmd}
    (h : evStep P x cmd = some x') (hh : EventHistory P x.1 x.2) : EventHistory P x'.1 x'.2 := by
  cases cmd with
  | call t b off =>
    simp only [evStep, Option.map_eq_some_iff] at h
    obtain ⟨st', h1, rfl⟩ := h
    simp only [DistCmd.exec] at h1
    split at h1
    · next hp =>
      split_ifs at h1 with h2
      injection h1 with h1
      exact .user t hh ⟨by subst h1; exact .call _ _ b off hp ⟨h2, hin _ _⟩, rfl⟩
    · cases h1
  | user t rnd =>
    simp only [evStep, Option.map_eq_some_iff] at h
    obtain ⟨st', h1, rfl⟩ := h
    exact .user t hh ⟨execUser_sound h1, rfl⟩
  | deliver r src =>
    simp only [evStep, Option.map_eq_some_iff] at h
    obtain ⟨st', h1, rfl⟩ := h
    simp only [DistCmd.exec] at h1
    split at h1
    · next b op rest hp hn => cases h1; exact .comm r hh (.deliver _ _ src b op rest hp hn)
    · cases h1
  | accept r t =>
    simp only [evStep, Option.map_eq_some_iff] at h
    obtain ⟨st', h1, rfl⟩ := h
    simp only [DistCmd.exec] at h1
    split at h1
    · next b off s r' hp hu hb =>
      split_ifs at h1 with h2
      subst h2; cases h1; exact .comm r' hh (.accept _ _ t b off s hp hu hb)
    · cases h1
  | comm r =>
    simp only [evStep, Option.map_eq_some_iff] at h
    obtain ⟨st', h1, rfl⟩ := h
    exact .comm r hh (execComm_sound h1)

theorem evRun_sound (hin : ∀ b k, P.inside b k) {x : CntState β × List Event} {cmds : List DistCmd}
    (h : evRun P cmds = some x) : EventHistory P x.1 x.2 := by
  simp only [evRun, Option.bind_eq_some_iff] at h
  obtain ⟨c, hc, h⟩ := h
  have key : ∀ (cmds : List DistCmd) (y : CntState β × List Event), EventHistory P y.1 y.2 →
      cmds.foldlM (evStep P) y = some x → EventHistory P x.1 x.2 := by
    intro cmds
    induction cmds with
    | nil => intro y hy h; cases h; exact hy
    | cons cmd cmds ih =>
      intro y hy h
      simp only [List.foldlM_cons, Option.bind_eq_bind, Option.bind_eq_some_iff] at h
      obtain ⟨y1, h1, h2⟩ := h
      exact ih y1 (evStep_sound hin h1 hy) h2
  exact key cmds _ (.opened c hc) h

/-- The history of a schedule. -/
theorem ex_events {mode : DistMode} {numa noop : Bool} (cmds : List DistCmd) (ev : List Event)
    (h : (evRun (exShared mode numa noop) cmds).any (fun x => decide (x.2 = ev)) = true) :
    ∃ s, EventHistory (exShared mode numa noop) s ev := by
  cases hr : evRun (exShared mode numa noop) cmds with
  | none => rw [hr] at h; cases h
  | some x =>
    rw [hr] at h
    exact ⟨x.1, of_decide_eq_true h ▸ evRun_sound (fun _ _ => trivial) hr⟩


/-- MPI windows, caches of two blocks: thread 0 accesses blocks 5, 6, 7 and 5. Block 5 is evicted for block
7 and read from the file again. -/
example : ∃ s, EventHistory (exShared .window false false) s
    [.ask 0 5, .fill 0 5 .file, .ret 0 5, .ask 0 6, .fill 0 6 .file, .ret 0 6, .ask 0 7, .evict 0 5,
      .fill 0 7 .file, .ret 0 7, .ask 0 5, .evict 0 6, .fill 0 5 .file, .ret 0 5] :=
  ex_events ([.call 0 5 0] ++ steps 0 12 ++ [.call 0 6 0] ++ steps 0 12 ++ [.call 0 7 0] ++ steps 0 13 ++
    [.call 0 5 1] ++ steps 0 13) _ (by decide +kernel)

/-- The same caches: the domains 0 and 1 of the first process and domain 2 of the second one access
the blocks 5 and 7, which fit into the caches. Each block is read from the file once. -/
theorem ex_fits : ∃ s, EventHistory (exShared .window true false) s
    [.ask 0 5, .fill 0 5 .file, .ret 0 5, .ask 1 5, .fill 1 5 .domain, .ret 1 5, .ask 2 5,
      .fill 2 5 .process, .ret 2 5, .ask 0 5, .ret 0 5, .ask 1 7, .fill 1 7 .file, .ret 1 7] :=
  ex_events ([.call 0 5 0] ++ steps 0 15 ++ [.call 1 5 1] ++ steps 1 12 ++ [.call 2 5 1] ++ steps 2 15 ++
    [.call 0 5 1] ++ steps 0 4 ++ [.call 5 7 0] ++ steps 5 15) _ (by decide +kernel)

example : ∃ s ev, EventHistory (exShared .window true false) s ev ∧ Fits (exShared .window true false) ev ∧
    readCount 5 ev = 1 ∧ readCount 7 ev = 1 ∧ ([0, 1, 2].map fun d => (s.c d).get .file).sum = 2 ∧
    (s.c 0).get .file = 1 ∧ (s.c 1).get .file = 1 ∧ (s.c 2).get .file = 0 := by
  obtain ⟨s, h⟩ := ex_fits
  have hl := exShared_legal .window true false
  have ha : ∀ d b, Event.ask d b ∈ _ → b ∈ [5, 7] := fun d b (hb : Event.ask d b ∈
      [.ask 0 5, .fill 0 5 .file, .ret 0 5, .ask 1 5, .fill 1 5 .domain, .ret 1 5, .ask 2 5,
      .fill 2 5 .process, .ret 2 5, .ask 0 5, .ret 0 5, .ask 1 7, .fill 1 7 .file, .ret 1 7]) => by
    simp at hb; simp; omega
  have hf : Fits (exShared .window true false) _ := fun d => ⟨[5, 7], Nat.le_refl 2, ha d⟩
  refine ⟨s, _, h, hf, rfl, rfl, ?_, C98_file_counter hl h 0, C98_file_counter hl h 1, C98_file_counter hl h 2⟩
  refine (C98_file_counters hl rfl h hf [5, 7] [0, 1, 2] (by decide) ha).2 (by decide) (by decide) ?_ ?_
  · intro b hb
    simp at hb
    rcases hb with rfl | rfl
    · exact ⟨0, by simp⟩
    · exact ⟨1, by simp⟩
  · intro d b hb
    simp at hb ⊢; omega

/-! ### Where this does not hold -/

/-- With the communication thread, two processes can read the same block from the file although nothing
was evicted: the directory does not know of blocks that are being read. So `C98_read_again` does not
hold there. -/
theorem C98_thread_reads_twice : ∃ (P : DistParams Nat) (s : CntState Nat) (ev : List Event), Legal P ∧
    P.mode = .thread ∧ EventHistory P s ev ∧ Fits P ev ∧ (∀ d b, Event.evict d b ∉ ev) ∧ readCount 5 ev = 2 := by
  obtain ⟨s, h⟩ := ex_events (mode := .thread) (numa := false) (noop := false)
    ([.call 0 5 0, .call 2 5 0] ++ steps 0 6 ++ steps 2 6)
    [.ask 0 5, .ask 2 5, .fill 0 5 .file, .fill 2 5 .file] (by decide +kernel)
  refine ⟨_, s, _, exShared_legal _ _ _, rfl, h, fun d => ⟨[5], by decide, fun b hb => ?_⟩, by simp, rfl⟩
  simp at hb; simp; omega

/-- Without MPI, two domains of a process can read the same block from the file although nothing was
evicted and the domains look into each other's caches: a slot that is being filled is locked. -/
theorem C98_domains_read_twice : ∃ (P : DistParams Nat) (s : CntState Nat) (ev : List Event), Legal P ∧
    P.mode = .none ∧ (∀ d b, P.numa d b = true) ∧ P.noop = false ∧ EventHistory P s ev ∧ Fits P ev ∧
    (∀ d b, Event.evict d b ∉ ev) ∧ readCount 5 ev = 2 := by
  obtain ⟨s, h⟩ := ex_events (mode := .none) (numa := true) (noop := false)
    ([.call 0 5 0, .call 1 5 0] ++ steps 0 9 ++ steps 1 9)
    [.ask 0 5, .ask 1 5, .fill 0 5 .file, .fill 1 5 .file] (by decide +kernel)
  refine ⟨_, s, _, exShared_legal _ _ _, rfl, fun _ _ => rfl, rfl, h,
    fun d => ⟨[5], by decide, fun b hb => ?_⟩, by simp, rfl⟩
  simp at hb; simp; omega

end Asagi.Props
