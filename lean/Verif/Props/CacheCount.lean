import Verif.Proofs.CacheCount
import Verif.Props.SharedCache
import Verif.Props.FullConc
import Mathlib.Algebra.BigOperators.Group.Finset.Piecewise
import Mathlib.Algebra.Order.BigOperators.Group.Finset
/-
**C97**: with any number of threads, NUMA domains and processes, every access to a CACHE grid or a
distributed FULL grid is served by exactly one place, and the counters of the domain tell how many
accesses were served by which place.
-/
namespace Asagi.Props
open Asagi Asagi.Spec
variable {β α : Type}

/-- The sum over the places of a domain. -/
theorem served_sum {Q : Source → Prop} (hQ : ∀ x, Q x → x ≠ .here) {l : Ledger}
    (hd : ∀ a ∈ l.done, Served Q a) (d : Nat) :
    l.returned d = l.served d [] + l.served d [.domain] + l.served d [.process] + l.served d [.file] := by
  have key : ∀ L : List Access, (∀ a ∈ L, Served Q a) →
      L.countP (fun a => decide (a.dom = d)) =
        L.countP (fun a => decide (a.dom = d ∧ a.copies = [])) +
        L.countP (fun a => decide (a.dom = d ∧ a.copies = [.domain])) +
        L.countP (fun a => decide (a.dom = d ∧ a.copies = [.process])) +
        L.countP (fun a => decide (a.dom = d ∧ a.copies = [.file])) := by
    intro L hL
    induction L with
    | nil => rfl
    | cons a L ih =>
      have h1 := ih fun x hx => hL x (List.mem_cons_of_mem _ hx)
      simp only [List.countP_cons, h1]
      have h2 := hL a List.mem_cons_self
      by_cases he : a.dom = d
      · rcases h2 with ⟨-, hc⟩ | ⟨-, x, hx, hc⟩
        · simp [he, hc]; omega
        · have := hQ x hx
          cases x <;> simp_all <;> omega
      · simp [he]
  exact key l.done hd

theorem ulongSub_mod {a b m n : Nat} (ha : a = m % ulongRange) (hb : b = n % ulongRange) (h : n ≤ m) :
    ulongSub a b = (m - n) % ulongRange := by
  subst ha hb
  unfold ulongSub ulongRange
  omega

theorem exact_of {c : Counters} {calls h d p f : Nat} (e : calls = h + d + p + f)
    (h1 : c.access = calls % ulongRange) (h2 : c.numa = d % ulongRange) (h3 : c.mpi = p % ulongRange)
    (h4 : c.file = f % ulongRange) : CountersTell c calls h d p f where
  access := h1
  numa := h2
  mpi := h3
  fileLoads := h4
  hit := by
    show ulongSub (ulongSub (ulongSub c.access c.numa) c.mpi) c.file = _
    rw [ulongSub_mod (ulongSub_mod (ulongSub_mod h1 h2 (by omega)) h3 (by omega)) h4 (by omega)]
    congr 1; omega
  nodeHit := by
    show ulongSub (ulongSub c.access c.mpi) c.file = _
    rw [ulongSub_mod (ulongSub_mod h1 h3 (by omega)) h4 (by omega)]
    congr 1; omega
  miss := by
    show (c.numa + c.mpi + c.file) % ulongRange = _
    rw [h2, h3, h4]; unfold ulongRange; omega

/-- The counters when no getter runs in the domain. -/
theorem sheet_exact {Q : Source → Prop} {dom : Nat → Nat} {ld : Nat → Nat → Source} {st : DistState β}
    {c : Nat → Counters} {l : Ledger} (hQ : ∀ x, Q x → x ≠ .here) (S : Sheet Q dom ld st.users c l)
    {d : Nat} (hq : NoneIn dom st d) :
    l.calls d = l.returned d ∧ CountersTell (c d) (l.calls d) (l.served d []) (l.served d [.domain])
      (l.served d [.process]) (l.served d [.file]) := by
  have hr : ∀ t, t ∉ (∅ : Finset Nat) → dom t = d → l.run t = none := by
    intro t _ ht
    have := S.run t
    rw [show st.users t = .idle from hq t ht] at this
    exact this
  have h0 : l.calls d = l.returned d := by simpa using S.calls d ∅ hr
  refine ⟨h0, exact_of (h0.trans (served_sum hQ S.done d)) (S.acc d) ?_ ?_ ?_⟩
  · have h := S.cnt d .domain ∅ (by simp) hr
    rw [Finset.sum_empty, Nat.add_zero] at h; exact h
  · have h := S.cnt d .process ∅ (by simp) hr
    rw [Finset.sum_empty, Nat.add_zero] at h; exact h
  · have h := S.cnt d .file ∅ (by simp) hr
    rw [Finset.sum_empty, Nat.add_zero] at h; exact h

/-- The counters while getters run. -/
theorem sheet_running {Q : Source → Prop} {dom : Nat → Nat} {ld : Nat → Nat → Source} {st : DistState β}
    {c : Nat → Counters} {l : Ledger} (S : Sheet Q dom ld st.users c l) (d : Nat) :
    ∃ T : Finset Nat, (∀ t, t ∈ T ↔ dom t = d ∧ st.pc (.user t) ≠ .idle) ∧
      l.calls d = l.returned d + T.card ∧ (c d).get .access = l.calls d % ulongRange ∧
      ∀ k, k ≠ .here → ∃ n, n ≤ (T.filter fun t => (l.run t).any (fun a => a.copies = [k])).card ∧
        (c d).get k.counter = (l.served d [k] + n) % ulongRange := by
  have hrun : ∀ t, st.pc (.user t) = .idle ↔ l.run t = none := by
    intro t
    have h := S.run t
    constructor
    · intro e; rw [show st.users t = .idle from e] at h; exact h
    · intro e
      show st.users t = .idle
      revert h; rw [e]
      cases st.users t <;> simp [RunOK]
  have hdom : ∀ t a, l.run t = some a → a.dom = dom t := by
    intro t a ha
    have h := S.run t
    rw [ha] at h
    revert h
    cases st.users t with
    | idle => intro h; cases h
    | wantCm b o => intro h; injection h with h; rw [h]
    | wantSlot b o s old => intro h; injection h with h; rw [h]
    | own b o s ph => rintro ⟨a', e, h, -⟩; injection e with e; rw [e]; exact h
    | _ => intro h; cases h
  obtain ⟨T0, hT0⟩ := S.fin
  let T := T0.filter fun t => dom t = d ∧ (l.run t).isSome
  have hT : ∀ t, t ∈ T ↔ dom t = d ∧ (l.run t).isSome := by
    intro t
    rw [Finset.mem_filter]
    refine ⟨fun h => h.2, fun h => ⟨?_, h⟩⟩
    by_contra hn
    rw [hT0 t hn] at h; cases h.2
  have hcov : ∀ t, t ∉ T → dom t = d → l.run t = none := by
    intro t ht hd
    cases hr : l.run t with
    | none => rfl
    | some a => exact absurd ((hT t).2 ⟨hd, by rw [hr]; rfl⟩) ht
  refine ⟨T, ?_, ?_, S.acc d, ?_⟩
  · intro t
    rw [hT t, ne_eq, hrun t]
    cases l.run t <;> simp
  · rw [S.calls d T hcov]
    congr 1
    rw [Finset.card_eq_sum_ones]
    refine Finset.sum_congr rfl fun t ht => ?_
    obtain ⟨h1, h2⟩ := (hT t).1 ht
    obtain ⟨a, ha⟩ := Option.isSome_iff_exists.1 h2
    rw [ha]; simp [inDom, hdom t a ha, h1]
  · intro k hk
    refine ⟨∑ t ∈ T, part (ld t) d k (st.users t) (l.run t), ?_, ?_⟩
    rotate_left
    · have := S.cnt d k T hk hcov
      cases k <;> first | exact absurd rfl hk | exact this
    · rw [Finset.card_filter]
      refine Finset.sum_le_sum fun t _ => ?_
      cases hr : l.run t with
      | none => simp [part]
      | some a =>
        by_cases hc : a.copies = [k]
        · simp [part, hc]; split <;> simp
        · simp [part, hc]

/-! ### CACHE grids -/

section
variable {P : DistParams β} {s : CntState β} {l : Ledger}

/-- **C97**: an access to a CACHE grid for which the cache of the domain has the block copies nothing;
every other access copies the block exactly once: from another domain, by MPI or from the file. -/
theorem C97_one_place (hl : Legal P) (h : CacheHistory P s l) (a : Access) (ha : a ∈ l.done) :
    (a.found = true ∧ a.copies = []) ∨
      (a.found = false ∧ (a.copies = [.domain] ∨ a.copies = [.process] ∨ a.copies = [.file])) := by
  rcases (cache_sheet hl h).1.done a ha with h | ⟨h1, x, hx, h2⟩
  · exact .inl h
  · refine .inr ⟨h1, ?_⟩
    cases x <;> simp_all

/-- **C97**: when no getter is running in a domain, all calls there have returned and its counters say
exactly how many accesses there were and how many were served by the domain itself, by another
domain, by MPI and by the file. (Counters are `unsigned long`: modulo 2^64.) -/
theorem C97_counters (hl : Legal P) (h : CacheHistory P s l) (d : Nat) (hq : NoneIn P.dom s.st d) :
    l.calls d = l.returned d ∧ CountersTell (s.c d) (l.calls d) (l.served d []) (l.served d [.domain])
      (l.served d [.process]) (l.served d [.file]) :=
  sheet_exact (fun _ h => h) (cache_sheet hl h).1 hq

/-- **C97**: at any time, with `T` the threads inside of a getter in the domain, the counter of accesses
is the number of calls, those that have returned and those of `T`; and the counter of a place is the
number of the accesses that have returned and were served by it, and of some of those running
accesses that copy or have copied from it. -/
theorem C97_counters_running (hl : Legal P) (h : CacheHistory P s l) (d : Nat) :
    ∃ T : Finset Nat, (∀ t, t ∈ T ↔ P.dom t = d ∧ s.st.pc (.user t) ≠ .idle) ∧
      l.calls d = l.returned d + T.card ∧ (s.c d).get .access = l.calls d % ulongRange ∧
      ∀ k, k ≠ .here → ∃ n, n ≤ (T.filter fun t => (l.run t).any (fun a => a.copies = [k])).card ∧
        (s.c d).get k.counter = (l.served d [k] + n) % ulongRange :=
  sheet_running (cache_sheet hl h).1 d

/-- **C97**: the record exists for every execution: each reachable state of the caches is the end of a
history. -/
theorem C97_histories {st : DistState β} (h : DistReach P st) : ∃ c l, CacheHistory P ⟨st, c⟩ l := by
  induction h with
  | init h => obtain ⟨c, hc, rfl⟩ := h; exact ⟨_, _, .opened c hc⟩
  | @step st st' _ hs ih =>
    obtain ⟨c, l, hh⟩ := ih
    cases hs with
    | user t hs => exact ⟨_, _, .user (s' := ⟨st', bump c (P.dom t) (pcCounts (fun _ => .file)
        (st.pc (.user t)) (st'.pc (.user t)))⟩) t hh ⟨hs, rfl⟩⟩
    | comm r hs => exact ⟨c, l, .comm r hh hs⟩

/-- One element of a schedule, with counters and record. -/
def cntStep (P : DistParams β) (x : CntState β × Ledger) : DistCmd → Option (CntState β × Ledger)
  | .call t b off => ((DistCmd.call t b off).exec P x.1.st).map (go t)
  | .user t rnd => ((DistCmd.user t rnd).exec P x.1.st).map (go t)
  | cmd => (cmd.exec P x.1.st).map fun st' => (⟨st', x.1.c⟩, x.2)
where
  /-- A step of thread `t`. -/
  go (t : Nat) (st' : DistState β) : CntState β × Ledger :=
    (⟨st', bump x.1.c (P.dom t) (pcCounts (fun _ => .file) (x.1.st.pc (.user t)) (st'.pc (.user t)))⟩,
      x.2.move (P.dom t) t (fun _ => .file)
        (fun b => decide (some b ∈ (x.1.st.cl (P.dom t)).indexToBlock))
        (x.1.st.pc (.user t)) (st'.pc (.user t)))

/-- A schedule from opening. -/
def cntRun (P : DistParams β) (cmds : List DistCmd) : Option (CntState β × Ledger) :=
  (CacheList.init P.size P.handDiff).bind fun c =>
    cmds.foldlM (cntStep P) (⟨DistState.start P c, fun _ => {}⟩, .empty)

theorem cntStep_sound (hin : ∀ b k, P.inside b k) {x x' : CntState β × Ledger} {cmd : DistCmd}
    (h : cntStep P x cmd = some x') (hh : CacheHistory P x.1 x.2) : CacheHistory P x'.1 x'.2 := by
  cases cmd with
  | call t b off =>
    simp only [cntStep, Option.map_eq_some_iff] at h
    obtain ⟨st', h1, rfl⟩ := h
    simp only [DistCmd.exec] at h1
    split at h1
    · next hp =>
      split_ifs at h1 with h2
      injection h1 with h1
      exact .user t hh ⟨by subst h1; exact .call _ _ b off hp ⟨h2, hin _ _⟩, rfl⟩
    · cases h1
  | user t rnd =>
    simp only [cntStep, Option.map_eq_some_iff] at h
    obtain ⟨st', h1, rfl⟩ := h
    exact .user t hh ⟨execUser_sound h1, rfl⟩
  | deliver r src =>
    simp only [cntStep, Option.map_eq_some_iff] at h
    obtain ⟨st', h1, rfl⟩ := h
    simp only [DistCmd.exec] at h1
    split at h1
    · next b op rest hp hn => cases h1; exact .comm r hh (.deliver _ _ src b op rest hp hn)
    · cases h1
  | accept r t =>
    simp only [cntStep, Option.map_eq_some_iff] at h
    obtain ⟨st', h1, rfl⟩ := h
    simp only [DistCmd.exec] at h1
    split at h1
    · next b off s r' hp hu hb =>
      split_ifs at h1 with h2
      subst h2; cases h1; exact .comm r' hh (.accept _ _ t b off s hp hu hb)
    · cases h1
  | comm r =>
    simp only [cntStep, Option.map_eq_some_iff] at h
    obtain ⟨st', h1, rfl⟩ := h
    exact .comm r hh (execComm_sound h1)

theorem cntRun_sound (hin : ∀ b k, P.inside b k) {x : CntState β × Ledger} {cmds : List DistCmd}
    (h : cntRun P cmds = some x) : CacheHistory P x.1 x.2 := by
  simp only [cntRun, Option.bind_eq_some_iff] at h
  obtain ⟨c, hc, h⟩ := h
  have key : ∀ (cmds : List DistCmd) (y : CntState β × Ledger), CacheHistory P y.1 y.2 →
      cmds.foldlM (cntStep P) y = some x → CacheHistory P x.1 x.2 := by
    intro cmds
    induction cmds with
    | nil => intro y hy h; cases h; exact hy
    | cons cmd cmds ih =>
      intro y hy h
      simp only [List.foldlM_cons, Option.bind_eq_bind, Option.bind_eq_some_iff] at h
      obtain ⟨y1, h1, h2⟩ := h
      exact ih y1 (cntStep_sound hin h1 hy) h2
  exact key cmds _ (.opened c hc) h

/-- MPI windows and NUMA: thread 0 has loaded block 5 from the file and reads it again; thread 1
(another domain) has copied it from the first domain, thread 2 (another process) by MPI; thread 5
(domain 1) is loading block 7. -/
example : ∃ (s : CntState Nat) (l : Ledger), CacheHistory (exShared .window true false) s l ∧
    NoneIn (exShared .window true false).dom s.st 0 ∧
    ⟨0, 5, false, [.file]⟩ ∈ l.done ∧ ⟨0, 5, true, []⟩ ∈ l.done ∧ ⟨1, 5, false, [.domain]⟩ ∈ l.done ∧
    ⟨2, 5, false, [.process]⟩ ∈ l.done ∧ l.run 5 = some ⟨1, 7, false, [.file]⟩ ∧
    CountersTell (s.c 0) 2 1 0 0 1 ∧ (s.c 1).get .numa = 1 ∧ (s.c 1).get .file = 1 ∧
    (s.c 2).get .mpi = 1 := by
  have hc : (cntRun (exShared .window true false) ([.call 0 5 0] ++ steps 0 15 ++ [.call 1 5 1] ++
      steps 1 12 ++ [.call 2 5 1] ++ steps 2 15 ++ [.call 0 5 1] ++ steps 0 4 ++ [.call 5 7 0] ++
      steps 5 10)).any (fun x =>
        decide (x.2.done = [⟨0, 5, false, [.file]⟩, ⟨1, 5, false, [.domain]⟩, ⟨2, 5, false, [.process]⟩,
          ⟨0, 5, true, []⟩] ∧ x.2.run 5 = some ⟨1, 7, false, [.file]⟩ ∧
          x.2.calls 0 = 2 ∧ x.1.c 0 = ⟨2, 0, 0, 1⟩ ∧ x.1.c 1 = ⟨2, 1, 0, 1⟩ ∧ x.1.c 2 = ⟨1, 0, 1, 0⟩)) = true := by
    decide +kernel
  revert hc
  generalize hx : cntRun _ _ = x
  cases x with
  | none => intro h; cases h
  | some x =>
    intro hv
    obtain ⟨h1, h2, h3, h4, h5, h6⟩ := of_decide_eq_true hv
    have hh := cntRun_sound (fun _ _ => trivial) hx
    obtain ⟨T, t1, t2, -⟩ := C97_counters_running (exShared_legal _ _ _) hh 0
    have hr : x.2.returned 0 = 2 := by rw [Ledger.returned, h1]; decide
    have hT : T = ∅ := Finset.card_eq_zero.1 (by omega)
    have hn : NoneIn (exShared .window true false).dom x.1.st 0 := by
      intro t ht
      by_contra hne
      have := (t1 t).2 ⟨ht, hne⟩
      rw [hT] at this; cases this
    have hs := (C97_counters (exShared_legal _ _ _) hh 0 hn).2
    refine ⟨x.1, x.2, hh, hn, ?_, ?_, ?_, ?_, h2, ?_, ?_, ?_, ?_⟩
    · rw [h1]; decide
    · rw [h1]; decide
    · rw [h1]; decide
    · rw [h1]; decide
    · rw [h3] at hs
      simp only [Ledger.served, h1] at hs
      exact hs
    · rw [h5]; rfl
    · rw [h5]; rfl
    · rw [h6]; rfl

end

/-! ### Distributed FULL grids -/

section
variable {c : LevelCfg α} {F : FullCfg α} {s0 : FullDist α} {s : CntState α} {l : Ledger}

/-- **C97**: an access to a distributed FULL grid copies nothing if the memory or the cache of the domain
has the block, and else copies it exactly once: from another domain or by MPI. -/
theorem C97_full_one_place (ho : FullOpened c F s0) (h : FullHistory c F s0.data s l) (a : Access)
    (ha : a ∈ l.done) :
    (a.found = true ∧ a.copies = []) ∨
      (a.found = false ∧ (a.copies = [.domain] ∨ a.copies = [.process])) := by
  rcases (full_sheet ho.size ho.hand h).1.done a ha with h | ⟨h1, x, hx, h2⟩
  · exact .inl h
  · refine .inr ⟨h1, ?_⟩
    rcases hx with rfl | rfl
    · exact .inl h2
    · exact .inr h2

theorem C97_full_counters (ho : FullOpened c F s0) (h : FullHistory c F s0.data s l) (d : Nat)
    (hq : NoneIn F.dom s.st d) :
    l.calls d = l.returned d ∧ CountersTell (s.c d) (l.calls d) (l.served d []) (l.served d [.domain])
      (l.served d [.process]) 0 := by
  have hs := full_sheet ho.size ho.hand h
  have := sheet_exact (fun x hx => by rcases hx with rfl | rfl <;> simp) hs.1 hq
  have hf : l.served d [.file] = 0 := by
    unfold Ledger.served
    rw [List.countP_eq_zero]
    intro a ha
    rcases C97_full_one_place ho h a ha with ⟨-, e⟩ | ⟨-, e | e⟩ <;> simp [e]
  rwa [hf] at this

theorem C97_full_counters_running (ho : FullOpened c F s0) (h : FullHistory c F s0.data s l) (d : Nat) :
    ∃ T : Finset Nat, (∀ t, t ∈ T ↔ F.dom t = d ∧ s.st.pc (.user t) ≠ .idle) ∧
      l.calls d = l.returned d + T.card ∧ (s.c d).get .access = l.calls d % ulongRange ∧
      ∀ k, k ≠ .here → ∃ n, n ≤ (T.filter fun t => (l.run t).any (fun a => a.copies = [k])).card ∧
        (s.c d).get k.counter = (l.served d [k] + n) % ulongRange :=
  sheet_running (full_sheet ho.size ho.hand h).1 d

theorem C97_full_histories {data : Nat → Mem α} {st : DistState α} (h : FullReach c F data st) :
    ∃ cs l, FullHistory c F data ⟨st, cs⟩ l := by
  induction h with
  | init h => obtain ⟨cl, hc, rfl⟩ := h; exact ⟨_, _, .opened cl hc⟩
  | @step st st' _ hs ih =>
    obtain ⟨cs, l, hh⟩ := ih
    obtain ⟨t, ht⟩ := fullStep_ne hs
    exact ⟨_, _, .user (s' := ⟨st', bump cs (F.dom t) (pcCounts (fullCounter c F t)
      (st.pc (.user t)) (st'.pc (.user t)))⟩) t hh ⟨hs, ht, rfl⟩⟩

/-- `n` steps of thread `t` after a call, with counters and record. -/
def fullCntExec (c : LevelCfg α) (F : FullCfg α) (data : Nat → Mem α) (t : Nat) :
    Nat → CntState α × Ledger → Option (CntState α × Ledger)
  | 0, x => some x
  | n + 1, x => (fullExec1 c F data x.1.st t).bind fun st' => fullCntExec c F data t n (fullGo c F t x st')
where
  /-- A step of thread `t`. -/
  fullGo (c : LevelCfg α) (F : FullCfg α) (t : Nat) (x : CntState α × Ledger) (st' : DistState α) :
      CntState α × Ledger :=
    (⟨st', bump x.1.c (F.dom t) (pcCounts (fullCounter c F t) (x.1.st.pc (.user t)) (st'.pc (.user t)))⟩,
      x.2.move (F.dom t) t (fullPlace c F t)
        (fun b => decide (some b ∈ (x.1.st.cl (F.dom t)).indexToBlock))
        (x.1.st.pc (.user t)) (st'.pc (.user t)))

theorem fullExec1_ne {data : Nat → Mem α} {t : Nat} {st st' : DistState α}
    (h : fullExec1 c F data st t = some st') : st'.pc (.user t) ≠ st.pc (.user t) := by
  unfold fullExec1 at h
  split at h
  · next b off s k hp =>
    split at h
    · simp only [Option.bind_eq_some_iff] at h
      obtain ⟨src, h1, v, h2, h3⟩ := h
      injection h3 with h3; subst h3
      simp [DistState.goto, hp]
    · exact userStep_ne (execUser_sound h)
  · cases h
  · exact userStep_ne (execUser_sound h)

theorem fullCntExec_sound {data : Nat → Mem α} {t n : Nat} {x x' : CntState α × Ledger}
    (h : fullCntExec c F data t n x = some x') (hh : FullHistory c F data x.1 x.2) :
    FullHistory c F data x'.1 x'.2 := by
  induction n generalizing x with
  | zero => cases h; exact hh
  | succ n ih =>
    simp only [fullCntExec, Option.bind_eq_some_iff] at h
    obtain ⟨st', h1, h2⟩ := h
    refine ih h2 ?_
    have hs := fullExec1_sound h1
    exact .user t hh ⟨hs, fullExec1_ne h1, rfl⟩

/-- A call by thread `t` with `n` steps of it. -/
def fullCntCall (c : LevelCfg α) (F : FullCfg α) (data : Nat → Mem α) (t : Nat) (pos : List Dbl) (n : Nat)
    (x : CntState α × Ledger) : Option (CntState α × Ledger) :=
  (fullCall c F x.1.st t pos).bind fun st' => fullCntExec c F data t n (fullCntExec.fullGo c F t x st')

theorem fullCntCall_sound {data : Nat → Mem α} {t n : Nat} {pos : List Dbl} {x x' : CntState α × Ledger}
    (h : fullCntCall c F data t pos n x = some x') (hh : FullHistory c F data x.1 x.2) :
    FullHistory c F data x'.1 x'.2 := by
  simp only [fullCntCall, Option.bind_eq_some_iff] at h
  obtain ⟨st', h1, h2⟩ := h
  refine fullCntExec_sound h2 ?_
  have hc := fullCall_sound h1
  refine .user t hh ⟨.call t pos hc, ?_, rfl⟩
  obtain ⟨idx, -, -, h3, rfl⟩ := hc
  simp [h3, fullCntExec.fullGo]

/-- Two processes with two domains: thread 2 (process 1) has copied block 2 by MPI, thread 3 (the
other domain) from the cache of the first domain, thread 0 (process 0) from the memory of the domain that
owns it, and thread 1 (this domain) has read it from its own memory. -/
theorem exFullCount : ∃ s0 : FullDist (List Nat), FullOpened exLevel exFullCfg s0 ∧
    ∃ (s : CntState (List Nat)) (l : Ledger), FullHistory exLevel exFullCfg s0.data s l ∧
    ⟨2, 2, false, [.process]⟩ ∈ l.done ∧ ⟨3, 2, false, [.domain]⟩ ∈ l.done ∧
    ⟨0, 2, false, [.domain]⟩ ∈ l.done ∧ ⟨1, 2, true, []⟩ ∈ l.done ∧
    s.c 0 = ⟨1, 1, 0, 0⟩ ∧ s.c 1 = ⟨1, 0, 0, 0⟩ ∧ s.c 2 = ⟨1, 0, 1, 0⟩ ∧ s.c 3 = ⟨1, 1, 0, 0⟩ ∧
    l.calls 0 = 1 ∧ l.returned 0 = 1 := by
  have hsome : ((fullDistOpen exLevel exFullCfg.ds 2 1 [] (fun _ => List.replicate 12 [])).bind fun s0 =>
      (CacheList.init 2 1).bind fun cl =>
      (fullCntCall exLevel exFullCfg s0.data 2 [.fin 4, .fin 7.5] 19
        (⟨DistState.start (exLevel.fullShared exFullCfg) cl, fun _ => {}⟩, .empty)).bind fun x1 =>
      (fullCntCall exLevel exFullCfg s0.data 3 [.fin 4, .fin 7.5] 15 x1).bind fun x2 =>
      (fullCntCall exLevel exFullCfg s0.data 0 [.fin 4, .fin 7.5] 16 x2).bind fun x3 =>
      some (s0, cl, x1, x2, x3)).any (fun x => match x.2.2.2.2.1.st.pc (.user 1) with
        | .idle => decide (x.2.2.2.2.2.done =
            [⟨2, 2, false, [.process]⟩, ⟨3, 2, false, [.domain]⟩, ⟨0, 2, false, [.domain]⟩] ∧
            x.2.2.2.2.1.c 0 = ⟨1, 1, 0, 0⟩ ∧ x.2.2.2.2.1.c 1 = {} ∧ x.2.2.2.2.1.c 2 = ⟨1, 0, 1, 0⟩ ∧
            x.2.2.2.2.1.c 3 = ⟨1, 1, 0, 0⟩ ∧ x.2.2.2.2.2.calls 0 = 1)
        | _ => false) = true := by decide +kernel
  revert hsome
  generalize hx : Option.bind _ _ = x
  cases x with
  | none => intro h; cases h
  | some x =>
    intro hv
    simp only [Option.bind_eq_some_iff] at hx
    obtain ⟨s0, h0, cl, hl, x1, h1, x2, h2, x3, h3, hx⟩ := hx
    injection hx with hx; subst hx
    have hh := fullCntCall_sound h3 (fullCntCall_sound h2 (fullCntCall_sound h1 (.opened cl hl)))
    simp only [Option.any_some] at hv
    split at hv
    · next hi =>
      obtain ⟨g1, g2, g3, g4, g5, g6⟩ := of_decide_eq_true hv
      refine ⟨s0, ?_, _, _, .own 1 2 hh ⟨hi, ⟨by decide +kernel, by decide +kernel⟩, rfl⟩, ?_, ?_, ?_, ?_, ?_, ?_, ?_, ?_,
        ?_, ?_⟩
      · refine ⟨by decide, by decide, by decide, by decide, fun t => ?_, .inl rfl,
          ⟨fun _ => List.replicate 12 [], fun r _ => ?_, h0⟩⟩
        · show t % 4 < 2 * 2
          omega
        · rw [List.length_replicate]; decide
      · simp [g1]
      · simp [g1]
      · simp [g1]
      · simp [g1, exFullCfg]
      · exact (upd_ne (k := 1) _ ((x3.1.c 1).inc .access) (by decide)).trans g2
      · show upd x3.1.c 1 ((x3.1.c 1).inc .access) 1 = _
        rw [upd_self, g3]; rfl
      · exact (upd_ne (k := 1) _ ((x3.1.c 1).inc .access) (by decide)).trans g4
      · exact (upd_ne (k := 1) _ ((x3.1.c 1).inc .access) (by decide)).trans g5
      · exact (upd_ne (k := 1) _ (x3.2.calls 1 + 1) (by decide)).trans g6
      · simp only [Ledger.returned, g1]; decide
    · cases hv

end

end Asagi.Props
