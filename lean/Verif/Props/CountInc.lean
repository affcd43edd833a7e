import Verif.Proofs.CountInc
import Verif.Props.CacheCount
/-
**C97**, with the increments of the counters as reads and writes: if the library is built with THREADSAFE_COUNTER, the
counters are those of `Verif.Props.CacheCount`, for all interleavings of the increments with each other and with the
accesses. Without the option, an access can be lost.
-/
namespace Asagi.Props
open Asagi Asagi.Spec
variable {β α : Type} {P : DistParams β} {s : AddState β} {l : Ledger} {k : Bool}

theorem owes_iff (s : AddState β) (t : Nat) (ty : CounterType) : Owes s t ty ↔ (s.add t).ty = some ty := by
  unfold Owes
  cases s.add t <;> simp [AddPc.ty]

open Classical in
theorem owed_owes (s : AddState β) (dom : Nat → Nat) (T : Finset Nat) (d : Nat) (ty : CounterType) :
    owed dom s.add T d ty = (T.filter fun t => dom t = d ∧ Owes s t ty).card := by
  unfold owed
  congr 1
  refine Finset.filter_congr fun t _ => ?_
  rw [owes_iff]

theorem counters_same {dom : Nat → Nat} {c' : Nat → Counters} {T : Finset Nat} (hI : AddInv dom s c' T) {d : Nat}
    (hq : ∀ t, dom t = d → s.add t = .out) : c' d = s.c d := by
  refine native_ext fun ty hty => ?_
  have h0 : owed dom s.add T d ty = 0 := by
    unfold owed
    rw [Finset.card_eq_zero, Finset.filter_eq_empty_iff]
    rintro t ht ⟨h1, -⟩
    exact (hI.mem t).1 ht (hq t h1)
  rw [hI.sum d ty hty, h0, Nat.add_zero, Nat.mod_eq_of_lt (hI.range d ty hty)]

open Classical in
/-- **C97**: with THREADSAFE_COUNTER, increments have the effect of single actions: to each execution with reads and
writes belongs one of the same accesses in which each increment is one action, and the counters of the latter are those of
the former and the increments that threads still have to write. -/
theorem C97_increments (hl : Legal P) (h : AddHistory P true s l) : ∃ (c' : Nat → Counters) (T : Finset Nat),
    CacheHistory P ⟨s.st, c'⟩ l ∧ (∀ t, t ∈ T ↔ s.add t ≠ .out) ∧
    ∀ d ty, ty = .access ∨ ty = .numa ∨ ty = .mpi ∨ ty = .file →
      (c' d).get ty = ((s.c d).get ty + (T.filter fun t => P.dom t = d ∧ Owes s t ty).card) % ulongRange := by
  obtain ⟨c', T, hh, hI, -⟩ := add_history hl h
  refine ⟨c', T, hh, hI.mem, fun d ty hty => ?_⟩
  have hs := hI.sum d ty hty
  rw [owed_owes] at hs
  rcases hty with rfl | rfl | rfl | rfl <;> exact hs

/-- **C97**: with THREADSAFE_COUNTER, when no getter is running in a domain, its counters say exactly how many accesses
there were and which place has served them, however the reads and writes of the counters were interleaved. -/
theorem C97_counters_locked (hl : Legal P) (h : AddHistory P true s l) (d : Nat) (hq : NoneIn P.dom s.st d) :
    l.calls d = l.returned d ∧ CountersTell (s.c d) (l.calls d) (l.served d []) (l.served d [.domain])
      (l.served d [.process]) (l.served d [.file]) := by
  obtain ⟨c', T, hh, hI, hb⟩ := add_history hl h
  have e : c' d = s.c d := counters_same hI fun t ht => by
    by_contra hne
    exact hb t hne (hq t ht)
  have := C97_counters hl hh d hq
  rw [show (CntState.mk s.st c').c d = s.c d from e] at this
  exact this

/-- **C97**: with THREADSAFE_COUNTER, no two threads read and write the same counter at the same time. -/
theorem C97_increment_alone (hl : Legal P) (h : AddHistory P true s l) {t u : Nat} {ty : CounterType}
    (ht : s.add t = .locked ty ∨ ∃ v, s.add t = .got ty v) (hu : s.add u = .locked ty ∨ ∃ v, s.add u = .got ty v)
    (hd : P.dom t = P.dom u) : t = u := by
  obtain ⟨c', T, -, hI, -⟩ := add_history hl h
  have h1 := hI.hold t ty ht
  rw [hd, hI.hold u ty hu] at h1
  exact (Option.some.inj h1).symm

/-- **C97**: with THREADSAFE_COUNTER, increments do not block each other: as long as a thread is in an increment, it or the
thread of its domain that it waits for can go on. -/
theorem C97_increment_progress (h : AddHistory P true s l) {t : Nat} (ht : s.add t ≠ .out) :
    ∃ u s', P.dom u = P.dom t ∧ s.add u ≠ .out ∧ IncStep P.dom true s s' ∧ s'.add u ≠ s.add u :=
  (add_held h).go ht

/-- **C97**: an increment ends after at most three steps: each step leaves one step less for one thread and the same for all
others. -/
theorem C97_increment_ends {dom : Nat → Nat} {s' : AddState β} (hs : IncStep dom k s s') :
    (∀ t, (s.add t).left ≤ 3 ∧ ((s.add t).left = 0 ↔ s.add t = .out)) ∧
    ∃ t, (s'.add t).left + 1 = (s.add t).left ∧ ∀ u, u ≠ t → s'.add u = s.add u :=
  ⟨fun t => by cases s.add t <;> simp [AddPc.left], inc_left hs⟩

/-- If each domain has one thread only, the mutexes are not needed: a step of an increment without them is one with them. -/
theorem inc_single {dom : Nat → Nat} {s s' : AddState β} {m : Nat → CounterType → Option Nat}
    (hH : Held dom { s with mutex := m }) (hd : ∀ t u, dom t = dom u → t = u) (hs : IncStep dom false s s') :
    ∃ m', IncStep dom true { s with mutex := m } { s' with mutex := m' } := by
  cases hs with
  | lock t ty h1 h2 => cases h2
  | noLock t ty h1 _ =>
    refine ⟨_, .lock { s with mutex := m } t ty h1 rfl ?_⟩
    show m (dom t) ty = none
    cases hm : m (dom t) ty with
    | none => rfl
    | some u =>
      obtain ⟨e, h⟩ := hH _ _ _ hm
      obtain rfl := hd _ _ e
      change s.add u = _ ∨ ∃ v, s.add u = _ at h
      rw [h1] at h
      simp at h
  | read t ty h1 => exact ⟨_, .read { s with mutex := m } t ty h1⟩
  | write t ty v h1 => exact ⟨_, .write { s with mutex := m } t ty v h1⟩

theorem add_single (hd : ∀ t u, P.dom t = P.dom u → t = u) (h : AddHistory P false s l) :
    ∃ m, AddHistory P true { s with mutex := m } l := by
  induction h with
  | opened c hc => exact ⟨_, .opened c hc⟩
  | @user s s' l t _ hs ih =>
    obtain ⟨m, hm⟩ := ih
    exact ⟨m, .user (s := { s with mutex := m }) (s' := { s' with mutex := m }) t hm ⟨hs.1, hs.2.1, hs.2.2.1, hs.2.2.2.1, rfl⟩⟩
  | inc _ hs ih =>
    obtain ⟨m, hm⟩ := ih
    obtain ⟨m', h'⟩ := inc_single (add_held hm) hd hs
    exact ⟨m', .inc hm h'⟩
  | comm r _ hs ih =>
    obtain ⟨m, hm⟩ := ih
    exact ⟨m, .comm r hm hs⟩

/-- **C97**: without THREADSAFE_COUNTER, the counters are exact if each domain has one thread only. -/
theorem C97_counters_single (hl : Legal P) (hd : ∀ t u, P.dom t = P.dom u → t = u) (h : AddHistory P false s l) (d : Nat)
    (hq : NoneIn P.dom s.st d) :
    l.calls d = l.returned d ∧ CountersTell (s.c d) (l.calls d) (l.served d []) (l.served d [.domain])
      (l.served d [.process]) (l.served d [.file]) := by
  obtain ⟨m, hm⟩ := add_single hd h
  exact C97_counters_locked hl hm d hq

theorem put_inc (c : Counters) (ty : CounterType) : c.put ((c.native ty + 1) % ulongRange) ty = c.inc ty := by
  cases ty <;> rfl

/-- A complete increment. `H`: the executions that can be continued with the steps of increments. -/
theorem inc_whole {dom : Nat → Nat} {H : AddState β → Prop}
    (hH : ∀ s s', H s → IncStep dom k s s' → H s') {st : DistState β} {c : Nat → Counters} {t : Nat}
    {ev : Option CounterType} (h1 : H ⟨st, c, fun _ _ => none, upd (fun _ => .out) t (.enter ev)⟩) :
    H ⟨st, bump c (dom t) ev, fun _ _ => none, fun _ => .out⟩ := by
  cases ev with
  | none =>
    have e : upd (fun _ : Nat => AddPc.out) t (.enter none) = fun _ => .out := by
      funext u; rw [upd_apply]; split <;> rfl
    rw [e] at h1
    exact h1
  | some ty =>
    have ru : ∀ p : AddPc, upd (fun _ : Nat => AddPc.out) t p t = p := fun p => upd_self _ _ _
    have e1 : ∀ p : AddPc, upd (upd (fun _ : Nat => AddPc.out) t p) t .out = fun _ => .out := by
      intro p; funext u; rw [upd_apply]; split
      · rfl
      · next hu => rw [upd_ne _ _ hu]
    have e2 : ∀ p q : AddPc, upd (upd (fun _ : Nat => AddPc.out) t p) t q = upd (fun _ => .out) t q := by
      intro p q; funext u; by_cases hu : u = t
      · subst hu; rw [upd_self, upd_self]
      · rw [upd_ne _ _ hu, upd_ne _ _ hu, upd_ne _ _ hu]
    have fin : ∀ m : Nat → CounterType → Option Nat,
        (if k then upd m (dom t) (upd (m (dom t)) ty none) else m) = (fun _ _ => none) →
        H ⟨st, c, m, upd (fun _ => .out) t (.locked ty)⟩ →
        H ⟨st, upd c (dom t) ((c (dom t)).inc ty), fun _ _ => none, fun _ => .out⟩ := by
      intro m hm h2
      have h3 := hH _ _ h2 (.read _ t ty (ru _))
      simp only [e2] at h3
      have h4 := hH _ _ h3 (.write _ t ty _ (ru _))
      simp only [e1, put_inc, hm] at h4
      exact h4
    cases k with
    | true =>
      have h2 := hH _ _ h1 (.lock _ t ty (ru _) rfl rfl)
      simp only [e2] at h2
      refine fin _ ?_ h2
      rw [if_pos rfl]
      funext d ty'
      rw [upd_apply]
      split
      · rw [upd_apply]; split
        · rfl
        · next hn => rw [upd_self, upd_ne _ _ hn]
      · next hn => rw [upd_ne _ _ hn]
    | false =>
      have h2 := hH _ _ h1 (.noLock _ t ty (ru _) rfl)
      simp only [e2] at h2
      exact fin _ (by simp) h2

/-- A step with the complete increment. -/
theorem add_whole {st st' : DistState β} {c : Nat → Counters} {t : Nat}
    (h : AddHistory P k ⟨st, c, fun _ _ => none, fun _ => .out⟩ l) (hs : UserStep P t st st') :
    AddHistory P k ⟨st', bump c (P.dom t) (pcCounts (fun _ => .file) (st.pc (.user t)) (st'.pc (.user t))),
        fun _ _ => none, fun _ => .out⟩
      (l.move (P.dom t) t (fun _ => .file) (fun b => decide (some b ∈ (st.cl (P.dom t)).indexToBlock))
        (st.pc (.user t)) (st'.pc (.user t))) :=
  inc_whole (H := fun s => AddHistory P k s _) (fun _ _ h hs => .inc h hs)
    (AddHistory.user (s' := ⟨st', c, fun _ _ => none, upd (fun _ => .out) t
      (.enter (pcCounts (fun _ => .file) (st.pc (.user t)) (st'.pc (.user t))))⟩) t h ⟨rfl, hs, rfl, rfl, rfl⟩)

/-- **C97**: conversely, each execution with increments as single actions is one with reads and writes, with the same
counters. -/
theorem C97_increments_histories {x : CntState β} (h : CacheHistory P x l) :
    AddHistory P k ⟨x.st, x.c, fun _ _ => none, fun _ => .out⟩ l := by
  induction h with
  | opened c hc => exact .opened c hc
  | @user x x' l t _ hs ih =>
    obtain ⟨h1, h2⟩ := hs
    rw [h2]
    exact add_whole ih h1
  | comm r _ hs ih => exact .comm r ih hs

/-- The record does not depend on the counters. -/
theorem add_record (h : AddHistory P k s l) : ∃ c', CacheHistory P ⟨s.st, c'⟩ l := by
  induction h with
  | opened c hc => exact ⟨_, .opened c hc⟩
  | @user s s' l t _ hs ih =>
    obtain ⟨c', hh⟩ := ih
    exact ⟨_, .user (s' := ⟨s'.st, bump c' (P.dom t) (pcCounts (fun _ => .file) (s.st.pc (.user t))
      (s'.st.pc (.user t)))⟩) t hh ⟨hs.2.1, rfl⟩⟩
  | @inc s s' l _ hs ih =>
    have : s'.st = s.st := by cases hs <;> rfl
    rw [this]; exact ih
  | comm r _ hs ih =>
    obtain ⟨c', hh⟩ := ih
    exact ⟨c', .comm r hh hs⟩

theorem none_of_record (hl : Legal P) (h : AddHistory P k s l) (d : Nat) (he : l.calls d = l.returned d) :
    NoneIn P.dom s.st d := by
  obtain ⟨c', hh⟩ := add_record h
  obtain ⟨T, t1, t2, -⟩ := C97_counters_running hl hh d
  have hT : T = ∅ := Finset.card_eq_zero.1 (by omega)
  intro t ht
  by_contra hne
  have := (t1 t).2 ⟨ht, hne⟩
  rw [hT] at this; cases this

theorem addStep_sound (hin : ∀ b i, P.inside b i) {x x' : CntState β × Ledger} {cmd : DistCmd}
    (h : cntStep P x cmd = some x') (hh : AddHistory P k ⟨x.1.st, x.1.c, fun _ _ => none, fun _ => .out⟩ x.2) :
    AddHistory P k ⟨x'.1.st, x'.1.c, fun _ _ => none, fun _ => .out⟩ x'.2 := by
  cases cmd with
  | call t b off =>
    simp only [cntStep, Option.map_eq_some_iff] at h
    obtain ⟨st', h1, rfl⟩ := h
    simp only [DistCmd.exec] at h1
    split at h1
    · next hp =>
      split_ifs at h1 with h2
      injection h1 with h1
      exact add_whole hh (by subst h1; exact .call _ _ b off hp ⟨h2, hin _ _⟩)
    · cases h1
  | user t rnd =>
    simp only [cntStep, Option.map_eq_some_iff] at h
    obtain ⟨st', h1, rfl⟩ := h
    exact add_whole hh (execUser_sound h1)
  | deliver r src =>
    simp only [cntStep, Option.map_eq_some_iff] at h
    obtain ⟨st', h1, rfl⟩ := h
    simp only [DistCmd.exec] at h1
    split at h1
    · next b op rest hp hn => cases h1; exact .comm r hh (.deliver _ _ src b op rest hp hn)
    · cases h1
  | accept r t =>
    simp only [cntStep, Option.map_eq_some_iff] at h
    obtain ⟨st', h1, rfl⟩ := h
    simp only [DistCmd.exec] at h1
    split at h1
    · next b off s r' hp hu hb =>
      split_ifs at h1 with h2
      subst h2; cases h1; exact .comm r' hh (.accept _ _ t b off s hp hu hb)
    · cases h1
  | comm r =>
    simp only [cntStep, Option.map_eq_some_iff] at h
    obtain ⟨st', h1, rfl⟩ := h
    exact .comm r hh (execComm_sound h1)

theorem addRun_sound (hin : ∀ b i, P.inside b i) {x : CntState β × Ledger} (cmds : List DistCmd)
    (y : CntState β × Ledger) (hy : AddHistory P k ⟨y.1.st, y.1.c, fun _ _ => none, fun _ => .out⟩ y.2)
    (h : cmds.foldlM (cntStep P) y = some x) :
    AddHistory P k ⟨x.1.st, x.1.c, fun _ _ => none, fun _ => .out⟩ x.2 := by
  induction cmds generalizing y with
  | nil => cases h; exact hy
  | cons cmd cmds ih =>
    simp only [List.foldlM_cons, Option.bind_eq_bind, Option.bind_eq_some_iff] at h
    obtain ⟨y1, h1, h2⟩ := h
    exact ih y1 (addStep_sound hin h1 hy) h2

/-- Threads 0 and 4 of domain 0 have called a getter for block 5; `n` increments were written. -/
def exBoth (c : CacheList) (n : Nat) : CntState Nat × Ledger :=
  let P := exShared .window true false
  (⟨{ DistState.start P c with
      pc := upd (upd (DistState.start P c).pc (.user 0) (.wantCm 5 0)) (.user 4) (.wantCm 5 1) },
    upd (fun _ => {}) 0 ⟨n, 0, 0, 0⟩⟩,
   ⟨upd (upd (fun _ => 0) 0 1) 0 2, upd (upd (fun _ => none) 0 (some ⟨0, 5, false, []⟩)) 4 (some ⟨0, 5, false, []⟩), []⟩)

/-- Both threads read the counter before one of them writes it. -/
theorem exBoth_lost {c : CacheList} (hc : CacheList.init 2 (-1) = some c) :
    AddHistory (exShared .window true false) false
      ⟨(exBoth c 1).1.st, (exBoth c 1).1.c, fun _ _ => none, fun _ => .out⟩ (exBoth c 1).2 := by
  have h0 := AddHistory.opened (P := exShared .window true false) (locked := false) c hc
  have h1 := AddHistory.user (s' := ⟨{ DistState.start (exShared .window true false) c with
      pc := upd (DistState.start (exShared .window true false) c).pc (.user 0) (.wantCm 5 0) },
      fun _ => {}, fun _ _ => none, upd (fun _ => .out) 0 (.want .access)⟩) 0 h0
    ⟨rfl, .call _ 0 5 0 rfl ⟨by decide, trivial⟩, rfl, rfl, rfl⟩
  have h2 := AddHistory.user (s' := ⟨(exBoth c 1).1.st,
      fun _ => {}, fun _ _ => none, upd (upd (fun _ => .out) 0 (.want .access)) 4 (.want .access)⟩) 4 h1
    ⟨rfl, .call _ 4 5 1 rfl ⟨by decide, trivial⟩, rfl, rfl, rfl⟩
  have h3 := AddHistory.inc h2 (.noLock _ 0 .access rfl rfl)
  have h4 := AddHistory.inc h3 (.noLock _ 4 .access rfl rfl)
  have h5 := AddHistory.inc h4 (.read _ 0 .access rfl)
  have h6 := AddHistory.inc h5 (.read _ 4 .access rfl)
  have h7 := AddHistory.inc h6 (.write _ 0 .access 0 rfl)
  have h8 := AddHistory.inc h7 (.write _ 4 .access 0 rfl)
  have key : ∀ (s : AddState Nat) (l : Ledger) (x : CntState Nat) (l' : Ledger),
      AddHistory (exShared .window true false) false s l → s.st = x.st → s.c = x.c → s.mutex = (fun _ _ => none) →
      s.add = (fun _ => .out) → l = l' →
      AddHistory (exShared .window true false) false ⟨x.st, x.c, fun _ _ => none, fun _ => .out⟩ l' := by
    rintro ⟨s1, s2, s3, s4⟩ l ⟨x1, x2⟩ l' h a b c d e
    cases a; cases b; cases c; cases d; cases e; exact h
  refine key _ _ (exBoth c 1).1 _ h8 rfl ?_ rfl ?_ rfl
  · funext d
    by_cases e : d = 0
    · subst e; rfl
    · have e' : d ≠ (exShared .window true false).dom 0 := e
      have e'' : d ≠ (exShared .window true false).dom 4 := e
      simp only [exBoth, upd_ne _ _ e, upd_ne _ _ e', upd_ne _ _ e'']
  · funext t
    by_cases e : t = 4
    · subst e; rfl
    · by_cases e0 : t = 0
      · subst e0; rfl
      · simp only [upd_ne _ _ e, upd_ne _ _ e0]

/-- **C97** needs THREADSAFE_COUNTER if a domain has several threads: without it, two threads call a getter once each, both
return, and the counter of accesses is 1. -/
theorem C97_unlocked_violated : ∃ (s : AddState Nat) (l : Ledger),
    Legal (exShared .window true false) ∧ AddHistory (exShared .window true false) false s l ∧
    NoneIn (exShared .window true false).dom s.st 0 ∧ (∀ t, s.add t = .out) ∧
    l.calls 0 = 2 ∧ l.returned 0 = 2 ∧ (s.c 0).get .access = 1 := by
  have hc : ((CacheList.init 2 (-1)).bind fun c =>
      (steps 0 15 ++ steps 4 4).foldlM (cntStep (exShared .window true false)) (exBoth c 1)).any (fun x =>
        decide (x.2.calls 0 = 2 ∧ x.2.returned 0 = 2 ∧ x.1.c 0 = ⟨1, 0, 0, 1⟩)) = true := by
    decide +kernel
  cases h0 : CacheList.init 2 (-1) with
  | none => rw [h0] at hc; cases hc
  | some c =>
    rw [h0, Option.bind_some] at hc
    revert hc
    generalize hx : (steps 0 15 ++ steps 4 4).foldlM (cntStep (exShared .window true false)) (exBoth c 1) = x
    cases x with
    | none => intro h; cases h
    | some x =>
      intro hv
      obtain ⟨h1, h2, h3⟩ := of_decide_eq_true hv
      have hh := addRun_sound (fun _ _ => trivial) _ _ (exBoth_lost h0) hx
      exact ⟨_, _, exShared_legal _ _ _, hh, none_of_record (exShared_legal _ _ _) hh 0 (h1.trans h2.symm), fun _ => rfl,
        h1, h2, by show (x.1.c 0).get .access = 1; rw [h3]; rfl⟩

/-- With the option: two threads of a domain, of which one loads the block from the file and the other finds it in the
cache; and a thread holds the mutex of a counter while another thread of its domain waits for it. -/
example : (∃ (s : AddState Nat) (l : Ledger), AddHistory (exShared .window true false) true s l ∧
      NoneIn (exShared .window true false).dom s.st 0 ∧ CountersTell (s.c 0) 2 1 0 0 1) ∧
    ∃ (s : AddState Nat) (l : Ledger), AddHistory (exShared .window true false) true s l ∧
      s.add 0 = .got .access 0 ∧ Owes s 4 .access ∧ l.calls 0 = 2 ∧ (s.c 0).get .access = 0 := by
  constructor
  · have hc : (cntRun (exShared .window true false) ([.call 0 5 0] ++ steps 0 15 ++ [.call 4 5 1] ++
        steps 4 4)).any (fun x => decide (x.2.calls 0 = 2 ∧ x.2.returned 0 = 2 ∧ x.2.served 0 [] = 1 ∧
          x.2.served 0 [.domain] = 0 ∧ x.2.served 0 [.process] = 0 ∧ x.2.served 0 [.file] = 1)) = true := by
      decide +kernel
    revert hc
    generalize hx : cntRun _ _ = x
    cases x with
    | none => intro h; cases h
    | some x =>
      intro hv
      obtain ⟨h1, h2, h3, h4, h5, h6⟩ := of_decide_eq_true hv
      have hh := C97_increments_histories (k := true) (cntRun_sound (fun _ _ => trivial) hx)
      have hn := none_of_record (exShared_legal _ _ _) hh 0 (h1.trans h2.symm)
      have := (C97_counters_locked (exShared_legal _ _ _) hh 0 hn).2
      rw [h1, h3, h4, h5, h6] at this
      exact ⟨_, _, hh, hn, this⟩
  · cases hc : CacheList.init 2 (-1) with
    | none => exact absurd hc (by decide +kernel)
    | some c =>
      have h0 := AddHistory.opened (P := exShared .window true false) (locked := true) c hc
      have h1 := AddHistory.user (s' := ⟨{ DistState.start (exShared .window true false) c with
          pc := upd (DistState.start (exShared .window true false) c).pc (.user 0) (.wantCm 5 0) },
          fun _ => {}, fun _ _ => none, upd (fun _ => .out) 0 (.want .access)⟩) 0 h0
        ⟨rfl, .call _ 0 5 0 rfl ⟨by decide, trivial⟩, rfl, rfl, rfl⟩
      have h2 := AddHistory.user (s' := ⟨(exBoth c 1).1.st,
          fun _ => {}, fun _ _ => none, upd (upd (fun _ => .out) 0 (.want .access)) 4 (.want .access)⟩) 4 h1
        ⟨rfl, .call _ 4 5 1 rfl ⟨by decide, trivial⟩, rfl, rfl, rfl⟩
      have h3 := AddHistory.inc h2 (.lock _ 0 .access rfl rfl rfl)
      have h4 := AddHistory.inc h3 (.read _ 0 .access rfl)
      exact ⟨_, _, h4, rfl, .inl rfl, rfl, rfl⟩

/-- `C97_counters_single`: threads 0 and 1 of two domains; thread 1 copies the block from the domain of thread 0. -/
example : ∃ (s : AddState Nat) (l : Ledger), Legal { exShared .window true false with dom := id } ∧
    AddHistory { exShared .window true false with dom := id } false s l ∧
    NoneIn id s.st 1 ∧ CountersTell (s.c 1) 1 0 1 0 0 := by
  have hl : Legal { exShared .window true false with dom := id } :=
    ⟨by show 0 < 2; decide, by show 0 < 2; decide, by show (-1 : Int) < (2 : Nat); decide⟩
  have hc : (cntRun { exShared .window true false with dom := id } ([.call 0 5 0] ++ steps 0 15 ++ [.call 1 5 1] ++
      steps 1 12)).any (fun x => decide (x.2.calls 1 = 1 ∧ x.2.returned 1 = 1 ∧ x.2.served 1 [] = 0 ∧
        x.2.served 1 [.domain] = 1 ∧ x.2.served 1 [.process] = 0 ∧ x.2.served 1 [.file] = 0)) = true := by
    decide +kernel
  revert hc
  generalize hx : cntRun _ _ = x
  cases x with
  | none => intro h; cases h
  | some x =>
    intro hv
    obtain ⟨h1, h2, h3, h4, h5, h6⟩ := of_decide_eq_true hv
    have hh := C97_increments_histories (k := false) (cntRun_sound (fun _ _ => trivial) hx)
    have hn := none_of_record hl hh 1 (h1.trans h2.symm)
    have := (C97_counters_single hl (fun _ _ h => h) hh 1 hn).2
    rw [h1, h3, h4, h5, h6] at this
    exact ⟨_, _, hl, hh, hn, this⟩

/-! ### Distributed FULL grids -/

section
variable {c : LevelCfg α} {F : FullCfg α} {s0 : FullDist α} {s : AddState α} {l : Ledger}

open Classical in
/-- **C97**: `C97_increments` for distributed FULL grids. -/
theorem C97_full_increments {data : Nat → Mem α} (h : AddFullHistory c F data true s l) :
    ∃ (c' : Nat → Counters) (T : Finset Nat),
      FullHistory c F data ⟨s.st, c'⟩ l ∧ (∀ t, t ∈ T ↔ s.add t ≠ .out) ∧
      ∀ d ty, ty = .access ∨ ty = .numa ∨ ty = .mpi ∨ ty = .file →
        (c' d).get ty = ((s.c d).get ty + (T.filter fun t => F.dom t = d ∧ Owes s t ty).card) % ulongRange := by
  obtain ⟨c', T, hh, hI⟩ := add_full_history h
  refine ⟨c', T, hh, hI.mem, fun d ty hty => ?_⟩
  have hs := hI.sum d ty hty
  rw [owed_owes] at hs
  rcases hty with rfl | rfl | rfl | rfl <;> exact hs

/-- **C97**: with THREADSAFE_COUNTER, when no getter of a distributed FULL grid is running in a domain (and none that
reads the memory of the domain has still to count its access), the counters are exact. -/
theorem C97_full_counters_locked (ho : FullOpened c F s0) (h : AddFullHistory c F s0.data true s l) (d : Nat)
    (hq : NoneIn F.dom s.st d) (hq' : ∀ t, F.dom t = d → s.add t = .out) :
    l.calls d = l.returned d ∧ CountersTell (s.c d) (l.calls d) (l.served d []) (l.served d [.domain])
      (l.served d [.process]) 0 := by
  obtain ⟨c', T, hh, hI⟩ := add_full_history h
  have := C97_full_counters ho hh d hq
  rw [show (CntState.mk s.st c').c d = s.c d from counters_same hI hq'] at this
  exact this

theorem C97_full_increment_progress {data : Nat → Mem α} (h : AddFullHistory c F data true s l) {t : Nat}
    (ht : s.add t ≠ .out) :
    ∃ u s', F.dom u = F.dom t ∧ s.add u ≠ .out ∧ IncStep F.dom true s s' ∧ s'.add u ≠ s.add u :=
  (add_full_held h).go ht

/-- **C97**: conversely, each execution with increments as single actions is one with reads and writes. -/
theorem C97_full_increments_histories {data : Nat → Mem α} {x : CntState α} (h : FullHistory c F data x l) :
    AddFullHistory c F data k ⟨x.st, x.c, fun _ _ => none, fun _ => .out⟩ l := by
  induction h with
  | opened cl hc => exact .opened cl hc
  | @user x x' l t _ hs ih =>
    obtain ⟨h1, h2, h3⟩ := hs
    rw [h3]
    exact inc_whole (H := fun s => AddFullHistory c F data k s _) (fun _ _ h hs => .inc h hs)
      (AddFullHistory.user (s' := ⟨x'.st, x.c, fun _ _ => none, upd (fun _ => .out) t
        (.enter (pcCounts (fullCounter c F t) (x.st.pc (.user t)) (x'.st.pc (.user t))))⟩) t ih
        ⟨rfl, ⟨h1, h2⟩, rfl, rfl, rfl⟩)
  | @own x x' l t b _ hs ih =>
    obtain ⟨h1, h2, rfl⟩ := hs
    exact inc_whole (H := fun s => AddFullHistory c F data k s _) (fun _ _ h hs => .inc h hs)
      (AddFullHistory.own t b ih ⟨rfl, ⟨h1, h2⟩, rfl⟩)

/-- The execution of `C97_full_counters`, with four threads in four domains of two processes, with locked increments. -/
example : ∃ s0 : FullDist (List Nat), FullOpened exLevel exFullCfg s0 ∧
    ∃ (s : AddState (List Nat)) (l : Ledger), AddFullHistory exLevel exFullCfg s0.data true s l ∧
    NoneIn exFullCfg.dom s.st 0 ∧ (∀ t, exFullCfg.dom t = 0 → s.add t = .out) ∧
    ⟨0, 2, false, [.domain]⟩ ∈ l.done ∧ s.c 0 = ⟨1, 1, 0, 0⟩ ∧ s.c 2 = ⟨1, 0, 1, 0⟩ := by
  obtain ⟨s0, ho, x, l, hh, -, -, h3, -, h5, -, h7, -, h9, h10⟩ := exFullCount
  refine ⟨s0, ho, _, l, C97_full_increments_histories hh, ?_, fun _ _ => rfl, h3, h5, h7⟩
  obtain ⟨T, t1, t2, -⟩ := C97_full_counters_running ho hh 0
  have hT : T = ∅ := Finset.card_eq_zero.1 (by omega)
  intro t ht
  by_contra hne
  have := (t1 t).2 ⟨ht, hne⟩
  rw [hT] at this; cases this

end

end Asagi.Props
