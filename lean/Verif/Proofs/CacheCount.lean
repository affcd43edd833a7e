import Verif.Spec.CacheCount
import Verif.Spec.SharedCache
import Verif.Proofs.CacheDist
import Verif.Model.CounterConc
import Mathlib.Algebra.BigOperators.Group.Finset.Basic
/-
The counters of the domains and the record of the accesses agree.
-/
namespace Asagi
open Spec
variable {β α : Type}

/-! ### The way of a thread through a getter -/

/-- The slot is locked, no transfer has begun. -/
def preCopy : Phase β → Bool
  | .del _ | .delLocked _ | .numa _ | .numaCm _ | .start | .xfer _ | .ask _ => true
  | _ => false

inductive OwnMove : Phase β → Phase β → Prop
  | numa (i s') : OwnMove (.numaCm i) (.numaCopy i s' 0)
  | numaC (i s' k) : OwnMove (.numaCopy i s' k) (.numaCopy i s' (k + 1))
  | numaD (i s' k) : OwnMove (.numaCopy i s' k) .add
  | add : OwnMove .add .addLocked
  | addU : OwnMove .add .use
  | addL : OwnMove .addLocked .use
  | load (e) : OwnMove (.xfer e) (.load 0)
  | copy (x : Int) (e) : OwnMove (.xfer x) (.copy e 0)
  | copyC (e k) : OwnMove (.copy e k) (.copy e (k + 1))
  | copyD (e k) : OwnMove (.copy e k) .fin
  | recv (r buf) : OwnMove (.ask r) (.recv buf 0)
  | recvC (buf k) : OwnMove (.recv buf k) (.recv buf (k + 1))
  | recvD (buf k) : OwnMove (.recv buf k) .fin
  | loadC (k) : OwnMove (.load k) (.load (k + 1))
  | loadD (k) : OwnMove (.load k) .fin
  | fin : OwnMove .fin .use
  | use (v) : OwnMove .use (.out v)
  | pre {ph ph'} : preCopy ph = true → preCopy ph' = true → OwnMove ph ph'

/-- `has b`: the cache of the thread's domain has block `b`. -/
inductive PcMove (has : Nat → Bool) : Pc β → Pc β → Prop
  | call (b off) : PcMove has .idle (.wantCm b off)
  | look (b off s) (old : Option Nat) : (has b = true ↔ old = some b) →
      PcMove has (.wantCm b off) (.wantSlot b off s old)
  | found (b off s) : PcMove has (.wantSlot b off s (some b)) (.own b off s .use)
  | miss (b off s) (old : Option Nat) : old ≠ some b →
      PcMove has (.wantSlot b off s old) (.own b off s (.del old))
  | own (b off s) {ph ph'} : OwnMove ph ph' → PcMove has (.own b off s ph) (.own b off s ph')
  | ret (b off s) (v : β) : PcMove has (.own b off s (.out v)) .idle

/-- The bookkeeping of each domain is consistent. -/
def ListsOK (st : DistState β) : Prop := ∀ d, ∃ h, CLInv (st.cl d) h

theorem userStep_move {P : DistParams β} {t : Nat} {st st' : DistState β} (hL : ListsOK st)
    (hs : UserStep P t st st') :
    PcMove (fun b => decide (some b ∈ (st.cl (P.dom t)).indexToBlock)) (st.pc (.user t))
      (st'.pc (.user t)) ∧ (∀ a, a ≠ .user t → st'.pc a = st.pc a) ∧ ListsOK st' := by
  have hself : ∀ (f : Agent → Pc β) p, upd f (.user t) p (.user t) = p := fun f p => upd_self ..
  have hother : ∀ (f : Agent → Pc β) p a, a ≠ .user t → upd f (.user t) p a = f a :=
    fun f p a h => upd_ne _ _ h
  cases hs
  case call b off h1 h =>
    refine ⟨?_, fun a h => hother _ _ _ h, hL⟩
    simp only [h, hself]; exact .call b off
  case lookup b off s c' old h hcm hg =>
    obtain ⟨h0, inv⟩ := hL (P.dom t)
    obtain ⟨c1, s1, o1, e1, i1, i2, i3, i4, i5⟩ := inv.get b
    rw [hg] at e1; injection e1 with e1; injection e1 with e1 e2; injection e2 with e2 e3
    subst e1 e2 e3
    refine ⟨?_, fun a h => hother _ _ _ h, ?_⟩
    · simp only [h, hself]
      refine .look b off s old ?_
      rw [decide_eq_true_iff]
      have hb : some b ∈ (st.cl (P.dom t)).indexToBlock ↔ ∃ j, (st.cl (P.dom t)).blockToIndex b = some j := by
        rw [List.mem_iff_getElem?]
        exact ⟨fun ⟨j, hj⟩ => ⟨j, (inv.bij b j).2 hj⟩, fun ⟨j, hj⟩ => ⟨j, (inv.bij b j).1 hj⟩⟩
      rw [hb]
      rcases i5 with ⟨k1, k2, -⟩ | ⟨k1, k2, -⟩
      · exact ⟨fun _ => k2, fun _ => ⟨_, k1⟩⟩
      · refine ⟨fun ⟨j, hj⟩ => ?_, fun h => absurd h k2⟩
        rw [k1] at hj; cases hj
    · intro d
      show ∃ h, CLInv (upd st.cl (P.dom t) c' d) h
      by_cases hd : d = P.dom t
      · subst hd; rw [upd_self]; exact ⟨h0, i1⟩
      · rw [upd_ne _ _ hd]; exact hL d
  case lockSlot b off s old h hl =>
    refine ⟨?_, fun a h => hother _ _ _ h, hL⟩
    simp only [h, hself]
    split
    · next ho => subst ho; exact .found b off s
    · next ho => exact .miss b off s old ho
  case unlock b off s v h =>
    refine ⟨?_, fun a h => hother _ _ _ h, hL⟩
    simp only [h, hself]; exact .ret b off s v
  all_goals
    refine ⟨?_, fun a h => ?_, ?_⟩
    · simp only [DistState.goto, *]
      refine .own _ _ _ ?_
      first
        | exact .pre rfl rfl
        | constructor
    · first
        | exact hother _ _ _ h
        | (simp only [DistState.sendOp, DistState.goto]; split <;> exact hother _ _ _ h)
    · first
        | exact hL
        | (simp only [DistState.sendOp, DistState.goto, ListsOK]; split <;> exact hL)

/-! ### What the record says about a thread -/

theorem counter_inj {k k' : Source} (h : k.counter = k'.counter) : k = k' := by
  cases k <;> cases k' <;> first | rfl | cases h

/-- The record of a thread that holds a slot; `k`: the last resort. -/
def PhOK (Q : Source → Prop) (k : Source) (found : Bool) (copies : List Source) : Phase β → Prop
  | .numaCopy _ _ _ | .add | .addLocked => found = false ∧ copies = [.domain]
  | .copy _ _ | .recv _ _ => found = false ∧ copies = [.process]
  | .load _ => found = false ∧ copies = [k]
  | .fin => found = false ∧ (copies = [.process] ∨ copies = [k])
  | .use | .out _ => (found = true ∧ copies = []) ∨ (found = false ∧ ∃ x, Q x ∧ copies = [x])
  | _ => found = false ∧ copies = []

def RunOK (Q : Source → Prop) (d : Nat) (ld : Nat → Source) (r : Option Access) : Pc β → Prop
  | .idle => r = none
  | .wantCm b _ => r = some ⟨d, b, false, []⟩
  | .wantSlot b _ _ old => r = some ⟨d, b, decide (old = some b), []⟩
  | .own b _ _ ph => ∃ a, r = some a ∧ a.dom = d ∧ PhOK Q (ld b) a.found a.copies ph
  | _ => False

/-- The thread has not yet counted the transfer. -/
def uncounted (ld : Nat → Source) : Pc β → Bool
  | .own _ _ _ (.numaCopy _ _ _) | .own _ _ _ (.copy _ _) | .own _ _ _ (.recv _ _) => true
  | .own b _ _ (.load _) => decide (ld b = .domain)
  | _ => false

/-- The running call of a thread belongs to domain `d`. -/
def inDom (d : Nat) : Option Access → Nat
  | none => 0
  | some a => if a.dom = d then 1 else 0

/-- The running call of a thread has counted a transfer from `k` in domain `d`. -/
def part (ld : Nat → Source) (d : Nat) (k : Source) (p : Pc β) : Option Access → Nat
  | none => 0
  | some a => if a.dom = d ∧ a.copies = [k] ∧ uncounted ld p = false then 1 else 0

def Served (Q : Source → Prop) (a : Access) : Prop :=
  (a.found = true ∧ a.copies = []) ∨ (a.found = false ∧ ∃ x, Q x ∧ a.copies = [x])

/-- What one step of thread `t` does to its record: `r` to `r'`, and `x` is added to the calls that
have returned; `ev` is the counter that is incremented. -/
structure Delta (Q : Source → Prop) (d : Nat) (ld : Nat → Source) (p p' : Pc β) (r r' : Option Access) (x : List Access)
    (ev : Option CounterType) : Prop where
  ok : RunOK Q d ld r' p'
  dom : ∀ a ∈ x, a.dom = d ∧ Served Q a
  run : inDom d r' + x.length = inDom d r + (if ev = some .access then 1 else 0)
  rdom : ∀ d', d' ≠ d → inDom d' r' = 0 ∧ inDom d' r = 0
  parts : ∀ k, k ≠ .here → part ld d k p' r' + x.countP (fun a => decide (a.copies = [k])) =
    part ld d k p r + (if ev = some k.counter then 1 else 0)

theorem runOK_dom {Q : Source → Prop} {d d' : Nat} {ld : Nat → Source} {r : Option Access} {p : Pc β} (h : RunOK Q d ld r p)
    (hd : d' ≠ d) : inDom d' r = 0 := by
  unfold RunOK at h
  split at h
  · subst h; rfl
  · subst h; exact if_neg (fun e => hd e.symm)
  · subst h; exact if_neg (fun e => hd e.symm)
  · obtain ⟨a, rfl, e, -⟩ := h; exact if_neg (fun e' => hd (by rw [← e', e]))
  · cases h

theorem move_delta {Q : Source → Prop} {has : Nat → Bool} {d t : Nat} {ld : Nat → Source} {p p' : Pc β} (hp : PcMove has p p')
    (hld : ∀ b, ld b ≠ .here)
    (hQ : Q .domain ∧ Q .process ∧ ∀ b, Q (ld b)) (l : Ledger) (h : RunOK Q d ld (l.run t) p) :
    ∃ r' x, (l.move d t ld has p p').run = upd l.run t r' ∧
      (l.move d t ld has p p').done = l.done ++ x ∧
      (l.move d t ld has p p').calls = (if pcCounts (fun b => (ld b).counter) p p' = some .access then
        upd l.calls d (l.calls d + 1) else l.calls) ∧
      Delta Q d ld p p' (l.run t) r' x (pcCounts (fun b => (ld b).counter) p p') := by
  have hu : ∀ (f : Nat → Option Access), upd f t (f t) = f := by
    intro f; funext u; by_cases hut : u = t
    · subst hut; exact upd_self ..
    · exact upd_ne _ _ hut
  cases hp with
  | call b off =>
    have h' : l.run t = none := h
    refine ⟨some ⟨d, b, false, []⟩, [], rfl, (List.append_nil _).symm, rfl, ?_⟩
    rw [h']
    refine ⟨rfl, by simp, by simp [inDom, pcCounts], fun d' hd => ⟨if_neg fun e => hd e.symm, rfl⟩, ?_⟩
    intro k hk
    cases k <;> simp [part, pcCounts, Source.counter]
  | look b off s old ho =>
    have h' : l.run t = some ⟨d, b, false, []⟩ := h
    refine ⟨some ⟨d, b, has b, []⟩, [], ?_, (List.append_nil _).symm, rfl, ?_⟩
    · show upd l.run t ((l.run t).map _) = _
      rw [h']; rfl
    rw [h']
    refine ⟨?_, by simp, by simp [inDom, pcCounts],
      fun d' hd => ⟨if_neg fun e => hd e.symm, if_neg fun e => hd e.symm⟩, ?_⟩
    · show some _ = some _
      congr 2
      rw [Bool.eq_iff_iff, decide_eq_true_iff]; exact ho
    · intro k hk; simp [part, pcCounts]
  | found b off s =>
    have h' : l.run t = some ⟨d, b, true, []⟩ := by
      have h'' : l.run t = _ := h
      rw [h'']; simp
    refine ⟨l.run t, [], (hu _).symm, (List.append_nil _).symm, rfl, ?_⟩
    rw [h']
    refine ⟨⟨_, rfl, rfl, .inl ⟨rfl, rfl⟩⟩, by simp, by simp [inDom, pcCounts],
      fun d' hd => ⟨if_neg fun e => hd e.symm, if_neg fun e => hd e.symm⟩, ?_⟩
    intro k hk; simp [part, pcCounts]
  | miss b off s old ho =>
    have h' : l.run t = some ⟨d, b, false, []⟩ := by
      have h'' : l.run t = _ := h
      rw [h'']; simp [ho]
    refine ⟨l.run t, [], (hu _).symm, (List.append_nil _).symm, rfl, ?_⟩
    rw [h']
    refine ⟨⟨_, rfl, rfl, rfl, rfl⟩, by simp, by simp [inDom, pcCounts],
      fun d' hd => ⟨if_neg fun e => hd e.symm, if_neg fun e => hd e.symm⟩, ?_⟩
    intro k hk; simp [part, pcCounts]
  | ret b off s v =>
    obtain ⟨a, ha, hd, hs⟩ := h
    refine ⟨none, [a], rfl, ?_, rfl, ?_⟩
    · show l.done ++ (l.run t).toList = _
      rw [ha]; rfl
    rw [ha]
    refine ⟨rfl, ?_, by simp [inDom, hd, pcCounts], fun d' hd' => ⟨rfl, if_neg fun e => hd' (by omega)⟩, ?_⟩
    · intro a' ha'
      rw [List.mem_singleton.1 ha']; exact ⟨hd, hs⟩
    · intro k hk
      simp [part, pcCounts, hd, uncounted, List.countP_singleton]
  | @own b off s ph ph' hm =>
    obtain ⟨a, ha, hd, hs⟩ := h
    -- a step that copies nothing new
    have same : ∀ (_ : copiesFrom ld (.own b off s ph' : Pc β) = copiesFrom ld (.own b off s ph) ∨
          copiesFrom ld (.own b off s ph' : Pc β) = none)
        (_ : pcCounts (fun b => (ld b).counter) (.own b off s ph : Pc β) (.own b off s ph') ≠ some .access)
        (_ : PhOK Q (ld b) a.found a.copies ph')
        (_ : ∀ k, k ≠ .here → part ld d k (.own b off s ph') (some a) =
          part ld d k (.own b off s ph) (some a) +
            (if pcCounts (fun b => (ld b).counter) (.own b off s ph) (.own b off s ph') = some k.counter then 1
              else 0)),
        ∃ r' x, (l.move d t ld has (.own b off s ph) (.own b off s ph')).run = upd l.run t r' ∧
          (l.move d t ld has (.own b off s ph) (.own b off s ph')).done = l.done ++ x ∧
          (l.move d t ld has (.own b off s ph) (.own b off s ph')).calls =
            (if pcCounts (fun b => (ld b).counter) (.own b off s ph) (.own b off s ph') = some .access then
            upd l.calls d (l.calls d + 1) else l.calls) ∧
          Delta Q d ld (.own b off s ph) (.own b off s ph') (l.run t) r' x
            (pcCounts (fun b => (ld b).counter) (.own b off s ph) (.own b off s ph')) := by
      intro h1 h2 h3 h4
      have e : l.move d t ld has (.own b off s ph) (.own b off s ph') = l := by
        rcases h1 with h1 | h1 <;> simp [Ledger.move, h1]
      rw [e]
      refine ⟨l.run t, [], (hu _).symm, (List.append_nil _).symm, by rw [if_neg h2], ?_⟩
      rw [ha]
      refine ⟨⟨a, rfl, hd, h3⟩, by simp, by simp [h2], fun d' hd' =>
        ⟨if_neg fun e => hd' (by omega), if_neg fun e => hd' (by omega)⟩, ?_⟩
      intro k hk
      simpa using h4 k hk
    -- a step that begins to copy
    have new : ∀ (k0 : Source) (_ : copiesFrom ld (.own b off s ph' : Pc β) = some k0)
        (_ : copiesFrom ld (.own b off s ph : Pc β) = none)
        (_ : pcCounts (fun b => (ld b).counter) (.own b off s ph : Pc β) (.own b off s ph') ≠ some .access)
        (_ : a.copies = []) (_ : PhOK Q (ld b) a.found [k0] ph')
        (_ : ∀ k, k ≠ .here → (if [k0] = [k] ∧ uncounted ld (.own b off s ph' : Pc β) = false then 1 else 0) =
            (if pcCounts (fun b => (ld b).counter) (.own b off s ph) (.own b off s ph') = some k.counter then 1
              else 0)),
        ∃ r' x, (l.move d t ld has (.own b off s ph) (.own b off s ph')).run = upd l.run t r' ∧
          (l.move d t ld has (.own b off s ph) (.own b off s ph')).done = l.done ++ x ∧
          (l.move d t ld has (.own b off s ph) (.own b off s ph')).calls =
            (if pcCounts (fun b => (ld b).counter) (.own b off s ph) (.own b off s ph') = some .access then
            upd l.calls d (l.calls d + 1) else l.calls) ∧
          Delta Q d ld (.own b off s ph) (.own b off s ph') (l.run t) r' x
            (pcCounts (fun b => (ld b).counter) (.own b off s ph) (.own b off s ph')) := by
      intro k0 h1 h0 h2 hc h3 h4
      have e : l.move d t ld has (.own b off s ph) (.own b off s ph') = { l with
          run := upd l.run t ((l.run t).map fun a => { a with copies := a.copies ++ [k0] }) } := by
        simp [Ledger.move, h1, h0]
      rw [e]
      refine ⟨some { a with copies := [k0] }, [], ?_, (List.append_nil _).symm, by rw [if_neg h2], ?_⟩
      · show upd l.run t ((l.run t).map _) = _
        rw [ha]; simp [hc]
      rw [ha]
      refine ⟨⟨_, rfl, hd, h3⟩, by simp, by simp [h2, inDom, hd], fun d' hd' =>
        ⟨if_neg fun e => hd' (by rw [← e]; exact hd), if_neg fun e => hd' (by omega)⟩, ?_⟩
      intro k hk
      have := h4 k hk
      simp [part, hd, hc] at this ⊢
      exact this
    cases hm
    case pre h1 h2 =>
      have hs' : a.found = false ∧ a.copies = [] := by
        cases ph <;> first | exact hs | cases h1
      refine same (.inr ?_) ?_ ?_ ?_
      · cases ph' <;> first | rfl | cases h2
      · cases ph <;> cases ph' <;> first | cases h1; done | cases h2; done | simp [pcCounts]
      · cases ph' <;> first | exact hs' | cases h2
      · intro k hk
        rw [show pcCounts (fun b => (ld b).counter) (.own b off s ph : Pc β) (.own b off s ph') = none by
          cases ph <;> cases ph' <;> first | rfl | cases h1; done | cases h2]
        simp [part, hs'.2]
    case numa => exact new .domain rfl rfl (by simp [pcCounts]) hs.2 ⟨hs.1, rfl⟩ (by
      intro k hk; simp [pcCounts, uncounted])
    case copy => exact new .process rfl rfl (by simp [pcCounts]) hs.2 ⟨hs.1, rfl⟩ (by
      intro k hk; simp [pcCounts, uncounted])
    case recv => exact new .process rfl rfl (by simp [pcCounts]) hs.2 ⟨hs.1, rfl⟩ (by
      intro k hk; simp [pcCounts, uncounted])
    case load =>
      have hh : ld b = .domain ∨ ld b = .process ∨ ld b = .file := by
        have := hld b
        revert this; generalize ld b = x; cases x <;> simp
      refine new (ld b) rfl rfl ?_ hs.2 ⟨hs.1, rfl⟩ ?_
      · rcases hh with h | h | h <;> simp [pcCounts, h, Source.counter]
      · intro k hk
        rcases hh with h | h | h <;> cases k <;> simp_all [pcCounts, uncounted, Source.counter]
    case numaC => exact same (.inl rfl) (by simp [pcCounts]) hs (by
      intro k hk; simp [pcCounts, part, uncounted])
    case copyC => exact same (.inl rfl) (by simp [pcCounts]) hs (by
      intro k hk; simp [pcCounts, part, uncounted])
    case recvC => exact same (.inl rfl) (by simp [pcCounts]) hs (by
      intro k hk; simp [pcCounts, part, uncounted])
    case loadC => exact same (.inl rfl) (by simp [pcCounts]) hs (by
      intro k hk; simp [pcCounts, part, uncounted])
    case numaD => exact same (.inr rfl) (by simp [pcCounts]) hs (by
      intro k hk; cases k <;> simp [pcCounts, part, uncounted, hd, hs.2, Source.counter])
    case copyD => exact same (.inr rfl) (by simp [pcCounts]) ⟨hs.1, .inl hs.2⟩ (by
      intro k hk; cases k <;> simp [pcCounts, part, uncounted, hd, hs.2, Source.counter])
    case recvD => exact same (.inr rfl) (by simp [pcCounts]) ⟨hs.1, .inl hs.2⟩ (by
      intro k hk; cases k <;> simp [pcCounts, part, uncounted, hd, hs.2, Source.counter])
    case loadD =>
      have hh : ld b = .domain ∨ ld b = .process ∨ ld b = .file := by
        have := hld b
        revert this; generalize ld b = x; cases x <;> simp
      refine same (.inr rfl) ?_ ⟨hs.1, .inr hs.2⟩ ?_
      · rcases hh with h | h | h <;> simp [pcCounts, h, Source.counter]
      · intro k hk
        have hc := hs.2
        rcases hh with h | h | h <;> rw [h] at hc <;> cases k <;>
          simp_all [pcCounts, part, uncounted, Source.counter]
    case add => exact same (.inr rfl) (by simp [pcCounts]) hs (by
      intro k hk; simp [pcCounts, part, uncounted])
    case addU => exact same (.inr rfl) (by simp [pcCounts]) (.inr ⟨hs.1, _, hQ.1, hs.2⟩) (by
      intro k hk; simp [pcCounts, part, uncounted])
    case addL => exact same (.inr rfl) (by simp [pcCounts]) (.inr ⟨hs.1, _, hQ.1, hs.2⟩) (by
      intro k hk; simp [pcCounts, part, uncounted])
    case fin =>
      refine same (.inr rfl) (by simp [pcCounts]) (.inr ⟨hs.1, ?_⟩) (by
        intro k hk; simp [pcCounts, part, uncounted])
      rcases hs.2 with h | h
      · exact ⟨_, hQ.2.1, h⟩
      · exact ⟨_, hQ.2.2 b, h⟩
    case use => exact same (.inr rfl) (by simp [pcCounts]) hs (by
      intro k hk; simp [pcCounts, part, uncounted])

/-! ### All threads -/

/-- The record and the counters agree. -/
structure Sheet (Q : Source → Prop) (dom : Nat → Nat) (ld : Nat → Nat → Source) (pc : Nat → Pc β) (c : Nat → Counters)
    (l : Ledger) : Prop where
  run : ∀ t, RunOK Q (dom t) (ld t) (l.run t) (pc t)
  acc : ∀ d, (c d).access = l.calls d % ulongRange
  calls : ∀ d (T : Finset Nat), (∀ t, t ∉ T → dom t = d → l.run t = none) →
    l.calls d = l.returned d + ∑ t ∈ T, inDom d (l.run t)
  cnt : ∀ d k (T : Finset Nat), k ≠ .here → (∀ t, t ∉ T → dom t = d → l.run t = none) →
    (c d).native k.counter =
      (l.served d [k] + ∑ t ∈ T, part (ld t) d k (pc t) (l.run t)) % ulongRange
  done : ∀ a ∈ l.done, Served Q a
  fin : ∃ T : Finset Nat, ∀ t, t ∉ T → l.run t = none

theorem sum_step {f f' : Nat → Nat} {t : Nat} (T : Finset Nat) (h : ∀ u, u ≠ t → f' u = f u)
    (h0 : t ∉ T → f' t = 0) : ∑ u ∈ T, f' u + f t = ∑ u ∈ insert t T, f u + f' t := by
  have e1 : ∑ u ∈ T, f' u = ∑ u ∈ insert t T, f' u := by
    by_cases ht : t ∈ T
    · rw [Finset.insert_eq_self.2 ht]
    · rw [Finset.sum_insert ht, h0 ht, Nat.zero_add]
  have e2 : ∑ u ∈ (insert t T).erase t, f' u = ∑ u ∈ (insert t T).erase t, f u :=
    Finset.sum_congr rfl fun u hu => h u (Finset.ne_of_mem_erase hu)
  have e3 := Finset.sum_erase_add (insert t T) f' (Finset.mem_insert_self t T)
  have e4 := Finset.sum_erase_add (insert t T) f (Finset.mem_insert_self t T)
  omega

theorem part_none {Q : Source → Prop} {d d' : Nat} {ld : Nat → Source} {k : Source} {p : Pc β} {r : Option Access}
    (h : RunOK Q d ld r p) (hd : d' ≠ d) : part ld d' k p r = 0 := by
  have := runOK_dom h hd
  cases r with
  | none => rfl
  | some a =>
    by_cases e : a.dom = d'
    · simp [inDom, e] at this
    · exact if_neg fun h => e h.1

theorem native_inc (c : Counters) (ty ty' : CounterType) (h : ty' = .access ∨ ty' = .numa ∨ ty' = .mpi ∨ ty' = .file) :
    (c.inc ty).native ty' = if ty = ty' then (c.native ty' + 1) % ulongRange else c.native ty' := by
  rcases h with rfl | rfl | rfl | rfl <;> cases ty <;> rfl

theorem source_native {k : Source} (hk : k ≠ .here) :
    k.counter = .access ∨ k.counter = .numa ∨ k.counter = .mpi ∨ k.counter = .file := by
  cases k <;> simp_all [Source.counter]

theorem bump_native {c : Nat → Counters} {d d' : Nat} {ev : Option CounterType} {ty : CounterType}
    (h : ty = .access ∨ ty = .numa ∨ ty = .mpi ∨ ty = .file) {n : Nat}
    (hn : (c d').native ty = n % ulongRange) :
    (bump c d ev d').native ty = (n + if d' = d ∧ ev = some ty then 1 else 0) % ulongRange := by
  cases ev with
  | none => simpa [bump] using hn
  | some e =>
    show (upd c d _ d').native ty = _
    by_cases hd : d' = d
    · subst hd
      rw [upd_self, native_inc _ _ _ h]
      by_cases he : e = ty
      · subst he; rw [if_pos rfl, hn, if_pos ⟨rfl, rfl⟩, Nat.mod_add_mod]
      · rw [if_neg he, hn, if_neg (by rintro ⟨_, e'⟩; injection e' with e'; exact he e')]; rfl
    · rw [upd_ne _ _ hd, hn, if_neg (by rintro ⟨e', _⟩; exact hd e')]; rfl

variable {Q : Source → Prop} {dom : Nat → Nat} {ld : Nat → Nat → Source} {pc : Nat → Pc β} {c : Nat → Counters} {l l' : Ledger}

theorem countP_of_dom {x : List Access} {d : Nat} (h : ∀ a ∈ x, a.dom = d) (q : Access → Bool) (d' : Nat) :
    x.countP (fun a => decide (a.dom = d') && q a) = if d' = d then x.countP q else 0 := by
  split
  · next e =>
    subst e
    exact List.countP_congr fun a ha => by simp [h a ha]
  · next e =>
    rw [List.countP_eq_zero]
    intro a ha
    have := h a ha
    simp; omega

theorem sheet_step (S : Sheet Q dom ld pc c l) (t : Nat) {p' : Pc β} {r' : Option Access}
    {x : List Access} {ev : Option CounterType} (D : Delta Q (dom t) (ld t) (pc t) p' (l.run t) r' x ev)
    (hr : l'.run = upd l.run t r') (hx : l'.done = l.done ++ x)
    (hc : l'.calls = if ev = some .access then upd l.calls (dom t) (l.calls (dom t) + 1) else l.calls) :
    Sheet Q dom ld (upd pc t p') (bump c (dom t) ev) l' := by
  have hpcs : ∀ u, u ≠ t → upd pc t p' u = pc u := fun u h => upd_ne _ _ h
  have hrs : ∀ u, u ≠ t → l'.run u = l.run u := fun u h => by rw [hr]; exact upd_ne _ _ h
  have hrt : l'.run t = r' := by rw [hr]; exact upd_self ..
  have hrun : ∀ u, RunOK Q (dom u) (ld u) (l'.run u) (upd pc t p' u) := by
    intro u
    by_cases hu : u = t
    · subst hu; rw [hrt, upd_self]; exact D.ok
    · rw [hrs u hu, hpcs u hu]; exact S.run u
  have hcalls : ∀ d, l'.calls d = l.calls d + if d = dom t ∧ ev = some .access then 1 else 0 := by
    intro d
    rw [hc]
    by_cases he : ev = some .access
    · rw [if_pos he]
      by_cases hd : d = dom t
      · subst hd; rw [upd_self]; simp [he]
      · rw [upd_ne _ _ hd]; simp [hd]
    · rw [if_neg he]; simp [he]
  have cover : ∀ {d} {T : Finset Nat}, (∀ u, u ∉ T → dom u = d → l'.run u = none) →
      ∀ u, u ∉ insert t T → dom u = d → l.run u = none := by
    intro d T hT u hu hd
    rw [Finset.mem_insert, not_or] at hu
    rw [← hrs u hu.1]; exact hT u hu.2 hd
  refine ⟨hrun, ?_, ?_, ?_, ?_, ?_⟩
  · intro d
    rw [hcalls d]
    exact bump_native (ty := .access) (.inl rfl) (S.acc d)
  · intro d T hT
    have h1 := S.calls d (insert t T) (cover hT)
    have h2 := sum_step (f := fun u => inDom d (l.run u)) (f' := fun u => inDom d (l'.run u)) (t := t) T
      (fun u hu => by simp only [hrs u hu]) (fun ht => by
        by_cases hd : dom t = d
        · simp only [hT t ht hd]; rfl
        · exact runOK_dom (hrun t) (fun e => hd e.symm))
    have h3 : l'.returned d = l.returned d + if d = dom t then x.length else 0 := by
      unfold Ledger.returned
      rw [hx, List.countP_append]
      congr 1
      have := countP_of_dom (fun a ha => (D.dom a ha).1) (fun _ => true) d
      simpa using this
    rw [hcalls d, h1, h3]
    simp only [hrt] at h2
    by_cases hd : d = dom t
    · subst hd
      have := D.run
      simp only [true_and, if_true]
      omega
    · have := D.rdom d hd
      simp only [hd, false_and, if_false]
      omega
  · intro d k T hk hT
    have h1 := S.cnt d k (insert t T) hk (cover hT)
    have h2 := sum_step (f := fun u => part (ld u) d k (pc u) (l.run u))
      (f' := fun u => part (ld u) d k (upd pc t p' u) (l'.run u)) (t := t) T
      (fun u hu => by simp only [hrs u hu, hpcs u hu]) (fun ht => by
        by_cases hd : dom t = d
        · simp only [hT t ht hd]; rfl
        · exact part_none (hrun t) (fun e => hd e.symm))
    have h3 : l'.served d [k] = l.served d [k] +
        if d = dom t then x.countP (fun a => decide (a.copies = [k])) else 0 := by
      unfold Ledger.served
      rw [hx, List.countP_append]
      congr 1
      have := countP_of_dom (fun a ha => (D.dom a ha).1) (fun a => decide (a.copies = [k])) d
      simpa using this
    rw [bump_native (source_native hk) h1, h3]
    congr 1
    simp only [hrt, upd_self] at h2
    by_cases hd : d = dom t
    · subst hd
      have := D.parts k hk
      simp only [true_and, if_true]
      omega
    · have e1 : part (ld t) d k p' r' = 0 := part_none D.ok hd
      have e2 : part (ld t) d k (pc t) (l.run t) = 0 := part_none (S.run t) hd
      simp only [hd, false_and, if_false]
      omega
  · intro a ha
    rw [hx, List.mem_append] at ha
    rcases ha with h | h
    · exact S.done a h
    · exact (D.dom a h).2
  · obtain ⟨T, hT⟩ := S.fin
    refine ⟨insert t T, fun u hu => ?_⟩
    rw [Finset.mem_insert, not_or] at hu
    rw [hrs u hu.1]; exact hT u hu.2

theorem sheet_move (S : Sheet Q dom ld pc c l) (hld : ∀ t b, ld t b ≠ .here)
    (hQ : Q .domain ∧ Q .process ∧ ∀ t b, Q (ld t b)) (t : Nat) {has : Nat → Bool}
    {p' : Pc β} (hp : PcMove has (pc t) p') :
    Sheet Q dom ld (upd pc t p') (bump c (dom t) (pcCounts (fun b => (ld t b).counter) (pc t) p'))
      (l.move (dom t) t (ld t) has (pc t) p') := by
  obtain ⟨r', x, h1, h2, h3, D⟩ := move_delta (t := t) hp (hld t) ⟨hQ.1, hQ.2.1, hQ.2.2 t⟩ l (S.run t)
  exact sheet_step S t D h1 h2 h3

theorem sheet_empty : Sheet Q dom ld (fun _ => (.idle : Pc β)) (fun _ => {}) .empty where
  run := fun _ => rfl
  acc := fun _ => rfl
  calls := fun d T _ => by simp [Ledger.empty, Ledger.returned, inDom]
  cnt := fun d k T hk _ => by cases k <;> simp [Ledger.empty, Ledger.served, part, Counters.native, Source.counter]
  done := by simp [Ledger.empty]
  fin := ⟨∅, fun _ _ => rfl⟩

/-- The positions of the threads of the user. -/
def DistState.users (st : DistState β) : Nat → Pc β := fun t => st.pc (.user t)

theorem users_upd {st st' : DistState β} {t : Nat} (h : ∀ a, a ≠ .user t → st'.pc a = st.pc a) :
    st'.users = upd st.users t (st'.pc (.user t)) := by
  funext u
  by_cases hu : u = t
  · subst hu; rw [upd_self]; rfl
  · rw [upd_ne _ _ hu]; exact h _ (fun e => hu (by injection e))

theorem lists_start {P : DistParams β} {n : Nat} {hd : Int} {c0 : CacheList} (h : CacheList.init n hd = some c0)
    (hn : 0 < n) (hh : hd < n) : ListsOK (DistState.start P c0) := by
  obtain ⟨c1, h1, e1, e2, -⟩ := CacheList.init_inv hn hh
  rw [h] at e1; injection e1 with e1; subst e1
  exact fun _ => ⟨_, e2⟩

theorem commStep_users {P : DistParams β} {r : Nat} {st st' : DistState β} (h : CommStep P r st st') :
    st'.users = st.users ∧ st'.cl = st.cl := by
  constructor
  · funext u
    cases h <;> rfl
  · cases h <;> rfl

theorem cache_sheet {P : DistParams β} {s : CntState β} {l : Ledger} (hl : Legal P) (h : CacheHistory P s l) :
    Sheet (· ≠ .here) P.dom (fun _ _ => .file) s.st.users s.c l ∧ ListsOK s.st := by
  induction h with
  | opened c hc => exact ⟨sheet_empty, lists_start hc hl.size hl.hand⟩
  | @user s s' l t hh hs ih =>
    obtain ⟨S, hL⟩ := ih
    obtain ⟨h1, h2⟩ := hs
    obtain ⟨m1, m2, m3⟩ := userStep_move hL h1
    refine ⟨?_, m3⟩
    rw [h2, users_upd m2]
    exact sheet_move S (by simp) (by simp) t m1
  | @comm s l st' r hh hs ih =>
    obtain ⟨S, hL⟩ := ih
    obtain ⟨e1, e2⟩ := commStep_users hs
    refine ⟨?_, ?_⟩
    · show Sheet _ _ _ st'.users s.c l
      rw [e1]; exact S
    · intro d
      show ∃ h, CLInv (st'.cl d) h
      rw [e2]; exact hL d

theorem fullPlace_counter (c : LevelCfg α) (F : FullCfg α) (t : Nat) :
    (fun b => (fullPlace c F t b).counter) = fullCounter c F t := by
  funext b; unfold fullPlace fullCounter; split <;> rfl

/-- Every step of a thread changes its position. -/
theorem userStep_ne {P : DistParams β} {t : Nat} {st st' : DistState β} (hs : UserStep P t st st') :
    st'.pc (.user t) ≠ st.pc (.user t) := by
  cases hs <;> simp only [DistState.goto, upd_self, *] <;> simp

theorem fullStep_ne {c : LevelCfg α} {F : FullCfg α} {data : Nat → Mem α} {st st' : DistState α}
    (hs : FullStep c F data st st') : ∃ t, st'.pc (.user t) ≠ st.pc (.user t) := by
  cases hs with
  | call t pos h =>
    obtain ⟨idx, -, -, h1, rfl⟩ := h
    exact ⟨t, by simp [h1]⟩
  | copy t b off s k src v h1 => exact ⟨t, by simp [DistState.goto, h1]⟩
  | other t _ _ h => exact ⟨t, userStep_ne h⟩

theorem fullStep_move {c : LevelCfg α} {F : FullCfg α} {data : Nat → Mem α} {t : Nat} {st st' : DistState α}
    (hL : ListsOK st) (hs : FullStep c F data st st') (hne : st'.pc (.user t) ≠ st.pc (.user t)) :
    PcMove (fun b => decide (some b ∈ (st.cl (F.dom t)).indexToBlock)) (st.pc (.user t))
      (st'.pc (.user t)) ∧ (∀ a, a ≠ .user t → st'.pc a = st.pc a) ∧ ListsOK st' := by
  have mine : ∀ t0, (∀ a, a ≠ .user t0 → st'.pc a = st.pc a) → t0 = t := by
    intro t0 h
    by_contra hn
    exact hne (h _ (by simpa using fun e => hn e.symm))
  cases hs with
  | call t0 pos h =>
    obtain ⟨idx, -, -, h1, rfl⟩ := h
    have ho : ∀ a, a ≠ .user t0 → upd st.pc (.user t0)
        (.wantCm (blockByCoords c.geom idx) (calcOffsetInBlock c.geom idx)) a = st.pc a :=
      fun a h => upd_ne _ _ h
    obtain rfl := mine t0 ho
    refine ⟨?_, ho, hL⟩
    show PcMove _ _ (upd st.pc _ _ _)
    rw [h1, upd_self]; exact .call _ _
  | copy t0 b off s k src v h1 =>
    have ho : ∀ a, a ≠ .user t0 → upd st.pc (.user t0) (.own b off s (.load (k + 1))) a = st.pc a :=
      fun a h => upd_ne _ _ h
    obtain rfl := mine t0 ho
    refine ⟨?_, ho, hL⟩
    show PcMove _ _ (upd st.pc _ _ _)
    rw [h1, upd_self]; exact .own _ _ _ (.loadC k)
  | other t0 _ _ h =>
    obtain ⟨m1, m2, m3⟩ := userStep_move hL h
    obtain rfl := mine t0 m2
    exact ⟨m1, m2, m3⟩

theorem full_sheet {c : LevelCfg α} {F : FullCfg α} {data : Nat → Mem α} {s : CntState α} {l : Ledger}
    (hn : 0 < F.cacheSize) (hh : F.handDiff < F.cacheSize) (h : FullHistory c F data s l) :
    Sheet (fun x => x = .domain ∨ x = .process) F.dom (fullPlace c F) s.st.users s.c l ∧ ListsOK s.st := by
  have hld : ∀ t b, fullPlace c F t b ≠ .here := by
    intro t b; unfold fullPlace; split <;> simp
  have hQ : ∀ t b, fullPlace c F t b = .domain ∨ fullPlace c F t b = .process := by
    intro t b; unfold fullPlace; split <;> simp
  induction h with
  | opened cl hc => exact ⟨sheet_empty, lists_start hc hn hh⟩
  | @user s s' l t hh hs ih =>
    obtain ⟨S, hL⟩ := ih
    obtain ⟨h1, h2, h3⟩ := hs
    obtain ⟨m1, m2, m3⟩ := fullStep_move hL h1 h2
    refine ⟨?_, m3⟩
    rw [h3, users_upd m2, ← fullPlace_counter]
    exact sheet_move S hld ⟨.inl rfl, .inr rfl, hQ⟩ t m1
  | @own s s' l t b hh hs ih =>
    obtain ⟨S, hL⟩ := ih
    obtain ⟨h1, h2, rfl⟩ := hs
    refine ⟨?_, hL⟩
    have hr : l.run t = none := by
      have := S.run t
      rw [show s.st.users t = .idle from h1] at this
      exact this
    have hu : ∀ {γ : Type} (f : Nat → γ) (x : γ), f t = x → upd f t x = f := by
      intro γ f x hx; funext u; by_cases hut : u = t
      · subst hut; rw [upd_self, hx]
      · exact upd_ne _ _ hut
    have := sheet_step (l' := { l with
        calls := upd l.calls (F.dom t) (l.calls (F.dom t) + 1)
        done := l.done ++ [⟨F.dom t, b, true, []⟩] }) S t (p' := .idle) (r' := none)
      (x := [⟨F.dom t, b, true, []⟩]) (ev := some .access) ?_ ?_ rfl rfl
    · rw [hu s.st.users .idle h1] at this
      exact this
    · rw [hr, show s.st.users t = .idle from h1]
      refine ⟨rfl, ?_, by simp [inDom], fun _ _ => ⟨rfl, rfl⟩, ?_⟩
      · intro a ha; rw [List.mem_singleton.1 ha]; exact ⟨rfl, .inl ⟨rfl, rfl⟩⟩
      · intro k hk; cases k <;> simp [part, Source.counter]
    · exact (hu l.run none hr).symm

end Asagi
