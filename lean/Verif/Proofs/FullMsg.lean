import Verif.Spec.FullMsg
import Verif.Props.FullConc
import Verif.Proofs.MsgCacheLive
/-
Distributed FULL grids with the implemented transfers between processes.
-/
namespace Asagi
open Spec Props
variable {α : Type} {c : LevelCfg α} {X : XferCfg α} {data : Nat → Mem α} {x x' : XferSt α}

/-- The thread waits for a reply. -/
def XferPc.awaits : XferPc α → Bool
  | .sending _ | .waiting => true
  | _ => false

/-- What a thread inside of a transfer is doing. -/
def XferOK (c : LevelCfg α) (X : XferCfg α) (data : Nat → Mem α) (b k t : Nat) : XferPc α → Prop
  | .out => True
  | .locked => k = 0
  | .sending _ | .waiting => k = 0 ∧ X.win = false
  | .storing buf => fullSource c X.F data (X.rankT t) b = some buf
  | .epoch => X.win = true
  | .closed => X.win = true ∧ c.totalBlockSize ≤ k

/-- Messages and replies for process `q`. -/
inductive XferChan (c : LevelCfg α) (X : XferCfg α) (data : Nat → Mem α) (x : XferSt α) (q : Nat) : Prop
  | none : (∀ t, X.rankT t = q → (x.call t).awaits = false) → (∀ r, x.wire q r = []) →
      (∀ r, x.mail r q = []) → XferChan c X data x q
  | asked (t b off s k : Nat) : X.rankT t = q → (x.call t).awaits = true →
      x.st.pc (.user t) = .own b off s (.load 0) →
      (∀ r, x.wire q r = if r = X.home c b then
        [⟨X.tag, X.F.ds.blockNodeOffset c.totalBlocks b, k⟩] else []) →
      (∀ r, x.mail r q = []) → XferChan c X data x q
  | told (t b off s k : Nat) (buf : List α) : X.rankT t = q → (x.call t).awaits = true →
      x.st.pc (.user t) = .own b off s (.load 0) → (∀ r, x.wire q r = []) →
      fullSource c X.F data q b = some buf →
      (∀ r, x.mail r q = if r = X.home c b then [⟨k, buf⟩] else []) → XferChan c X data x q

structure XferInv (c : LevelCfg α) (X : XferCfg α) (data : Nat → Mem α) (x : XferSt α) : Prop where
  hold : ∀ t, x.call t ≠ .out → x.mx (X.rankT t) = some t ∧ X.F.hasMpi = true ∧
    ∃ b off s k, x.st.pc (.user t) = .own b off s (.load k) ∧ X.remote c t b ∧
      XferOK c X data b k t (x.call t)
  owner : ∀ q t, x.mx q = some t → X.rankT t = q ∧ x.call t ≠ .out
  chan : ∀ q, XferChan c X data x q
  busy : ∀ r, x.comm r ≠ none → X.win = false

theorem awaits_ne {p : XferPc α} (h : p.awaits = true) : p ≠ .out := by rintro rfl; cases h

/-- The memory of the other process is the source of blocks that are not copied within the process. -/
theorem fullSource_remote {t b : Nat} (hr : X.remote c t b) (hm : X.F.hasMpi = true) :
    fullSource c X.F data (X.rankT t) b = (data (X.home c b)).slice
      (X.F.ds.blockNodeOffset c.totalBlocks b * c.totalBlockSize) c.totalBlockSize := by
  unfold fullSource
  rw [if_neg hr, if_pos hm]

theorem winSlice_some {m : Mem α} {disp n : Nat} {src : List α} (h : winSlice c X.F.ds m disp n = some src) :
    m.slice disp n = some src := by
  unfold winSlice at h
  split at h
  · exact h
  · cases h

namespace XferInv

theorem unique (h : XferInv c X data x) {t u : Nat} (ht : x.call t ≠ .out) (hu : x.call u ≠ .out)
    (e : X.rankT u = X.rankT t) : u = t := by
  have h1 := (h.hold t ht).1
  have h2 := (h.hold u hu).1
  rw [e, h1] at h2
  injection h2 with h2; exact h2.symm

/-- Steps of the caches by a thread outside of transfers. -/
theorem frame (h : XferInv c X data x) {t : Nat} {st' : DistState α} (hc : x.call t = .out)
    (ho : ∀ u, u ≠ t → st'.pc (.user u) = x.st.pc (.user u)) :
    XferInv c X data { x with st := st' } := by
  have hne : ∀ u, x.call u ≠ .out → u ≠ t := fun u hu e => hu (by rw [e]; exact hc)
  refine ⟨fun u hu => ?_, h.owner, fun q => ?_, h.busy⟩
  · obtain ⟨h1, h2, b, off, s, k, h3, h4⟩ := h.hold u hu
    exact ⟨h1, h2, b, off, s, k, (ho u (hne u hu)).trans h3, h4⟩
  · cases h.chan q with
    | none e1 e2 e3 => exact .none e1 e2 e3
    | asked u b off s k e1 e2 e3 e4 e5 =>
      exact .asked u b off s k e1 e2 ((ho u (hne u (awaits_ne e2))).trans e3) e4 e5
    | told u b off s k buf e1 e2 e3 e4 e5 e6 =>
      exact .told u b off s k buf e1 e2 ((ho u (hne u (awaits_ne e2))).trans e3) e4 e5 e6

/-- Copies of values. -/
theorem copied (h : XferInv c X data x) {t b off s k : Nat} {st' : DistState α}
    (hc : (x.call t).awaits = false) (hl : x.call t ≠ .locked)
    (hp : x.st.pc (.user t) = .own b off s (.load k))
    (hp' : st'.pc = upd x.st.pc (.user t) (.own b off s (.load (k + 1)))) :
    XferInv c X data { x with st := st' } := by
  have ho : ∀ u, u ≠ t → st'.pc (.user u) = x.st.pc (.user u) :=
    fun u hu => by rw [hp']; exact upd_ne _ _ (user_ne' hu)
  have hne : ∀ u, (x.call u).awaits = true → u ≠ t := by
    rintro u hu rfl; rw [hc] at hu; cases hu
  refine ⟨fun u hu => ?_, h.owner, fun q => ?_, h.busy⟩
  · obtain ⟨h1, h2, b', off', s', k', h3, h4, h5⟩ := h.hold u hu
    by_cases e : u = t
    · subst e
      rw [hp] at h3
      injection h3 with e1 e2 e3 e4
      injection e4 with e4
      subst e1 e2 e3 e4
      refine ⟨h1, h2, b, off, s, k + 1, ?_, h4, ?_⟩
      · show st'.pc _ = _
        rw [hp']; exact upd_self _ _ _
      · change XferOK c X data b k u (x.call u) at h5
        change XferOK c X data b (k + 1) u (x.call u)
        revert h5 hc hl
        generalize x.call u = p
        intro hc hl h5
        cases p with
        | closed => exact ⟨h5.1, Nat.le_succ_of_le h5.2⟩
        | locked => exact absurd rfl hl
        | sending => cases hc
        | waiting => cases hc
        | out => trivial
        | storing => exact h5
        | epoch => exact h5
    · exact ⟨h1, h2, b', off', s', k', (ho u e).trans h3, h4, h5⟩
  · cases h.chan q with
    | none e1 e2 e3 => exact .none e1 e2 e3
    | asked u b off s k e1 e2 e3 e4 e5 =>
      exact .asked u b off s k e1 e2 ((ho u (hne u e2)).trans e3) e4 e5
    | told u b off s k buf e1 e2 e3 e4 e5 e6 =>
      exact .told u b off s k buf e1 e2 ((ho u (hne u e2)).trans e3) e4 e5 e6

/-- A thread moves on inside of its transfer, without messages. -/
theorem moved (h : XferInv c X data x) {t : Nat} {p : XferPc α} (hc : x.call t ≠ .out)
    (hp : p ≠ .out) (ha : p.awaits = (x.call t).awaits)
    (hok : ∀ b k, (∃ off s, x.st.pc (.user t) = .own b off s (.load k)) →
      XferOK c X data b k t (x.call t) → XferOK c X data b k t p) :
    XferInv c X data { x with call := upd x.call t p } := by
  have haw : ∀ u, ((upd x.call t p) u).awaits = (x.call u).awaits := by
    intro u
    by_cases e : u = t
    · subst e; rw [upd_self]; exact ha
    · rw [upd_ne _ _ e]
  refine ⟨fun u hu => ?_, fun q u hq => ?_, fun q => ?_, h.busy⟩
  · by_cases e : u = t
    · subst e
      obtain ⟨h1, h2, b, off, s, k, h3, h4, h5⟩ := h.hold u hc
      refine ⟨h1, h2, b, off, s, k, h3, h4, ?_⟩
      show XferOK c X data b k u (upd x.call u p u)
      rw [upd_self]; exact hok b k ⟨off, s, h3⟩ h5
    · have hu' : x.call u ≠ .out := by rw [← upd_ne x.call p e]; exact hu
      obtain ⟨h1, h2, b, off, s, k, h3, h4, h5⟩ := h.hold u hu'
      refine ⟨h1, h2, b, off, s, k, h3, h4, ?_⟩
      show XferOK c X data b k u (upd x.call t p u)
      rw [upd_ne _ _ e]; exact h5
  · obtain ⟨h1, h2⟩ := h.owner q u hq
    refine ⟨h1, ?_⟩
    show upd x.call t p u ≠ _
    by_cases e : u = t
    · subst e; rw [upd_self]; exact hp
    · rw [upd_ne _ _ e]; exact h2
  · cases h.chan q with
    | none e1 e2 e3 => exact .none (fun u hu => (haw u).trans (e1 u hu)) e2 e3
    | asked u b off s k e1 e2 e3 e4 e5 => exact .asked u b off s k e1 ((haw u).trans e2) e3 e4 e5
    | told u b off s k buf e1 e2 e3 e4 e5 e6 =>
      exact .told u b off s k buf e1 ((haw u).trans e2) e3 e4 e5 e6

/-- A thread leaves its transfer. -/
theorem left (h : XferInv c X data x) {t : Nat} (hc : x.call t ≠ .out)
    (ha : (x.call t).awaits = false) :
    XferInv c X data { x with mx := upd x.mx (X.rankT t) none, call := upd x.call t .out } := by
  have haw : ∀ u, ((upd x.call t .out) u).awaits = (x.call u).awaits := by
    intro u
    by_cases e : u = t
    · subst e; rw [upd_self]; exact ha.symm
    · rw [upd_ne _ _ e]
  refine ⟨fun u hu => ?_, fun q u hq => ?_, fun q => ?_, h.busy⟩
  · by_cases e : u = t
    · subst e; exact absurd (upd_self _ _ _) hu
    · have hu' : x.call u ≠ .out := by rw [← upd_ne x.call .out e]; exact hu
      obtain ⟨h1, h2, b, off, s, k, h3, h4, h5⟩ := h.hold u hu'
      refine ⟨?_, h2, b, off, s, k, h3, h4, ?_⟩
      · show upd x.mx (X.rankT t) none _ = _
        rw [upd_ne _ _ fun e' => e (h.unique hc hu' e')]; exact h1
      · show XferOK c X data b k u (upd x.call t .out u)
        rw [upd_ne _ _ e]; exact h5
  · change upd x.mx (X.rankT t) none q = _ at hq
    have hq' : q ≠ X.rankT t := by
      rintro rfl
      rw [upd_self] at hq
      cases hq
    rw [upd_ne _ _ hq'] at hq
    obtain ⟨h1, h2⟩ := h.owner q u hq
    refine ⟨h1, ?_⟩
    show upd x.call t .out u ≠ _
    rw [upd_ne _ _ (by rintro rfl; exact hq' h1.symm)]; exact h2
  · cases h.chan q with
    | none e1 e2 e3 => exact .none (fun u hu => (haw u).trans (e1 u hu)) e2 e3
    | asked u b off s k e1 e2 e3 e4 e5 => exact .asked u b off s k e1 ((haw u).trans e2) e3 e4 e5
    | told u b off s k buf e1 e2 e3 e4 e5 e6 =>
      exact .told u b off s k buf e1 ((haw u).trans e2) e3 e4 e5 e6

end XferInv

/-- Every step keeps the invariant, and is a step of `FullStep` or one that does not concern the
caches. -/
theorem XferInv.step {early : Bool} (h : XferInv c X data x)
    (hs : XferStep c X data early x x') :
    XferInv c X data x' ∧ (x'.st = x.st ∨ FullStep c X.F data x.st x'.st) := by
  cases hs with
  | call t pos st' hc =>
    refine ⟨?_, .inr (.call t pos hc)⟩
    obtain ⟨idx, -, -, hi, rfl⟩ := hc
    have ht : x.call t = .out := by
      by_contra hn
      obtain ⟨-, -, b, off, s, k, h3, -⟩ := h.hold t hn
      rw [hi] at h3; cases h3
    exact h.frame ht fun u hu => upd_ne _ _ (user_ne' hu)
  | other t st' h1 h2 h3 h4 =>
    exact ⟨h.frame h1 fun u hu => user_other h4 (user_ne' hu), .inr (.other t h2 h3 h4)⟩
  | near t b off s k src v h1 h2 h3 h4 h5 h6 h7 =>
    refine ⟨h.copied (k := k) (by rw [h1]; rfl) (by rw [h1]; nofun) h2 rfl, .inr ?_⟩
    refine .copy x.st t b off s k src v h2 h3 ?_ h7
    unfold fullSource
    rw [if_pos ⟨h4, h5⟩]; exact h6
  | lock t b off s h1 h2 h3 h4 h5 =>
    refine ⟨⟨fun u hu => ?_, fun q u hq => ?_, fun q => ?_, h.busy⟩, .inl rfl⟩
    · by_cases e : u = t
      · subst e
        refine ⟨upd_self _ _ _, h4, b, off, s, 0, h2, h3, ?_⟩
        show XferOK c X data b 0 u (upd x.call u .locked u)
        rw [upd_self]; rfl
      · have hu' : x.call u ≠ .out := by rw [← upd_ne x.call .locked e]; exact hu
        obtain ⟨g1, g2, b', off', s', k, g3, g4, g5⟩ := h.hold u hu'
        refine ⟨?_, g2, b', off', s', k, g3, g4, ?_⟩
        · show upd x.mx (X.rankT t) (some t) _ = _
          rw [upd_ne]
          · exact g1
          · intro e'; rw [e', h5] at g1; cases g1
        · show XferOK c X data b' k u (upd x.call t .locked u)
          rw [upd_ne _ _ e]; exact g5
    · change upd x.mx (X.rankT t) (some t) q = _ at hq
      show _ ∧ upd x.call t .locked u ≠ _
      by_cases e : q = X.rankT t
      · subst e
        rw [upd_self] at hq; injection hq with hq; subst hq
        exact ⟨rfl, by rw [upd_self]; nofun⟩
      · rw [upd_ne _ _ e] at hq
        obtain ⟨g1, g2⟩ := h.owner q u hq
        refine ⟨g1, ?_⟩
        rw [upd_ne _ _ (by rintro rfl; exact e g1.symm)]; exact g2
    · have haw : ∀ u, ((upd x.call t .locked) u).awaits = (x.call u).awaits := by
        intro u
        by_cases e : u = t
        · subst e; rw [upd_self, h1]; rfl
        · rw [upd_ne _ _ e]
      cases h.chan q with
      | none e1 e2 e3 => exact .none (fun u hu => (haw u).trans (e1 u hu)) e2 e3
      | asked u b off s k e1 e2 e3 e4 e5 => exact .asked u b off s k e1 ((haw u).trans e2) e3 e4 e5
      | told u b off s k buf e1 e2 e3 e4 e5 e6 =>
        exact .told u b off s k buf e1 ((haw u).trans e2) e3 e4 e5 e6
  | send t b off s h0 h1 h2 =>
    have hn : x.call t ≠ .out := by rw [h1]; nofun
    obtain ⟨g1, g2, b', off', s', k, g3, g4, g5⟩ := h.hold t hn
    rw [h2] at g3
    injection g3 with e1 e2 e3 e4
    injection e4 with e4
    subst e1 e2 e3 e4
    have hne : ∀ u, u ≠ t → upd x.call t (.sending x.next) u = x.call u := fun u e => upd_ne _ _ e
    refine ⟨⟨fun u hu => ?_, fun q u hq => ?_, fun q => ?_, h.busy⟩, .inl rfl⟩
    · by_cases e : u = t
      · subst e
        refine ⟨g1, g2, b, off, s, 0, h2, g4, ?_⟩
        show XferOK c X data b 0 u (upd x.call u (.sending x.next) u)
        rw [upd_self]; exact ⟨rfl, h0⟩
      · have hu' : x.call u ≠ .out := by rw [← hne u e]; exact hu
        obtain ⟨f1, f2, b', off', s', k, f3, f4, f5⟩ := h.hold u hu'
        refine ⟨f1, f2, b', off', s', k, f3, f4, ?_⟩
        show XferOK c X data b' k u (upd x.call t (.sending x.next) u)
        rw [hne u e]; exact f5
    · obtain ⟨f1, f2⟩ := h.owner q u hq
      refine ⟨f1, ?_⟩
      show upd x.call t (.sending x.next) u ≠ _
      by_cases e : u = t
      · subst e; rw [upd_self]; nofun
      · rw [hne u e]; exact f2
    · by_cases hq : q = X.rankT t
      · subst hq
        cases h.chan (X.rankT t) with
        | none e1 e2 e3 =>
          refine .asked t b off s x.next rfl ?_ h2 (fun r => ?_) e3
          · show (upd x.call t (.sending x.next) t).awaits = true
            rw [upd_self]; rfl
          · show upd x.wire _ _ _ r = _
            rw [upd_self, e2]
            by_cases hr : r = X.home c b
            · subst hr; rw [upd_self, if_pos rfl]; rfl
            · rw [upd_ne _ _ hr, if_neg hr, e2]
        | asked u b off s k e1 e2 =>
          have := h.unique hn (awaits_ne e2) e1
          subst this; rw [h1] at e2; cases e2
        | told u b off s k buf e1 e2 =>
          have := h.unique hn (awaits_ne e2) e1
          subst this; rw [h1] at e2; cases e2
      · have hw : ∀ r, upd x.wire (X.rankT t) (upd (x.wire (X.rankT t)) (X.home c b)
            (x.wire (X.rankT t) (X.home c b) ++ [⟨X.tag, X.F.ds.blockNodeOffset c.totalBlocks b, x.next⟩]))
            q r = x.wire q r := fun r => by rw [upd_ne _ _ hq]
        have hu : ∀ u, X.rankT u = q → upd x.call t (.sending x.next) u = x.call u :=
          fun u e => hne u (by rintro rfl; exact hq e.symm)
        cases h.chan q with
        | none e1 e2 e3 =>
          refine .none (fun u e => ?_) (fun r => (hw r).trans (e2 r)) e3
          show (upd x.call t (.sending x.next) u).awaits = _
          rw [hu u e]; exact e1 u e
        | asked u b off s k e1 e2 e3 e4 e5 =>
          refine .asked u b off s k e1 ?_ e3 (fun r => (hw r).trans (e4 r)) e5
          show (upd x.call t (.sending x.next) u).awaits = _
          rw [hu u e1]; exact e2
        | told u b off s k buf e1 e2 e3 e4 e5 e6 =>
          refine .told u b off s k buf e1 ?_ e3 (fun r => (hw r).trans (e4 r)) e5 e6
          show (upd x.call t (.sending x.next) u).awaits = _
          rw [hu u e1]; exact e2
  | sent t b off s ticket h1 h2 h3 =>
    refine ⟨h.moved (p := .waiting) (by rw [h1]; nofun) (by nofun) (by rw [h1]; rfl) ?_, .inl rfl⟩
    intro b k _ h5
    rw [h1] at h5; exact h5
  | recv t b off s m rest h1 h2 h3 =>
    have hn : x.call t ≠ .out := by rw [h1]; nofun
    obtain ⟨g1, g2, b', off', s', k, g3, g4, g5⟩ := h.hold t hn
    rw [h2] at g3
    injection g3 with e1 e2 e3 e4
    injection e4 with e4
    subst e1 e2 e3 e4
    have hne : ∀ u, u ≠ t → upd x.call t (.storing m.buf) u = x.call u := fun u e => upd_ne _ _ e
    have hrep : (∀ r, x.wire (X.rankT t) r = []) ∧ rest = [] ∧
        fullSource c X.F data (X.rankT t) b = some m.buf ∧
        ∀ r, r ≠ X.home c b → x.mail r (X.rankT t) = [] := by
      cases h.chan (X.rankT t) with
      | none e1 e2 e3 => rw [e3] at h3; cases h3
      | asked u b off s k e1 e2 e3 e4 e5 => rw [e5] at h3; cases h3
      | told u b' off' s' k buf e1 e2 e3 e4 e5 e6 =>
        have := h.unique hn (awaits_ne e2) e1
        subst this
        rw [h2] at e3
        injection e3 with e3 _ _ _
        subst e3
        rw [e6, if_pos rfl] at h3
        injection h3 with h3 h3'
        subst h3 h3'
        refine ⟨e4, rfl, e5, fun r hr => ?_⟩
        rw [e6, if_neg hr]
    obtain ⟨r1, r2, r3, r4⟩ := hrep
    subst r2
    refine ⟨⟨fun u hu => ?_, fun q u hq => ?_, fun q => ?_, h.busy⟩, .inl rfl⟩
    · by_cases e : u = t
      · subst e
        refine ⟨g1, g2, b, off, s, 0, h2, g4, ?_⟩
        show XferOK c X data b 0 u (upd x.call u (.storing m.buf) u)
        rw [upd_self]; exact r3
      · have hu' : x.call u ≠ .out := by rw [← hne u e]; exact hu
        obtain ⟨f1, f2, b', off', s', k, f3, f4, f5⟩ := h.hold u hu'
        refine ⟨f1, f2, b', off', s', k, f3, f4, ?_⟩
        show XferOK c X data b' k u (upd x.call t (.storing m.buf) u)
        rw [hne u e]; exact f5
    · obtain ⟨f1, f2⟩ := h.owner q u hq
      refine ⟨f1, ?_⟩
      show upd x.call t (.storing m.buf) u ≠ _
      by_cases e : u = t
      · subst e; rw [upd_self]; nofun
      · rw [hne u e]; exact f2
    · have hmail : ∀ r q, upd x.mail (X.home c b) (upd (x.mail (X.home c b)) (X.rankT t) []) r q =
          if r = X.home c b ∧ q = X.rankT t then [] else x.mail r q := by
        intro r q
        by_cases e : r = X.home c b
        · subst e
          rw [upd_self]
          by_cases e' : q = X.rankT t
          · subst e'; rw [upd_self, if_pos ⟨rfl, rfl⟩]
          · rw [upd_ne _ _ e', if_neg (fun h => e' h.2)]
        · rw [upd_ne _ _ e, if_neg (fun h => e h.1)]
      by_cases hq : q = X.rankT t
      · subst hq
        refine .none (fun u e => ?_) r1 (fun r => ?_)
        · show (upd x.call t (.storing m.buf) u).awaits = _
          by_cases e' : u = t
          · subst e'; rw [upd_self]; rfl
          · rw [hne u e']
            by_contra hx
            exact e' (h.unique hn (awaits_ne (by simpa using hx)) e)
        · show upd x.mail _ _ r _ = _
          rw [hmail]
          split
          · rfl
          · next hc => exact r4 r fun e => hc ⟨e, rfl⟩
      · have hw : ∀ r, upd x.mail (X.home c b) (upd (x.mail (X.home c b)) (X.rankT t) []) r q =
            x.mail r q := fun r => by rw [hmail, if_neg (fun h => hq h.2)]
        have hu : ∀ u, X.rankT u = q → upd x.call t (.storing m.buf) u = x.call u :=
          fun u e => hne u (by rintro rfl; exact hq e.symm)
        cases h.chan q with
        | none e1 e2 e3 =>
          refine .none (fun u e => ?_) e2 (fun r => (hw r).trans (e3 r))
          show (upd x.call t (.storing m.buf) u).awaits = _
          rw [hu u e]; exact e1 u e
        | asked u b off s k e1 e2 e3 e4 e5 =>
          refine .asked u b off s k e1 ?_ e3 e4 (fun r => (hw r).trans (e5 r))
          show (upd x.call t (.storing m.buf) u).awaits = _
          rw [hu u e1]; exact e2
        | told u b off s k buf e1 e2 e3 e4 e5 e6 =>
          refine .told u b off s k buf e1 ?_ e3 e4 e5 (fun r => (hw r).trans (e6 r))
          show (upd x.call t (.storing m.buf) u).awaits = _
          rw [hu u e1]; exact e2
  | store t b off s k buf v h1 h2 h3 h4 =>
    refine ⟨h.copied (k := k) (by rw [h1]; rfl) (by rw [h1]; nofun) h2 rfl, .inr ?_⟩
    obtain ⟨g1, g2, b', off', s', k', g3, g4, g5⟩ := h.hold t (by rw [h1]; nofun)
    rw [h2] at g3
    injection g3 with e1 e2 e3 e4
    subst e1
    rw [h1] at g5
    exact .copy x.st t b off s k buf v h2 h3 g5 h4
  | done t b off s k buf h1 h2 h3 =>
    exact ⟨h.left (by rw [h1]; nofun) (by rw [h1]; rfl), .inl rfl⟩
  | take src r m rest buf h1 h2 h3 h4 =>
    refine ⟨⟨h.hold, h.owner, fun q => ?_, fun r' hr' => ?_⟩, .inl rfl⟩
    case refine_2 =>
      cases h.chan src with
      | none e1 e2 e3 => rw [e2] at h2; cases h2
      | asked t b off s k e1 e2 =>
        obtain ⟨-, -, b', off', s', k', -, -, g5⟩ := h.hold t (awaits_ne e2)
        revert e2 g5
        cases x.call t with
        | sending => exact fun _ g => g.2
        | waiting => exact fun _ g => g.2
        | _ => intro e2; cases e2
      | told t b off s k buf e1 e2 e3 e4 e5 e6 => rw [e4] at h2; cases h2
    have hwire : ∀ q r', upd x.wire src (upd (x.wire src) r rest) q r' =
        if q = src ∧ r' = r then rest else x.wire q r' := by
      intro q r'
      by_cases e : q = src
      · subst e
        rw [upd_self]
        by_cases e' : r' = r
        · subst e'; rw [upd_self, if_pos ⟨rfl, rfl⟩]
        · rw [upd_ne _ _ e', if_neg (fun h => e' h.2)]
      · rw [upd_ne _ _ e, if_neg (fun h => e h.1)]
    have hmail : ∀ r' q, upd x.mail r (upd (x.mail r) src (x.mail r src ++ [⟨x.next, buf⟩])) r' q =
        if r' = r ∧ q = src then x.mail r src ++ [⟨x.next, buf⟩] else x.mail r' q := by
      intro r' q
      by_cases e : r' = r
      · subst e
        rw [upd_self]
        by_cases e' : q = src
        · subst e'; rw [upd_self, if_pos ⟨rfl, rfl⟩]
        · rw [upd_ne _ _ e', if_neg (fun h => e' h.2)]
      · rw [upd_ne _ _ e, if_neg (fun h => e h.1)]
    by_cases hq : q = src
    · subst hq
      cases h.chan q with
      | none e1 e2 e3 => rw [e2] at h2; cases h2
      | told t b off s k buf e1 e2 e3 e4 e5 e6 => rw [e4] at h2; cases h2
      | asked t b off s k e1 e2 e3 e4 e5 =>
        obtain ⟨g1, g2, b', off', s', k', g3, g4, -⟩ := h.hold t (awaits_ne e2)
        rw [e3] at g3
        injection g3 with f1 _ _ _
        subst f1
        rw [e4] at h2
        split at h2
        · next hr =>
          injection h2 with f1 f2
          subst f1 f2 hr
          refine .told t b off s x.next buf e1 e2 e3 (fun r => ?_) ?_ (fun r => ?_)
          · show upd x.wire _ _ q r = []
            rw [hwire]
            split
            · rfl
            · next hc => rw [e4, if_neg fun e => hc ⟨rfl, e⟩]
          · rw [← e1, fullSource_remote g4 g2]; exact h4
          · show upd x.mail _ _ r q = _
            rw [hmail, e5]
            by_cases hc : r = X.home c b
            · rw [if_pos ⟨hc, rfl⟩, if_pos hc]; rfl
            · rw [if_neg fun e => hc e.1, if_neg hc, e5]
        · cases h2
    · have hw : ∀ r', upd x.wire src (upd (x.wire src) r rest) q r' = x.wire q r' :=
        fun r' => by rw [hwire, if_neg fun e => hq e.1]
      have hm : ∀ r', upd x.mail r (upd (x.mail r) src (x.mail r src ++ [⟨x.next, buf⟩])) r' q =
        x.mail r' q := fun r' => by rw [hmail, if_neg fun e => hq e.2]
      cases h.chan q with
      | none e1 e2 e3 => exact .none e1 (fun r => (hw r).trans (e2 r)) (fun r => (hm r).trans (e3 r))
      | asked u b off s k e1 e2 e3 e4 e5 =>
        exact .asked u b off s k e1 e2 e3 (fun r => (hw r).trans (e4 r)) (fun r => (hm r).trans (e5 r))
      | told u b off s k buf e1 e2 e3 e4 e5 e6 =>
        exact .told u b off s k buf e1 e2 e3 (fun r => (hw r).trans (e4 r)) e5
          (fun r => (hm r).trans (e6 r))
  | answered r dst ticket h1 h2 =>
    have hch : ∀ q, XferChan c X data { x with comm := upd x.comm r none } q := by
      intro q
      cases h.chan q with
      | none e1 e2 e3 => exact .none e1 e2 e3
      | asked u b off s k e1 e2 e3 e4 e5 => exact .asked u b off s k e1 e2 e3 e4 e5
      | told u b off s k buf e1 e2 e3 e4 e5 e6 => exact .told u b off s k buf e1 e2 e3 e4 e5 e6
    refine ⟨⟨h.hold, h.owner, hch, fun r' hr' => ?_⟩, .inl rfl⟩
    exact h.busy r (by rw [h1]; nofun)
  | winLock t h0 h1 =>
    exact ⟨h.moved (p := .epoch) (by rw [h1]; nofun) (by nofun) (by rw [h1]; rfl)
      fun _ _ _ _ => h0, .inl rfl⟩
  | get t b off s k src v h1 h2 h3 h4 h5 =>
    refine ⟨h.copied (k := k) (by rw [h1]; rfl) (by rw [h1]; nofun) h2 rfl, .inr ?_⟩
    obtain ⟨g1, g2, b', off', s', k', g3, g4, g5⟩ := h.hold t (by rw [h1]; nofun)
    rw [h2] at g3
    injection g3 with e1 e2 e3 e4
    subst e1
    refine .copy x.st t b off s k src v h2 h3 ?_ h5
    rw [fullSource_remote g4 g2]; exact winSlice_some h4
  | winUnlock t b off s k h1 h2 h3 =>
    refine ⟨h.moved (p := .closed) (by rw [h1]; nofun) (by nofun) (by rw [h1]; rfl) ?_, .inl rfl⟩
    rintro b' k' ⟨off', s', e⟩ h5
    rw [h1] at h5
    rw [h2] at e
    injection e with _ _ _ e
    injection e with e
    subst e
    exact ⟨h5, h3⟩
  | leave t h1 => exact ⟨h.left (by rw [h1]; nofun) (by rw [h1]; rfl), .inl rfl⟩

theorem XferInv.start (l : CacheList) : XferInv c X data (XferSt.start c X l) := by
  refine ⟨fun t h => absurd rfl h, fun q t h => ?_, fun q => ?_, fun r h => absurd rfl h⟩
  · cases h
  · exact .none (fun _ _ => rfl) (fun _ => rfl) (fun _ => rfl)

theorem XferReach.inv (h : XferReach c X data x) :
    XferInv c X data x ∧ FullReach c X.F data x.st := by
  induction h with
  | init h =>
    obtain ⟨l, hl, rfl⟩ := h
    exact ⟨.start l, .init ⟨l, hl, rfl⟩⟩
  | step _ hs ih =>
    obtain ⟨i1, i2⟩ := ih
    obtain ⟨h1, h2⟩ := i1.step hs
    refine ⟨h1, ?_⟩
    rcases h2 with h2 | h2
    · rw [h2]; exact i2
    · exact .step i2 h2

end Asagi
