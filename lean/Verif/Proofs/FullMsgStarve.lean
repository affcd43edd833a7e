import Verif.Proofs.FullMsgLive
import Verif.Proofs.Starve
import Verif.Proofs.CacheLibStarve
/-
No starvation in distributed FULL grids with the implemented transfers: in a fair execution every
transfer ends, so that the mutex of a process is free again and again.
-/
namespace Asagi
open Spec
variable {α : Type} {c : LevelCfg α} {X : XferCfg α} {s0 : FullDist α} {x x' : XferSt α} {early : Bool}

/-- Steps of a thread in a transfer before its next step with the cache. -/
def xferPlace : XferPc α → Pc α → Nat
  | .out, .own _ _ _ (.load 0) => 7
  | .out, _ => 0
  | .locked, _ => 6
  | .sending _, _ => 5
  | .waiting, _ => 4
  | .storing _, _ => 1
  | .epoch, _ => 2
  | .closed, _ => 1

theorem xferPlace_le (p : XferPc α) (q : Pc α) : xferPlace p q ≤ 7 := by
  unfold xferPlace
  split <;> omega

/-- Steps of thread `t` before its getter returns. -/
def xferLeft (c : LevelCfg α) (X : XferCfg α) (t : Nat) (x : XferSt α) : Nat :=
  8 * stepsLeft (c.fullShared X.F) (x.st.pc (.user t)) + xferPlace (x.call t) (x.st.pc (.user t))

/-- Steps of a transfer itself. -/
theorem xfer_call (hb : 0 < c.totalBlockSize) {data : Nat → Mem α} (h : XferInv c X data x)
    (hs : XferStep c X data early x x') {t : Nat} (hp : x'.st.pc (.user t) = x.st.pc (.user t))
    (hc : x'.call t ≠ x.call t) :
    xferPlace (x'.call t) (x.st.pc (.user t)) < xferPlace (x.call t) (x.st.pc (.user t)) := by
  have key : ∀ {u p}, x'.call = upd x.call u p → t = u ∧ x'.call t = p := by
    intro u p e
    by_cases e1 : t = u
    · subst e1; exact ⟨rfl, by rw [e, upd_self]⟩
    · exact absurd (by rw [e, upd_ne _ _ e1]) hc
  cases hs with
  | call | other | near | store | get | take | answered => exact absurd rfl hc
  | lock u b off s h1 h2 h3 h4 h5 =>
    obtain ⟨rfl, e⟩ := key rfl
    rw [e, h1, h2]; exact (by decide : 6 < 7)
  | send u b off s h1 h2 h3 =>
    obtain ⟨rfl, e⟩ := key rfl
    rw [e, h2]; exact (by decide : 5 < 6)
  | sent u b off s tk h1 h2 h3 =>
    obtain ⟨rfl, e⟩ := key rfl
    rw [e, h1]; exact (by decide : 4 < 5)
  | recv u b off s m rest h1 h2 h3 =>
    obtain ⟨rfl, e⟩ := key rfl
    rw [e, h1]; exact (by decide : 1 < 4)
  | done u b off s k buf h1 h2 h3 =>
    obtain ⟨rfl, e⟩ := key rfl
    rw [e, h1, h2]
    obtain ⟨k, rfl⟩ : ∃ j, k = j + 1 := ⟨k - 1, by omega⟩
    exact (by decide : 0 < 1)
  | winLock u h1 h2 =>
    obtain ⟨rfl, e⟩ := key rfl
    rw [e, h2]; exact (by decide : 2 < 6)
  | winUnlock u b off s k h1 h2 h3 =>
    obtain ⟨rfl, e⟩ := key rfl
    rw [e, h1]; exact (by decide : 1 < 2)
  | leave u h1 =>
    obtain ⟨rfl, e⟩ := key rfl
    obtain ⟨-, -, b, off, s, k, g3, -, g5⟩ := h.hold t (by rw [h1]; nofun)
    rw [h1] at g5
    have g5 : c.totalBlockSize ≤ k := g5.2
    rw [e, h1, g3]
    obtain ⟨k, rfl⟩ : ∃ j, k = j + 1 := ⟨k - 1, by omega⟩
    exact (by decide : 0 < 1)

theorem tbs_pos (wf : c.WF) : 0 < c.totalBlockSize := by
  rw [wf.tbs]
  refine prod_pos fun y hy => ?_
  obtain ⟨d, hd, rfl⟩ := List.mem_map.1 hy
  exact (wf.geom d hd).1

/-- A thread stays where it is or comes closer to the end of its getter. -/
theorem xfer_forward (wf : c.WF) (hx : SizesExact c.fp c.file.size) (ho : FullOpened c X.F s0)
    (hr : XferReach c X s0.data x) (hs : XferStep c X s0.data early x x') {t : Nat}
    (hn : x.st.pc (.user t) ≠ .idle) :
    (x'.st.pc (.user t) = x.st.pc (.user t) ∧ x'.call t = x.call t) ∨
    xferLeft c X t x' < xferLeft c X t x := by
  obtain ⟨hi, hf⟩ := XferReach.inv hr
  have hI := ho.legal.inv (hf.dist wf hx ho)
  by_cases hp : x'.st.pc (.user t) = x.st.pc (.user t)
  · by_cases hc : x'.call t = x.call t
    · exact .inl ⟨hp, hc⟩
    · have := xfer_call (tbs_pos wf) hi hs hp hc
      refine .inr ?_
      unfold xferLeft
      rw [hp]; omega
  · refine .inr ?_
    rcases (hi.step hs).2 with e | hfs
    · exact absurd (by rw [e]) hp
    · have hu : UserStep (c.fullShared X.F) t x.st x'.st := by
        cases hfs.dist wf hx ho with
        | user u hu =>
          by_cases e : t = u
          · subst e; exact hu
          · exact absurd (user_other hu (by intro e1; injection e1 with e1; exact e e1)) hp
        | comm r hcm => exact absurd (comm_other hcm (a := .user t) nofun) hp
      have h1 := stepsLeft_lt hI nofun hu hn
      have h2 := xferPlace_le (x'.call t) (x'.st.pc (.user t))
      unfold xferLeft
      omega

/-- The mutex changes its owner only through a state in which it is free. -/
theorem xfer_mx {data : Nat → Mem α} (hs : XferStep c X data early x x') (q : Nat) :
    x'.mx q = x.mx q ∨ x.mx q = none ∨ x'.mx q = none := by
  have key : ∀ {u p}, x'.mx = upd x.mx u p → (x.mx u = none ∨ p = none) →
      x'.mx q = x.mx q ∨ x.mx q = none ∨ x'.mx q = none := by
    intro u p e hp
    by_cases e1 : q = u
    · subst e1
      rw [e, upd_self]
      exact .inr hp
    · rw [e, upd_ne _ _ e1]; exact .inl rfl
  cases hs with
  | lock u b off s h1 h2 h3 h4 h5 => exact key rfl (.inl h5)
  | done => exact key rfl (.inr rfl)
  | leave => exact key rfl (.inr rfl)
  | _ => exact .inl rfl

theorem xfer_comm {data : Nat → Mem α} (hs : XferStep c X data early x x') (r : Nat) :
    x'.comm r = x.comm r ∨ x.comm r = none ∨ x'.comm r = none := by
  have key : ∀ {u p}, x'.comm = upd x.comm u p → (x.comm u = none ∨ p = none) →
      x'.comm r = x.comm r ∨ x.comm r = none ∨ x'.comm r = none := by
    intro u p e hp
    by_cases e1 : r = u
    · subst e1
      rw [e, upd_self]
      exact .inr hp
    · rw [e, upd_ne _ _ e1]; exact .inl rfl
  cases hs with
  | take src r' m rest buf h1 => exact key rfl (.inl h1)
  | answered => exact key rfl (.inr rfl)
  | _ => exact .inl rfl

/-- A thread in a transfer can continue, unless its request was not yet answered. -/
theorem xfer_can (wf : c.WF) (hx : SizesExact c.fp c.file.size) (ho : FullOpened c X.F s0)
    (hr : XferReach c X s0.data x) {u : Nat} (h3 : x.call u ≠ .out) :
    (∃ x', XferMoves c X s0.data early (.user u) x x') ∨
    ∃ b off s k, x.st.pc (.user u) = .own b off s (.load k) ∧ x.wire (X.rankT u) (X.home c b) ≠ [] := by
  obtain ⟨hi, hf⟩ := XferReach.inv hr
  obtain ⟨-, g2, b, off, s, k, g3, g4, g5⟩ := hi.hold u h3
  obtain ⟨hb, src, f1, f2⟩ := hr.source wf hx ho g3
  have up : ∀ {p}, p ≠ x.call u → upd x.call u p u ≠ x.call u := fun h => by rw [upd_self]; exact h
  have un : ∀ {p : Pc α}, p ≠ x.st.pc (.user u) → upd x.st.pc (.user u) p (.user u) ≠ x.st.pc (.user u) :=
    fun h => by rw [upd_self]; exact h
  have aw : (x.call u).awaits = true → (∃ x', XferMoves c X s0.data early (.user u) x x') ∨
      ∃ b off s k, x.st.pc (.user u) = .own b off s (.load k) ∧
        x.wire (X.rankT u) (X.home c b) ≠ [] := by
    intro ha
    cases hi.chan (X.rankT u) with
    | none e1 e2 e3 => rw [e1 u rfl] at ha; cases ha
    | asked t b off s k e1 e2 e3 e4 e5 =>
      obtain rfl := hi.unique h3 (awaits_ne e2) e1
      exact .inr ⟨b, off, s, 0, e3, by rw [e4, if_pos rfl]; nofun⟩
    | told t b off s k buf e1 e2 e3 e4 e5 e6 =>
      obtain rfl := hi.unique h3 (awaits_ne e2) e1
      refine .inl ?_
      cases hc : x.call t with
      | sending tk =>
        refine ⟨_, .sent x t b off s tk hc e3 (.inr fun m hm => ?_), .inr (up (by rw [hc]; nofun))⟩
        rw [e4] at hm; cases hm
      | waiting =>
        refine ⟨_, .recv x t b off s ⟨k, buf⟩ [] hc e3 ?_, .inr (up (by rw [hc]; nofun))⟩
        rw [e6, if_pos rfl]
      | _ => rw [hc] at e2; cases e2
  have hload : Pc.own b off s (.load (k + 1)) ≠ x.st.pc (.user u) := by
    rw [g3]; intro e
    injection e with _ _ _ e
    injection e with e
    omega
  cases hc : x.call u with
  | out => exact absurd hc h3
  | locked =>
    rw [hc] at g5
    change k = 0 at g5
    subst g5
    cases hw : X.win with
    | false => exact .inl ⟨_, .send x u b off s hw hc g3, .inr (up (by rw [hc]; nofun))⟩
    | true => exact .inl ⟨_, .winLock x u hw hc, .inr (up (by rw [hc]; nofun))⟩
  | sending tk => exact aw (by rw [hc]; rfl)
  | waiting => exact aw (by rw [hc]; rfl)
  | storing buf =>
    rw [hc] at g5
    change fullSource c X.F s0.data (X.rankT u) b = some buf at g5
    rw [f1] at g5; injection g5 with g5; subst g5
    by_cases hk : k < c.totalBlockSize
    · exact .inl ⟨_, .store x u b off s k src src[k] hc g3 hk (List.getElem?_eq_getElem (by omega)),
        .inl (un hload)⟩
    · exact .inl ⟨_, .done x u b off s k src hc g3 (by omega), .inr (up (by rw [hc]; nofun))⟩
  | epoch =>
    by_cases hk : k < c.totalBlockSize
    · rw [fullSource_remote g4 g2] at f1
      refine .inl ⟨_, .get x u b off s k src src[k] hc g3 hk ?_ (List.getElem?_eq_getElem (by omega)),
        .inl (un hload)⟩
      unfold winSlice
      rw [if_pos (node_le ho.ranks ho.domains hb)]; exact f1
    · exact .inl ⟨_, .winUnlock x u b off s k hc g3 (by omega), .inr (up (by rw [hc]; nofun))⟩
  | closed => exact .inl ⟨_, .leave x u hc, .inr (up (by rw [hc]; nofun))⟩

section
variable {σ : Nat → XferSt α}

theorem xcourse_reach (hr : XferReach c X s0.data (σ 0)) (hc : CourseOf (XferStep c X s0.data early) σ) :
    ∀ n, XferReach c X s0.data (σ n) := by
  intro n
  induction n with
  | zero => exact hr
  | succ n ih =>
    rcases hc n with h | h
    · exact .step ih h.buffered
    · rw [h]; exact ih

variable (wf : c.WF) (hx : SizesExact c.fp c.file.size) (ho : FullOpened c X.F s0)
  (hr : ∀ n, XferReach c X s0.data (σ n)) (hc : CourseOf (XferStep c X s0.data early) σ)
  (hf : FairLocksOf (XferMoves c X s0.data early) XferOut σ)
include wf hx ho hr hc hf

/-- A thread that never returns can finally never continue. -/
theorem xfer_stuck {t n : Nat} (hb : ∀ m, n ≤ m → (σ m).st.pc (.user t) ≠ .idle) :
    ∃ N, n ≤ N ∧ ∀ m, N ≤ m → ∀ x', ¬ XferMoves c X s0.data early (.user t) (σ m) x' := by
  refine stuck_of_busy hf (a := .user t) (xferLeft c X t) (fun m hm => ?_) (fun m hm hmv => ?_)
    (n := n) hb
  · rcases hc m with hs | e
    · rcases xfer_forward wf hx ho (hr m) hs hm with ⟨e1, e2⟩ | h
      · unfold xferLeft; rw [e1, e2]
      · omega
    · rw [e]
  · rcases xfer_forward wf hx ho (hr m) hmv.1 hm with ⟨e1, e2⟩ | h
    · rcases hmv.2 with h | h
      · exact absurd e1 h
      · exact absurd e2 h
    · exact h

/-- A thread that keeps the mutex of its process is not kept from continuing by a reply that was sent. -/
theorem xfer_mail {r q N : Nat} (hm : ∀ m, N ≤ m → (σ m).mail r q ≠ []) : False := by
  have hi := fun n => (XferReach.inv (hr n)).1
  have told : ∀ m, N ≤ m → ∃ t b off s k buf, X.rankT t = q ∧ ((σ m).call t).awaits = true ∧
      (σ m).st.pc (.user t) = .own b off s (.load 0) ∧ (∀ r, (σ m).wire q r = []) ∧
      (∀ r, (σ m).mail r q = if r = X.home c b then [⟨k, buf⟩] else []) := by
    intro m h
    cases (hi m).chan q with
    | none e1 e2 e3 => exact absurd (e3 r) (hm m h)
    | asked t b off s k e1 e2 e3 e4 e5 => exact absurd (e5 r) (hm m h)
    | told t b off s k buf e1 e2 e3 e4 e5 e6 => exact ⟨t, b, off, s, k, buf, e1, e2, e3, e4, e6⟩
  obtain ⟨u, hu⟩ := held_forever (own := fun n => (σ n).mx q) (N := N) (fun n => by
      rcases hc n with h | h
      · exact xfer_mx h q
      · exact .inl (by simp only [h])) (fun m h => by
      obtain ⟨t, b, off, s, k, buf, e1, e2, -⟩ := told m h
      have := ((hi m).hold t (awaits_ne e2)).1
      rw [e1] at this
      simp only [this]; nofun)
  have hcall : ∀ m, N ≤ m → X.rankT u = q ∧ (σ m).call u ≠ .out := fun m h => (hi m).owner q u (hu m h)
  obtain ⟨M, hM, hst⟩ := xfer_stuck wf hx ho hr hc hf (t := u) (n := N) (fun m h => by
    obtain ⟨-, -, b, off, s, k, g3, -⟩ := (hi m).hold u (hcall m h).2
    rw [g3]; nofun)
  rcases xfer_can (early := early) wf hx ho (hr M) (hcall M hM).2 with ⟨x', h⟩ | ⟨b, off, s, k, -, h⟩
  · exact hst M (Nat.le_refl _) x' h
  · obtain ⟨t, b', off, s, k, buf, e1, e2, e3, e4, -⟩ := told M hM
    rw [(hcall M hM).1] at h
    exact h (e4 _)

/-- Every send of a reply ends. -/
theorem xfer_busy {r M : Nat} (hcm : ∀ m, M ≤ m → (σ m).comm r ≠ none) : False := by
  obtain ⟨⟨dst, tk⟩, hd⟩ := held_forever (own := fun n => (σ n).comm r) (N := M) (fun n => by
      rcases hc n with h | h
      · exact xfer_comm h r
      · exact .inl (by simp only [h])) hcm
  obtain ⟨K, hK, h⟩ := hf (.reply r) M
  rcases h with h | h | h
  · exact absurd h (hcm K hK)
  · exact absurd h.2.2 (hcm (K + 1) (by omega))
  · refine xfer_mail wf hx ho hr hc hf (r := r) (q := dst) (N := K) (fun m hm he => ?_)
    refine h m hm _ ⟨.answered _ r dst tk (hd m (by omega)) (.inr (by rw [he]; nofun)),
      hcm m (by omega), ?_⟩
    show upd (σ m).comm r none r = none
    rw [upd_self]

/-- Every request is finally received. -/
theorem xfer_wire {q r N : Nat} (hw : ∀ m, N ≤ m → (σ m).wire q r ≠ []) : False := by
  have hi := fun n => (XferReach.inv (hr n)).1
  have one : ∀ m, N ≤ m → ((σ m).wire q r).length = 1 := by
    intro m h
    cases (hi m).chan q with
    | none e1 e2 e3 => exact absurd (e2 r) (hw m h)
    | told t b off s k buf e1 e2 e3 e4 e5 e6 => exact absurd (e4 r) (hw m h)
    | asked t b off s k e1 e2 e3 e4 e5 =>
      have := e4 r
      split at this
      · rw [this]; rfl
      · exact absurd this (hw m h)
  obtain ⟨M, hM, hcm⟩ : ∃ M, N ≤ M ∧ ∀ m, M ≤ m → (σ m).comm r ≠ none := by
    obtain ⟨M, hM, h⟩ := hf (.request q r) N
    rcases h with h | h | h
    · exact absurd h (hw M hM)
    · have h := h.2
      change ((σ (M + 1)).wire q r).length < ((σ M).wire q r).length at h
      rw [one M hM, one (M + 1) (by omega)] at h
      omega
    · refine ⟨M, hM, fun m hm he => ?_⟩
      cases hl : (σ m).wire q r with
      | nil => exact hw m (by omega) hl
      | cons y rest =>
        obtain ⟨x', hq, e⟩ := Xfer.go_wire (early := early) wf hx ho (hr m) he hl
        refine h m hm x' ⟨hq.1, ?_⟩
        show (x'.wire q r).length < ((σ m).wire q r).length
        rw [e, hl, upd_self, upd_self]
        exact Nat.lt_succ_self _
  exact xfer_busy wf hx ho hr hc hf hcm

/-- The mutex of a process is free again and again. -/
theorem xfer_free (q N : Nat) : ∃ m, N ≤ m ∧ (σ m).mx q = none := by
  by_contra hne
  push Not at hne
  have hi := fun n => (XferReach.inv (hr n)).1
  obtain ⟨u, hu⟩ := held_forever (own := fun n => (σ n).mx q) (N := N) (fun n => by
      rcases hc n with h | h
      · exact xfer_mx h q
      · exact .inl (by simp only [h])) hne
  have hcall : ∀ m, N ≤ m → (σ m).call u ≠ .out := fun m h => ((hi m).owner q u (hu m h)).2
  obtain ⟨M, hM, hst⟩ := xfer_stuck wf hx ho hr hc hf (t := u) (n := N) (fun m h => by
    obtain ⟨-, -, b, off, s, k, g3, -⟩ := (hi m).hold u (hcall m h)
    rw [g3]; nofun)
  have hpc : ∀ m, M ≤ m → (σ m).st.pc (.user u) = (σ M).st.pc (.user u) :=
    forever (Q := fun m => (σ m).st.pc (.user u) = (σ M).st.pc (.user u)) rfl (fun m hm e => by
      show (σ (m + 1)).st.pc (.user u) = _
      rcases hc m with h | h
      · by_contra hne
        exact hst m hm _ ⟨h, .inl (fun e' => hne (e'.trans e))⟩
      · rw [h]; exact e)
  have hw : ∀ m, M ≤ m → ∃ b off s k, (σ m).st.pc (.user u) = .own b off s (.load k) ∧
      (σ m).wire (X.rankT u) (X.home c b) ≠ [] := by
    intro m hm
    rcases xfer_can (early := early) wf hx ho (hr m) (hcall m (by omega)) with ⟨x', h⟩ | h
    · exact absurd h (hst m hm x')
    · exact h
  obtain ⟨b, off, s, k, e, -⟩ := hw M (Nat.le_refl _)
  refine xfer_wire wf hx ho hr hc hf (q := X.rankT u) (r := X.home c b) (N := M) (fun m hm => ?_)
  obtain ⟨b', off', s', k', e', h⟩ := hw m hm
  rw [hpc m hm, e] at e'
  injection e' with e1
  subst e1
  exact h

/-- The steps with the caches are fair. -/
theorem xfer_fair : FairLocksOf (FullMoves c X.F s0.data) (fun t st => st.pc (.user t) = .idle)
    (fun n => (σ n).st) := by
  intro t n
  by_cases hidle : ∃ m, n ≤ m ∧ (σ m).st.pc (.user t) = .idle
  · obtain ⟨m, hm, h⟩ := hidle
    exact ⟨m, hm, .inl h⟩
  push Not at hidle
  have hi := fun n => (XferReach.inv (hr n)).1
  obtain ⟨M, hM, hst⟩ := xfer_stuck wf hx ho hr hc hf hidle
  have hsame : ∀ m, M ≤ m → (σ m).st.pc (.user t) = (σ M).st.pc (.user t) ∧ (σ m).call t = (σ M).call t :=
    forever (Q := fun m => (σ m).st.pc (.user t) = (σ M).st.pc (.user t) ∧ (σ m).call t = (σ M).call t)
      ⟨rfl, rfl⟩ (fun m hm e => by
        show (σ (m + 1)).st.pc (.user t) = _ ∧ _
        rcases hc m with h | h
        · refine ⟨?_, ?_⟩
          · by_contra hne
            exact hst m hm _ ⟨h, .inl (fun e' => hne (e'.trans e.1))⟩
          · by_contra hne
            exact hst m hm _ ⟨h, .inr (fun e' => hne (e'.trans e.2))⟩
        · rw [h]; exact e)
  have hout : ∀ m, M ≤ m → (σ m).call t = .out := by
    by_contra hne
    push Not at hne
    obtain ⟨m, hm, hne⟩ := hne
    obtain ⟨k, hk, hfree⟩ := xfer_free wf hx ho hr hc hf (X.rankT t) m
    have := ((hi k).hold t (by rw [(hsame k (by omega)).2, ← (hsame m hm).2]; exact hne)).1
    rw [hfree] at this; cases this
  refine ⟨M, hM, .inr (.inr fun k hk st' hmv => ?_)⟩
  obtain ⟨hs, hne⟩ := hmv
  cases hs with
  | call u pos h =>
    obtain ⟨idx, -, -, hid, rfl⟩ := h
    refine hne (upd_ne _ _ ?_)
    intro e; injection e with e
    subst e
    exact hidle k (by omega) hid
  | other u g1 g2 g3 =>
    by_cases e : t = u
    · subst e
      exact hst k hk _ ⟨.other _ t st' (hout k hk) g1 g2 g3, .inl hne⟩
    · exact hne (user_other g3 (by intro e1; injection e1 with e1; exact e e1))
  | copy u b off s j src v g1 g2 g3 g4 =>
    by_cases e : t = u
    case neg => exact hne (upd_ne _ _ (by intro e1; injection e1 with e1; exact e e1))
    subst e
    by_cases hm : X.F.trans ≠ .no ∧ X.home c b = X.rankT t
    · refine hst k hk _ ⟨.near _ t b off s j src v (hout k hk) g1 g2 hm.1 hm.2 ?_ g4, .inl hne⟩
      unfold fullSource at g3
      rw [if_pos hm] at g3; exact g3
    · have hmpi : X.F.hasMpi = true := by
        unfold fullSource at g3
        rw [if_neg hm] at g3
        split at g3
        · next h => exact h
        · cases g3
      rcases (hr k).whole t b off s j (hout k hk) g1 hm with hj | hj
      · subst hj
        obtain ⟨m, hm', hfree⟩ := xfer_free wf hx ho hr hc hf (X.rankT t) k
        refine hst m (by omega) _ ⟨.lock _ t b off s (hout m (by omega)) ?_ hm hmpi hfree, .inr ?_⟩
        · rw [(hsame m (by omega)).1, ← (hsame k hk).1]; exact g1
        · show upd (σ m).call t .locked t ≠ _
          rw [upd_self, hout m (by omega)]; nofun
      · omega
end
end Asagi
