import Verif.Proofs.FullMsg
/-
Distributed FULL grids with the implemented transfers: somebody can always continue, and executions
without new calls are finite.
-/
namespace Asagi
open Spec Props
variable {α : Type} {c : LevelCfg α} {X : XferCfg α} {data : Nat → Mem α} {x x' : XferSt α}

theorem XferStep.buffered {early : Bool} (h : XferStep c X data early x x') :
    XferStep c X data true x x' := by
  cases h with
  | call t pos st' h1 => exact .call _ t pos st' h1
  | other t st' h1 h2 h3 h4 => exact .other _ t st' h1 h2 h3 h4
  | near t b off s k src v h1 h2 h3 h4 h5 h6 h7 => exact .near _ t b off s k src v h1 h2 h3 h4 h5 h6 h7
  | lock t b off s h1 h2 h3 h4 h5 => exact .lock _ t b off s h1 h2 h3 h4 h5
  | send t b off s h1 h2 h3 => exact .send _ t b off s h1 h2 h3
  | sent t b off s ticket h1 h2 h3 => exact .sent _ t b off s ticket h1 h2 (.inl rfl)
  | recv t b off s m rest h1 h2 h3 => exact .recv _ t b off s m rest h1 h2 h3
  | store t b off s k buf v h1 h2 h3 h4 => exact .store _ t b off s k buf v h1 h2 h3 h4
  | done t b off s k buf h1 h2 h3 => exact .done _ t b off s k buf h1 h2 h3
  | take src r m rest buf h1 h2 h3 h4 => exact .take _ src r m rest buf h1 h2 h3 h4
  | answered r dst ticket h1 h2 => exact .answered _ r dst ticket h1 (.inl rfl)
  | winLock t h1 h2 => exact .winLock _ t h1 h2
  | get t b off s k src v h1 h2 h3 h4 h5 => exact .get _ t b off s k src v h1 h2 h3 h4 h5
  | winUnlock t b off s k h1 h2 h3 => exact .winUnlock _ t b off s k h1 h2 h3
  | leave t h1 => exact .leave _ t h1

/-- Blocks of other processes are received completely. -/
def XferWhole (c : LevelCfg α) (X : XferCfg α) (x : XferSt α) : Prop :=
  ∀ t b off s k, x.call t = .out → x.st.pc (.user t) = .own b off s (.load k) → X.remote c t b →
    k = 0 ∨ c.totalBlockSize ≤ k

theorem user_load {P : DistParams α} {t b off s k : Nat} {st st' : DistState α}
    (hl : ∀ b off s k, st.pc (.user t) = .own b off s (.load k) → P.cells ≤ k)
    (hs : UserStep P t st st') (hp : st'.pc (.user t) = .own b off s (.load k)) : k = 0 := by
  cases hs with
  | loadCell _ _ b' off' s' k' v h1 h2 => have := hl _ _ _ _ h1; omega
  | xferNone _ _ b' off' s' e h1 h2 =>
    simp only [DistState.goto, upd_self] at hp
    injection hp with _ _ _ hp
    injection hp with hp
    exact hp.symm
  | lockSlot _ _ b' off' s' old h1 h2 =>
    simp only [upd_self] at hp
    injection hp with _ _ _ hp
    split at hp <;> cases hp
  | _ => simp_all [DistState.goto, sendOp_pc]

theorem XferWhole.step {early : Bool} (hi : XferInv c X data x) (h : XferWhole c X x)
    (hs : XferStep c X data early x x') : XferWhole c X x' := by
  have same : ∀ t, x.call t ≠ .out → ∀ p, p ≠ .out → ∀ y : XferSt α, y.st = x.st →
      y.call = upd x.call t p → XferWhole c X y := by
    intro t ht p hp y e1 e2 u b off s k h1 h2 h3
    rw [e2] at h1
    rw [e1] at h2
    by_cases e : u = t
    · subst e; rw [upd_self] at h1; exact absurd h1 hp
    · rw [upd_ne _ _ e] at h1; exact h u b off s k h1 h2 h3
  have copies : ∀ (st' : DistState α) t, x.call t ≠ .out → (∀ u, u ≠ t → st'.pc (.user u) = x.st.pc (.user u)) →
      XferWhole c X { x with st := st' } := by
    intro st' t ht ho u b off s k h1 h2 h3
    have : u ≠ t := by rintro rfl; exact ht h1
    exact h u b off s k h1 ((ho u this).symm.trans h2) h3
  have leaves : ∀ t b off s k, x.st.pc (.user t) = .own b off s (.load k) → c.totalBlockSize ≤ k →
      XferWhole c X { x with mx := upd x.mx (X.rankT t) none, call := upd x.call t .out } := by
    intro t b off s k hp hk u b' off' s' k' h1 h2 h3
    by_cases e : u = t
    · subst e
      change x.st.pc _ = _ at h2
      rw [hp] at h2
      injection h2 with _ _ _ h2
      injection h2 with h2
      subst h2; exact .inr hk
    · change upd x.call t .out u = _ at h1
      rw [upd_ne _ _ e] at h1; exact h u b' off' s' k' h1 h2 h3
  cases hs with
  | call t pos st' hc =>
    obtain ⟨idx, -, -, hidle, rfl⟩ := hc
    intro u b off s k h1 h2 h3
    by_cases e : u = t
    · subst e
      change upd x.st.pc _ _ _ = _ at h2
      rw [upd_self] at h2; cases h2
    · change upd x.st.pc _ _ _ = _ at h2
      rw [upd_ne _ _ (user_ne' e)] at h2
      exact h u b off s k h1 h2 h3
  | other t st' h1 h2 h3 h4 =>
    intro u b off s k g1 g2 g3
    by_cases e : u = t
    · subst e
      exact .inl (user_load h3 h4 g2)
    · change st'.pc _ = _ at g2
      rw [user_other h4 (user_ne' e)] at g2
      exact h u b off s k g1 g2 g3
  | near t b off s k src v h1 h2 h3 h4 h5 h6 h7 =>
    intro u b' off' s' k' g1 g2 g3
    by_cases e : u = t
    · subst e
      change upd x.st.pc _ _ _ = _ at g2
      rw [upd_self] at g2
      injection g2 with g2 _ _ _
      subst g2
      exact absurd ⟨h4, h5⟩ g3
    · change upd x.st.pc _ _ _ = _ at g2
      rw [upd_ne _ _ (user_ne' e)] at g2
      exact h u b' off' s' k' g1 g2 g3
  | lock t b off s h1 h2 =>
    intro u b' off' s' k' g1 g2 g3
    by_cases e : u = t
    · subst e
      change upd x.call u .locked u = _ at g1
      rw [upd_self] at g1; cases g1
    · change upd x.call t .locked u = _ at g1
      rw [upd_ne _ _ e] at g1
      exact h u b' off' s' k' g1 g2 g3
  | send t b off s h0 h1 h2 => exact same t (by rw [h1]; nofun) (.sending x.next) nofun _ rfl rfl
  | sent t b off s ticket h1 => exact same t (by rw [h1]; nofun) .waiting nofun _ rfl rfl
  | recv t b off s m rest h1 => exact same t (by rw [h1]; nofun) (.storing m.buf) nofun _ rfl rfl
  | store t b off s k buf v h1 => exact copies _ t (by rw [h1]; nofun) fun u e => upd_ne _ _ (user_ne' e)
  | done t b off s k buf h1 h2 h3 => exact leaves t b off s k h2 h3
  | take => exact h
  | answered => exact h
  | winLock t h0 h1 => exact same t (by rw [h1]; nofun) .epoch nofun _ rfl rfl
  | get t b off s k src v h1 => exact copies _ t (by rw [h1]; nofun) fun u e => upd_ne _ _ (user_ne' e)
  | winUnlock t b off s k h1 => exact same t (by rw [h1]; nofun) .closed nofun _ rfl rfl
  | leave t h1 =>
    obtain ⟨-, -, b, off, s, k, h3, -, h5⟩ := hi.hold t (by rw [h1]; nofun)
    rw [h1] at h5
    exact leaves t b off s k h3 h5.2

theorem XferReach.whole (h : XferReach c X data x) : XferWhole c X x := by
  induction h with
  | init h =>
    obtain ⟨l, -, rfl⟩ := h
    intro t b off s k _ h2
    cases h2
  | step hr hs ih => exact ih.step (XferReach.inv hr).1 hs

/-! ### Progress -/

theorem xquiet_of_same {early : Bool} (hs : XferStep c X data early x x') (hp : x'.st = x.st) :
    XferQuiet c X data early x x' := ⟨hs, fun t ht => by rw [hp]; exact ht⟩

theorem xquiet_of_own {early : Bool} (hs : XferStep c X data early x x') {t : Nat}
    (hn : x.st.pc (.user t) ≠ .idle) {p : Pc α} (hp : x'.st.pc = upd x.st.pc (.user t) p) :
    XferQuiet c X data early x x' :=
  ⟨hs, fun u hu => by
    rw [hp]
    by_cases e : u = t
    · subst e; exact absurd hu hn
    · rw [upd_ne _ _ (user_ne' e)]; exact hu⟩

/-- All values of a block belong to the window. -/
theorem node_le {ds : Dist} (hr : 0 < ds.ranks) (hd : 0 < ds.domains) {n b bs : Nat} (hb : b < n) :
    ds.blockNodeOffset n b * bs + bs ≤ ds.localBlockCount n * bs * ds.domains := by
  obtain ⟨-, o2, o3⟩ := Dist.owner_bounds hr hd hb
  unfold Dist.blockNodeOffset
  have h1 : ds.blockOffset n b + ds.blockDomain n b * ds.localBlockCount n + 1 ≤
      ds.domains * ds.localBlockCount n := by
    calc _ ≤ ds.localBlockCount n + ds.blockDomain n b * ds.localBlockCount n := by omega
      _ = (ds.blockDomain n b + 1) * ds.localBlockCount n := by rw [Nat.add_mul, Nat.one_mul, Nat.add_comm]
      _ ≤ _ := Nat.mul_le_mul_right _ o2
  calc _ = (ds.blockOffset n b + ds.blockDomain n b * ds.localBlockCount n + 1) * bs := by
        rw [Nat.add_mul _ 1, Nat.one_mul]
    _ ≤ ds.domains * ds.localBlockCount n * bs := Nat.mul_le_mul_right _ h1
    _ = _ := by rw [Nat.mul_assoc, Nat.mul_comm]

/-- A thread that waits for a reply that was sent. -/
theorem XferInv.go_told {early : Bool} (h : XferInv c X data x) {q r : Nat} (hm : x.mail r q ≠ []) :
    ∃ x', XferQuiet c X data early x x' ∧ x'.wire = x.wire := by
  cases h.chan q with
  | none e1 e2 e3 => exact absurd (e3 r) hm
  | asked t b off s k e1 e2 e3 e4 e5 => exact absurd (e5 r) hm
  | told t b off s k buf e1 e2 e3 e4 e5 e6 =>
    cases hc : x.call t with
    | sending tk =>
      refine ⟨_, xquiet_of_same (.sent x t b off s tk hc e3 (.inr fun m hm => ?_)) rfl, rfl⟩
      rw [e1, e4] at hm; cases hm
    | waiting =>
      refine ⟨_, xquiet_of_same (.recv x t b off s ⟨k, buf⟩ [] hc e3 ?_) rfl, rfl⟩
      rw [e1, e6, if_pos rfl]
    | _ => rw [hc] at e2; cases e2

/-- A communication thread that waits for the end of its send, or the receiver, can continue. -/
theorem XferInv.go_comm {early : Bool} (h : XferInv c X data x) {r : Nat} (hr : x.comm r ≠ none) :
    ∃ x', XferQuiet c X data early x x' ∧ x'.wire = x.wire := by
  cases hc : x.comm r with
  | none => exact absurd hc hr
  | some p =>
    obtain ⟨dst, tk⟩ := p
    by_cases hm : x.mail r dst = []
    · exact ⟨_, xquiet_of_same (.answered x r dst tk hc (.inr (by rw [hm]; nofun))) rfl, rfl⟩
    · exact h.go_told hm

theorem XferReach.source {s0 : FullDist α} (wf : c.WF) (hx : SizesExact c.fp c.file.size)
    (ho : FullOpened c X.F s0) (hr : XferReach c X s0.data x) {u b off s k : Nat}
    (hp : x.st.pc (.user u) = .own b off s (.load k)) : b < c.totalBlocks ∧
      ∃ src, fullSource c X.F s0.data (X.rankT u) b = some src ∧ src.length = c.totalBlockSize := by
  have hI := ho.legal.inv ((XferReach.inv hr).2.dist wf hx ho)
  obtain ⟨⟨-, idx, hl, hin, rfl, rfl⟩, -⟩ := hI.own u b off s _ hp
  have hbox : InBox c.file.size idx := inBox_of_getElem? hl (fun {k a b} ha hb => hin k a b ha hb)
  obtain ⟨src, e1, e2, -⟩ := fullSource_spec (ho.static wf) ho.ranks ho.domains ho.reach (ho.rank u)
    (block_lt wf hbox).1
  exact ⟨(block_lt wf hbox).1, src, e1, e2⟩

/-- A message that arrives at an idle communication thread is taken. -/
theorem Xfer.go_wire {s0 : FullDist α} (wf : c.WF) (hx : SizesExact c.fp c.file.size)
    (ho : FullOpened c X.F s0) {early : Bool} (hr : XferReach c X s0.data x) {q r : Nat} {m : Msg}
    {rest : List Msg} (h1 : x.comm r = none) (hw : x.wire q r = m :: rest) :
    ∃ x', XferQuiet c X s0.data early x x' ∧ x'.wire = upd x.wire q (upd (x.wire q) r rest) := by
  obtain ⟨hi, hf⟩ := XferReach.inv hr
  cases hi.chan q with
  | none e1 e2 e3 => rw [e2] at hw; cases hw
  | told t b off s k buf e1 e2 e3 e4 e5 e6 => rw [e4] at hw; cases hw
  | asked t b off s k e1 e2 e3 e4 e5 =>
    obtain ⟨-, g2, b', off', s', k', g3, g4, -⟩ := hi.hold t (awaits_ne e2)
    rw [e3] at g3
    injection g3 with f1 _ _ _
    subst f1
    obtain ⟨-, src, f1, -⟩ := hr.source wf hx ho e3
    rw [fullSource_remote g4 g2] at f1
    have hw' := e4 r
    rw [hw] at hw'
    split at hw'
    · next e =>
      subst e
      injection hw' with w1 w2
      subst w1 w2
      exact ⟨_, xquiet_of_same (.take x q (X.home c b) _ [] src h1 hw rfl f1) rfl, rfl⟩
    · cases hw'

theorem Xfer.progress {s0 : FullDist α} (wf : c.WF) (hx : SizesExact c.fp c.file.size)
    (ho : FullOpened c X.F s0) {early : Bool} (hr : XferReach c X s0.data x) {t : Nat}
    (hn : x.st.pc (.user t) ≠ .idle) : ∃ x', XferQuiet c X s0.data early x x' := by
  obtain ⟨hi, hf⟩ := XferReach.inv hr
  have hI := ho.legal.inv (hf.dist wf hx ho)
  have hsrc : ∀ {u b off s k}, x.st.pc (.user u) = .own b off s (.load k) →
      b < c.totalBlocks ∧ ∃ src, fullSource c X.F s0.data (X.rankT u) b = some src ∧
        src.length = c.totalBlockSize := hr.source wf hx ho
  by_cases h1 : ∀ r, x.comm r = none
  case neg =>
    obtain ⟨r, h1⟩ := not_forall.1 h1
    obtain ⟨x', hq, -⟩ := hi.go_comm (early := early) h1
    exact ⟨x', hq⟩
  by_cases h2 : ∀ q r, x.wire q r = []
  case neg =>
    obtain ⟨q, h2⟩ := not_forall.1 h2
    obtain ⟨r, h2⟩ := not_forall.1 h2
    cases hw : x.wire q r with
    | nil => exact absurd hw h2
    | cons m rest =>
      obtain ⟨x', hq, -⟩ := Xfer.go_wire (early := early) wf hx ho hr (h1 r) hw
      exact ⟨x', hq⟩
  by_cases h3 : ∀ t, x.call t = .out
  case neg =>
    obtain ⟨u, h3⟩ := not_forall.1 h3
    obtain ⟨-, g2, b, off, s, k, g3, g4, g5⟩ := hi.hold u h3
    have hni : x.st.pc (.user u) ≠ .idle := by rw [g3]; nofun
    obtain ⟨hb, src, f1, f2⟩ := hsrc g3
    cases hc : x.call u with
    | out => exact absurd hc h3
    | locked =>
      rw [hc] at g5
      change k = 0 at g5
      subst g5
      cases hw : X.win with
      | false => exact ⟨_, xquiet_of_same (.send x u b off s hw hc g3) rfl⟩
      | true => exact ⟨_, xquiet_of_same (.winLock x u hw hc) rfl⟩
    | sending tk =>
      rw [hc] at g5
      have g5 : k = 0 := g5.1
      subst g5
      exact ⟨_, xquiet_of_same (.sent x u b off s tk hc g3 (.inr (by rw [h2]; nofun))) rfl⟩
    | waiting =>
      have ha : (x.call u).awaits = true := by rw [hc]; rfl
      cases hi.chan (X.rankT u) with
      | none e1 e2 e3 => rw [e1 u rfl] at ha; cases ha
      | asked t b off s k e1 e2 e3 e4 e5 =>
        have := e4 (X.home c b)
        rw [h2, if_pos rfl] at this; cases this
      | told t b off s k buf e1 e2 e3 e4 e5 e6 =>
        obtain ⟨x', hq, -⟩ := hi.go_told (early := early) (q := X.rankT u) (r := X.home c b)
          (by rw [e6, if_pos rfl]; nofun)
        exact ⟨x', hq⟩
    | storing buf =>
      rw [hc] at g5
      change fullSource c X.F s0.data (X.rankT u) b = some buf at g5
      rw [f1] at g5; injection g5 with g5; subst g5
      by_cases hk : k < c.totalBlockSize
      · exact ⟨_, xquiet_of_own (.store x u b off s k src src[k] hc g3 hk
          (List.getElem?_eq_getElem (by omega))) hni (p := .own b off s (.load (k + 1))) rfl⟩
      · exact ⟨_, xquiet_of_same (.done x u b off s k src hc g3 (by omega)) rfl⟩
    | epoch =>
      by_cases hk : k < c.totalBlockSize
      · rw [fullSource_remote g4 g2] at f1
        refine ⟨_, xquiet_of_own (.get x u b off s k src src[k] hc g3 hk ?_
          (List.getElem?_eq_getElem (by omega))) hni (p := .own b off s (.load (k + 1))) rfl⟩
        unfold winSlice
        rw [if_pos (node_le ho.ranks ho.domains hb)]; exact f1
      · exact ⟨_, xquiet_of_same (.winUnlock x u b off s k hc g3 (by omega)) rfl⟩
    | closed => exact ⟨_, xquiet_of_same (.leave x u hc) rfl⟩
  obtain ⟨st', hq1, hq2⟩ := full_progress wf hx ho hf hn
  cases hq1 with
  | call u pos hc =>
    obtain ⟨idx, -, -, hidle, rfl⟩ := hc
    have := hq2 u hidle
    change upd x.st.pc (.user u) _ (.user u) = _ at this
    rw [upd_self] at this; cases this
  | other u g1 g2 g3 => exact ⟨_, .other x u st' (h3 u) g1 g2 g3, hq2⟩
  | copy u b off s k src v g1 g2 g3 g4 =>
    have hni : x.st.pc (.user u) ≠ .idle := by rw [g1]; nofun
    by_cases hm : X.F.trans ≠ .no ∧ X.home c b = X.rankT u
    · refine ⟨_, .near x u b off s k src v (h3 u) g1 g2 hm.1 hm.2 ?_ g4, hq2⟩
      unfold fullSource at g3
      rw [if_pos hm] at g3; exact g3
    · have hmpi : X.F.hasMpi = true := by
        unfold fullSource at g3
        rw [if_neg hm] at g3
        split at g3
        · next h => exact h
        · cases g3
      rcases hr.whole u b off s k (h3 u) g1 hm with hk | hk
      · subst hk
        refine ⟨_, xquiet_of_same (.lock x u b off s (h3 u) g1 hm hmpi ?_) rfl⟩
        cases he : x.mx (X.rankT u) with
        | none => rfl
        | some v => exact absurd (h3 v) (hi.owner _ _ he).2
      · omega

/-! ### The length of executions -/

open Classical in
/-- The steps of a transfer before its thread does the next step with the cache. -/
noncomputable def XferSt.tPot (X : XferCfg α) (x : XferSt α) (t : Nat) : Nat :=
  match x.call t, x.st.pc (.user t) with
  | .out, .own _ _ _ (.load 0) => 7
  | .out, _ => 0
  | .locked, _ => 6
  | .sending _, _ => if ∀ r, x.wire (X.rankT t) r = [] then 3 else 5
  | .waiting, _ => if ∀ r, x.wire (X.rankT t) r = [] then 2 else 4
  | .storing _, _ => 1
  | .epoch, _ => 2
  | .closed, _ => 1

def XferSt.rPot (x : XferSt α) (r : Nat) : Nat := if x.comm r = none then 0 else 1

def XferSt.Pot (X : XferCfg α) (x : XferSt α) (m : Nat) : Prop :=
  ∃ T R : Finset Nat, Supp T (x.tPot X) ∧ Supp R x.rPot ∧
    (∑ t ∈ T, x.tPot X t) + (∑ r ∈ R, x.rPot r) = m

theorem XferSt.tPot_le (x : XferSt α) (t : Nat) : x.tPot X t ≤ 7 := by
  unfold XferSt.tPot
  split <;> first | omega | (split <;> omega)

theorem XferSt.rPot_le (x : XferSt α) (r : Nat) : x.rPot r ≤ 1 := by
  unfold XferSt.rPot; split <;> omega

theorem tPot_congr {t : Nat} (h1 : x'.call t = x.call t)
    (h2 : x'.st.pc (.user t) = x.st.pc (.user t))
    (h3 : (x.call t).awaits = true → x'.wire (X.rankT t) = x.wire (X.rankT t)) :
    x'.tPot X t = x.tPot X t := by
  unfold XferSt.tPot
  rw [h1, h2]
  revert h3
  cases x.call t with
  | sending => intro h3; simp only; rw [h3 rfl]
  | waiting => intro h3; simp only; rw [h3 rfl]
  | out =>
    intro _
    cases x.st.pc (.user t) with
    | own b off s ph =>
      cases ph with
      | load k => cases k <;> rfl
      | _ => rfl
    | _ => rfl
  | _ => intro _; rfl

/-- Steps of the caches. -/
theorem pot_up {m t : Nat} (h1 : x'.call = x.call)
    (h2 : ∀ u, u ≠ t → x'.st.pc (.user u) = x.st.pc (.user u)) (h3 : x'.wire = x.wire)
    (h4 : x'.comm = x.comm) (hp : x.Pot X m) : ∃ m', x'.Pot X m' ∧ m' ≤ m + 7 := by
  obtain ⟨T, R, g1, g2, g3⟩ := hp
  obtain ⟨a1, a2⟩ := sum_change (f' := x'.tPot X) (u := t) g1 fun u hu =>
    tPot_congr (by rw [h1]) (h2 u hu) fun _ => by rw [h3]
  have hR : x'.rPot = x.rPot := by funext r; unfold XferSt.rPot; rw [h4]
  refine ⟨_, ⟨_, R, a1, by rw [hR]; exact g2, rfl⟩, ?_⟩
  have := x'.tPot_le (X := X) t
  rw [hR]; omega

/-- Steps of a transfer. -/
theorem pot_down {m t r : Nat} (h1 : ∀ u, u ≠ t → x'.tPot X u = x.tPot X u)
    (h2 : ∀ r', r' ≠ r → x'.rPot r' = x.rPot r')
    (h3 : x'.tPot X t + x'.rPot r < x.tPot X t + x.rPot r) (hp : x.Pot X m) :
    ∃ m', x'.Pot X m' ∧ m' + 1 ≤ m := by
  obtain ⟨T, R, g1, g2, g3⟩ := hp
  obtain ⟨a1, a2⟩ := sum_change g1 h1
  obtain ⟨b1, b2⟩ := sum_change g2 h2
  exact ⟨_, ⟨_, _, a1, b1, rfl⟩, by omega⟩

/-- Steps of a transfer by its own thread. -/
theorem pot_own {m t : Nat} (hst : x'.st = x.st) (hc : ∀ u, u ≠ t → x'.call u = x.call u)
    (hw : ∀ u, u ≠ t → (x.call u).awaits = true → x'.wire (X.rankT u) = x.wire (X.rankT u))
    (hm : x'.comm = x.comm) (hlt : x'.tPot X t < x.tPot X t) (hp : x.Pot X m) :
    ∃ m', x'.Pot X m' ∧ m' + 1 ≤ m := by
  have hR : ∀ r, x'.rPot r = x.rPot r := by intro r; unfold XferSt.rPot; rw [hm]
  refine pot_down (t := t) (r := 0) (fun u hu => tPot_congr (hc u hu) (by rw [hst]) (hw u hu))
    (fun r _ => hR r) ?_ hp
  rw [hR]; omega

theorem XferInv.pot {early : Bool} (hb : 0 < c.totalBlockSize) (h : XferInv c X data x)
    (hs : XferStep c X data early x x') {m : Nat} (hp : x.Pot X m) :
    (x'.st = x.st ∧ ∃ m', x'.Pot X m' ∧ m' + 1 ≤ m) ∨
    (FullStep c X.F data x.st x'.st ∧ ∃ m', x'.Pot X m' ∧ m' ≤ m + 7) := by
  have hst := (h.step hs).2
  have up : ∀ t, (∃ y : DistState α, x' = { x with st := y } ∧
      ∀ u, u ≠ t → y.pc (.user u) = x.st.pc (.user u)) → ∃ m', x'.Pot X m' ∧ m' ≤ m + 7 := by
    rintro t ⟨y, rfl, hy⟩
    exact pot_up (x := x) (t := t) rfl hy rfl rfl hp
  cases hs with
  | call t pos st' hc =>
    refine .inr ⟨.call t pos hc, up t ⟨st', rfl, ?_⟩⟩
    obtain ⟨idx, -, -, -, rfl⟩ := hc
    exact fun u hu => upd_ne _ _ (user_ne' hu)
  | other t st' h1 h2 h3 h4 =>
    exact .inr ⟨.other t h2 h3 h4, up t ⟨st', rfl, fun u hu => user_other h4 (user_ne' hu)⟩⟩
  | near t b off s k src v h1 h2 h3 h4 h5 h6 h7 =>
    refine .inr ⟨.copy x.st t b off s k src v h2 h3 ?_ h7,
      up t ⟨_, rfl, fun u hu => upd_ne _ _ (user_ne' hu)⟩⟩
    unfold fullSource
    rw [if_pos ⟨h4, h5⟩]; exact h6
  | lock t b off s h1 h2 h3 h4 h5 =>
    refine .inl ⟨rfl, pot_own (x := x) (t := t) rfl (fun u hu => upd_ne _ _ hu) (fun _ _ _ => rfl) rfl ?_ hp⟩
    simp [XferSt.tPot, h1, h2]
  | send t b off s h0 h1 h2 =>
    have hn : x.call t ≠ .out := by rw [h1]; nofun
    refine .inl ⟨rfl, pot_own (x := x) (t := t) rfl (fun u hu => upd_ne _ _ hu) (fun u hu ha => ?_) rfl ?_ hp⟩
    · refine upd_ne _ _ fun e => hu (h.unique hn (awaits_ne ha) e)
    · have : x.tPot X t = 6 := by simp [XferSt.tPot, h1]
      rw [this]
      simp only [XferSt.tPot, upd_self]
      split <;> omega
  | sent t b off s ticket h1 h2 h3 =>
    refine .inl ⟨rfl, pot_own (x := x) (t := t) rfl (fun u hu => upd_ne _ _ hu) (fun _ _ _ => rfl) rfl ?_ hp⟩
    simp only [XferSt.tPot, upd_self, h1]
    split <;> omega
  | recv t b off s m rest h1 h2 h3 =>
    refine .inl ⟨rfl, pot_own (x := x) (t := t) rfl (fun u hu => upd_ne _ _ hu) (fun _ _ _ => rfl) rfl ?_ hp⟩
    simp only [XferSt.tPot, upd_self, h1]
    split <;> omega
  | store t b off s k buf v h1 h2 h3 h4 =>
    refine .inr ⟨?_, up t ⟨_, rfl, fun u hu => upd_ne _ _ (user_ne' hu)⟩⟩
    obtain ⟨g1, g2, b', off', s', k', g3, g4, g5⟩ := h.hold t (by rw [h1]; nofun)
    rw [h2] at g3
    injection g3 with e1 e2 e3 e4
    subst e1
    rw [h1] at g5
    exact .copy x.st t b off s k buf v h2 h3 g5 h4
  | done t b off s k buf h1 h2 h3 =>
    refine .inl ⟨rfl, pot_own (x := x) (t := t) rfl (fun u hu => upd_ne _ _ hu) (fun _ _ _ => rfl) rfl ?_ hp⟩
    obtain ⟨k, rfl⟩ : ∃ j, k = j + 1 := ⟨k - 1, by omega⟩
    simp only [XferSt.tPot, upd_self, h1, h2]
    omega
  | take src r m rest buf h1 h2 h3 h4 =>
    cases h.chan src with
    | none e1 e2 e3 => rw [e2] at h2; cases h2
    | told t b off s k buf e1 e2 e3 e4 e5 e6 => rw [e4] at h2; cases h2
    | asked t b off s k e1 e2 e3 e4 e5 =>
      rw [e4] at h2
      split at h2
      · next hr =>
        injection h2 with f1 f2
        subst f1 f2
        refine .inl ⟨rfl, pot_down (x := x) (t := t) (r := r) (fun u hu => ?_) (fun r' hr' => ?_) ?_ hp⟩
        · refine tPot_congr rfl rfl fun ha => upd_ne _ _ fun e => hu ?_
          exact h.unique (awaits_ne e2) (awaits_ne ha) (e.trans e1.symm)
        · unfold XferSt.rPot
          show (if upd x.comm r _ r' = none then 0 else 1) = _
          rw [upd_ne _ _ hr']
        · have p1 : x.rPot r = 0 := by unfold XferSt.rPot; rw [if_pos h1]
          have w1 : ¬ ∀ r, x.wire (X.rankT t) r = [] := by
            intro hw
            have := hw r
            rw [e1, e4, if_pos hr] at this; cases this
          have w2 : ∀ r', upd x.wire src (upd (x.wire src) r []) (X.rankT t) r' = [] := by
            intro r'
            rw [e1, upd_self]
            by_cases e : r' = r
            · subst e; exact upd_self _ _ _
            · rw [upd_ne _ _ e, e4, if_neg fun e' => e (e'.trans hr.symm)]
          have hle : ∀ y : XferSt α, y.rPot r ≤ 1 := fun y => y.rPot_le r
          have h1 := hle { x with
            wire := upd x.wire src (upd (x.wire src) r [])
            mail := upd x.mail r (upd (x.mail r) src (x.mail r src ++ [⟨x.next, buf⟩]))
            comm := upd x.comm r (some (src, x.next))
            next := x.next + 1 }
          rw [p1]
          refine Nat.lt_of_le_of_lt (Nat.add_le_add_left h1 _) ?_
          unfold XferSt.tPot
          cases hc : x.call t with
          | sending tk => simp only; rw [if_neg w1, if_pos w2]; omega
          | waiting => simp only; rw [if_neg w1, if_pos w2]; omega
          | _ => rw [hc] at e2; cases e2
      · cases h2
  | answered r dst ticket h1 h2 =>
    refine .inl ⟨rfl, pot_down (x := x) (t := 0) (r := r) (fun u hu => tPot_congr rfl rfl fun _ => rfl)
      (fun r' hr' => ?_) ?_ hp⟩
    · unfold XferSt.rPot
      show (if upd x.comm r none r' = none then 0 else 1) = _
      rw [upd_ne _ _ hr']
    · have : ∀ y : XferSt α, y = { x with comm := upd x.comm r none } → y.tPot X 0 = x.tPot X 0 := by
        rintro y rfl; exact tPot_congr rfl rfl fun _ => rfl
      rw [this _ rfl]
      simp [XferSt.rPot, h1]
  | winLock t h0 h1 =>
    refine .inl ⟨rfl, pot_own (x := x) (t := t) rfl (fun u hu => upd_ne _ _ hu) (fun _ _ _ => rfl) rfl ?_ hp⟩
    simp only [XferSt.tPot, upd_self, h1]
    omega
  | get t b off s k src v h1 h2 h3 h4 h5 =>
    refine .inr ⟨?_, up t ⟨_, rfl, fun u hu => upd_ne _ _ (user_ne' hu)⟩⟩
    obtain ⟨g1, g2, b', off', s', k', g3, g4, g5⟩ := h.hold t (by rw [h1]; nofun)
    rw [h2] at g3
    injection g3 with e1 e2 e3 e4
    subst e1
    refine .copy x.st t b off s k src v h2 h3 ?_ h5
    rw [fullSource_remote g4 g2]; exact winSlice_some h4
  | winUnlock t b off s k h1 h2 h3 =>
    refine .inl ⟨rfl, pot_own (x := x) (t := t) rfl (fun u hu => upd_ne _ _ hu) (fun _ _ _ => rfl) rfl ?_ hp⟩
    simp only [XferSt.tPot, upd_self, h1]
    omega
  | leave t h1 =>
    obtain ⟨-, -, b, off, s, k, h3, -, h5⟩ := h.hold t (by rw [h1]; nofun)
    rw [h1] at h5
    have h5 := h5.2
    refine .inl ⟨rfl, pot_own (x := x) (t := t) rfl (fun u hu => upd_ne _ _ hu) (fun _ _ _ => rfl) rfl ?_ hp⟩
    obtain ⟨k, rfl⟩ : ∃ j, k = j + 1 := ⟨k - 1, by omega⟩
    simp only [XferSt.tPot, upd_self, h1, h3]
    omega

theorem XferReach.pot (hb : 0 < c.totalBlockSize) (h : XferReach c X data x) : ∃ m, x.Pot X m := by
  induction h with
  | init h =>
    obtain ⟨l, -, rfl⟩ := h
    exact ⟨0, ∅, ∅, fun _ _ => rfl, fun _ _ => rfl, rfl⟩
  | step hr hs ih =>
    obtain ⟨m, hm⟩ := ih
    rcases (XferReach.inv hr).1.pot hb hs hm with ⟨-, m', h1, -⟩ | ⟨-, m', h1, -⟩ <;> exact ⟨m', h1⟩

/-- The execution of `FullStep` for an execution with the implemented transfers. -/
theorem xferQuietRun_sim (hb : 0 < c.totalBlockSize) {early : Bool} {n m : Nat}
    (h : XferReach c X data x) (hm : x.Pot X m) (hq : XferQuietRun c X data early n x x') :
    XferReach c X data x' ∧ ∃ k m', x'.Pot X m' ∧ FullQuietRun c X.F data k x.st x'.st ∧
      n + m' ≤ m + 8 * k := by
  induction hq with
  | zero => exact ⟨h, 0, m, hm, .zero _, by omega⟩
  | succ _ hq ih =>
    obtain ⟨i1, k, m1, i2, i3, i4⟩ := ih h hm
    refine ⟨.step i1 hq.1.buffered, ?_⟩
    rcases (XferReach.inv i1).1.pot hb hq.1 i2 with ⟨e, m2, g1, g2⟩ | ⟨e, m2, g1, g2⟩
    · exact ⟨k, m2, g1, by rw [e]; exact i3, by omega⟩
    · exact ⟨k + 1, m2, g1, .succ i3 ⟨e, hq.2⟩, by omega⟩

end Asagi
