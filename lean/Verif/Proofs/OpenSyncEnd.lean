import Verif.Proofs.OpenSyncStep
/-
Opening with the implemented barriers ends.
-/
namespace Asagi
open Asagi.Spec Asagi.Props

variable {P : OpenParams} {ob : Nat → Nat → Nat}

theorem os_at_ops {s : OSState} {w : Nat} {cnt : Nat → Nat → Nat} {fin : Nat → Nat} {data : Nat → Option Error}
    {t i : Nat} (hp : (s.abs P ob w cnt fin data).pc t = .ops i) : s.pc t = .ops i ∧
      ((P.plan (s.call t))[i]? = some .sync → ((s.obj (ob (s.call t) i)).pc (s.domainId t)).inside = false) := by
  have hp : arrivedPc P ob s t = .ops i := hp
  unfold arrivedPc at hp
  cases hpt : s.pc t with
  | ops j =>
    rw [hpt] at hp; simp only at hp
    split at hp
    · cases hp
    · next h =>
      cases hp
      refine ⟨rfl, fun h' => ?_⟩
      by_contra hc
      exact h ⟨h', by simpa using hc⟩
  | start => rw [hpt] at hp; cases hp
  | reg => rw [hpt] at hp; simp only at hp; split at hp <;> cases hp
  | quit => rw [hpt] at hp; cases hp
  | final e => rw [hpt] at hp; simp only at hp; split at hp <;> cases hp

section
variable {s : OSState} {w : Nat} {cnt : Nat → Nat → Nat} {fin : Nat → Nat} {data : Nat → Option Error}
  (hn : P.total = 0 ∨ P.n ≤ P.total) (hr : OpenReach P (s.abs P ob w cnt fin data)) (hI : OSInv P ob s w)
include hn hr hI

/-- A master that has arrived at the broadcast of thread `t` has left it or is in it. -/
theorem os_after (hi : s.initialised = true) {t i x : Nat} (ht : t < P.n) (hxn : x < P.n) (hp : s.pc t = .ops i)
    (hs : (P.plan (s.call t))[i]? = some .sync) (hm : s.master x = true)
    (hj : joins P (s.abs P ob w cnt fin data) x (s.call t) i)
    (hpast : past P (s.abs P ob w cnt fin data) x (s.call t) (2 * i + 2)) :
    (s.obj (ob (s.call t) i)).rnd (s.domainId t) < (s.obj (ob (s.call t) i)).rnd (s.domainId x) ∨
      ((s.obj (ob (s.call t) i)).rnd (s.domainId x) = (s.obj (ob (s.call t) i)).rnd (s.domainId t) ∧
        s.pc x = .ops i ∧ s.call x = s.call t ∧
        ((s.obj (ob (s.call t) i)).pc (s.domainId x)).inside = true) := by
  obtain ⟨-, -, h3⟩ := (hr.inv hn).ready hn hi
  have hdt : s.domainId t < domainCount P := by
    rw [← h3]; exact os_dom hn hr hi ht
  have hdx : s.domainId x < domainCount P := by
    rw [← h3]; exact os_dom hn hr hi hxn
  have hmt := (os_ops hn hr hp).1
  have hrt := hI.objRnd hi t ht hmt (ob (s.call t) i)
  have hrx := hI.objRnd hi x hxn hm (ob (s.call t) i)
  have hag := usedIn_agree (P := P) (ob := ob) (o := ob (s.call t) i) (k := s.call t)
    (fun k' hk => os_agree hn hr hk) hdx hdt
  have hjs : i < stopsAt P (s.call t) (s.domainId x) := hj.2.2
  have hlt := uses_lt (P := P) (ob := ob) hs rfl hjs
  rw [hp] at hrt
  simp only [usedAt] at hrt
  rw [hrt, hrx]
  rcases hpast with hc | ⟨hc, hst⟩
  · left
    have hc : s.call t + 1 ≤ s.call x := hc
    have h1 := usedIn_mono (P := P) (ob := ob) (o := ob (s.call t) i) (d := s.domainId x) hc
    simp only [usedIn] at h1
    unfold usedAt
    omega
  · have hc : s.call t = s.call x := hc
    have hst : 2 * i + 2 < (arrivedPc P ob s x).stage (P.plan (s.call t)).length := hst
    unfold arrivedPc at hst
    rw [← hc] at hst ⊢
    unfold usedAt
    cases hq : s.pc x with
    | start => rw [hq] at hst; simp [OpenPc.stage] at hst
    | quit => rw [hq] at hst; simp [OpenPc.stage] at hst
    | reg =>
      rw [hq] at hst
      simp only at hst
      split at hst <;> simp [OpenPc.stage] at hst
    | final e =>
      left
      simp only
      omega
    | ops j =>
      rw [hq] at hst
      simp only at hst ⊢
      split at hst
      · next hin =>
        simp only [OpenPc.stage] at hst
        rcases Nat.lt_or_ge i j with hij | hij
        · left
          have := uses_lt (P := P) (ob := ob) hs rfl hij
          omega
        · have : j = i := by omega
          subst this
          exact .inr ⟨by omega, by simp, by simp, hin.2⟩
      · simp only [OpenPc.stage] at hst
        left
        have := uses_lt (P := P) (ob := ob) hs rfl (show i < j by omega)
        omega

omit hn hr in
/-- A thread in m_syncThreads that does not wait for a condition can make a step. -/
theorem os_th_moves {u : Nat} (hp : s.th.pc u ≠ .idle)
    (hx : (s.th.next (s.thParams P) u).isSome) : ∃ s', OSStep P ob s s' := by
  obtain ⟨th', hx⟩ := Option.isSome_iff_exists.1 hx
  have hun : u < P.n := by
    by_contra hc
    exact hp (hI.thIdle u (by simp [(hI.out u (by omega)).1]) (by simp [(hI.out u (by omega)).1]))
  cases hq : s.pc u with
  | reg =>
    cases hin : (s.th.pc u).inside with
    | true =>
      obtain ⟨r, hg⟩ := Option.isSome_iff_exists.1 ((hI.regPc u hq).2.1.2 hin)
      exact ⟨_, .regPass s u r th' hun hq hin hg hx⟩
    | false =>
      cases har : s.th.arrives u with
      | true => exact ⟨_, .regArrive s u th' hun hq har hx⟩
      | false => exact ⟨_, .regWait s u th' hun hq hin har hx⟩
  | final e =>
    by_cases hl : th'.rnd u = s.th.rnd u
    · exact ⟨_, .final s u e th' hun hq hx hl⟩
    · exact ⟨_, .return s u e th' hun hq hx hl⟩
  | start => exact absurd (hI.thIdle u (by simp [hq]) (by simp [hq])) hp
  | quit => exact absurd (hI.thIdle u (by simp [hq]) (by simp [hq])) hp
  | ops i => exact absurd (hI.thIdle u (by simp [hq]) (by simp [hq])) hp

/-- As long as a thread has not returned from all its calls, some thread can make a step. -/
theorem os_progress (htot : P.total = P.n) (hcpu : ∀ t < P.n, P.noCpu t = false)
    (hagree : ∀ k < P.calls, Agree P k) (hopen : ∃ t < P.n, s.call t < P.calls) : ∃ s', OSStep P ob s s' := by
  obtain ⟨a', hs⟩ := open_progress htot hcpu hagree hr hopen
  have hO := hr.inv hn
  -- m_syncThreads
  have hth : s.initialised = true → ∀ t < P.n, (∃ s', OSStep P ob s s') ∨
      (s.th.pc t ≠ .waitFin ∧ ∃ u < P.n, s.th.pc u = .idle ∧ s.th.rnd u = s.th.rnd t) := by
    intro hi t ht
    obtain ⟨r, r1, r2, -⟩ := os_root hn hr hi
    rcases sync_waits (P := thP P r) (t := t) (by show 0 < P.total; omega) (thP_root (by omega))
      (hI.thr r (by omega) fun _ => r2) (by show t < P.total; omega) with ⟨u, hu, h1, h2⟩ | ⟨h1, u, hu, h2, h3⟩
    · exact .inl (os_th_moves hI h1 (by rw [thParams_eq r2]; exact h2))
    · exact .inr ⟨h1, u, by show u < P.n; rw [← htot]; exact hu, h2, h3⟩
  -- the objects of the domains
  have hob : s.initialised = true → ∀ t < P.n, ∀ o, (∃ s', OSStep P ob s s') ∨
      ((s.obj o).pc (s.domainId t) ≠ .waitFin ∧ ∃ d < s.numa.domains.length, (s.obj o).pc d = .idle ∧
        (s.obj o).rnd d = (s.obj o).rnd (s.domainId t)) := by
    intro hi t ht o
    have hd := os_dom hn hr hi ht
    rcases sync_waits (P := s.domParams) (t := s.domainId t) (by show 0 < s.numa.domains.length; omega)
      (by intro k r hk; cases hk; show 0 < s.numa.domains.length; omega) (hI.objReach hi o) hd with
      ⟨d, hd', h1, h2⟩ | ⟨h1, d, hd', h2, h3⟩
    · left
      obtain ⟨u, i, hu, g1, g2, g3, g4⟩ := hI.objIdle o d h1
      obtain ⟨o', hx⟩ := Option.isSome_iff_exists.1 h2
      subst g3 g4
      exact ⟨_, .sync s u i o' hu g1 g2 hx⟩
    · exact .inr ⟨h1, d, hd', h2, h3⟩
  have hpcs : ∀ t, (s.abs P ob w cnt fin data).pc t = arrivedPc P ob s t := fun _ => rfl
  cases hs with
  | noCpu t ht hp hc h0 hq =>
    rw [hcpu t ht] at hq; cases hq
  | register t ht hp hc h0 hq =>
    rw [hpcs] at hp
    unfold arrivedPc at hp
    cases hpt : s.pc t with
    | start => exact ⟨_, .check s t ht hpt hc h0 hq⟩
    | reg =>
      rw [hpt] at hp
      simp only at hp
      split at hp
      · cases hp
      · next hin =>
        obtain ⟨e1, -, -, e4⟩ := hI.early h0
        rcases (e4 t).2 with h | h
        · exact ⟨_, .regArrive s t _ ht hpt (by simp [SyncState.arrives, h, e1]) (by simp only [SyncState.next, h]; rfl)⟩
        · rw [h] at hin; exact absurd rfl hin
    | quit => rw [hpt] at hp; cases hp
    | ops i =>
      rw [hpt] at hp; simp only at hp; split at hp <;> cases hp
    | final e =>
      rw [hpt] at hp; simp only at hp; split at hp <;> cases hp
  | registered t r ht hp hi hg =>
    have hi : s.initialised = true := hi
    rcases hth hi t ht with h | ⟨-, u, hu, h1, h2⟩
    · exact h
    · exfalso
      have hrt : s.th.rnd t = 0 := by
        rw [hI.thRnd]
        rw [hpcs] at hp
        unfold arrivedPc at hp
        cases hpt : s.pc t with
        | reg => rfl
        | start => rw [hpt] at hp; cases hp
        | quit => rw [hpt] at hp; cases hp
        | ops i => rw [hpt] at hp; simp only at hp; split at hp <;> cases hp
        | final e => rw [hpt] at hp; simp only at hp; split at hp <;> cases hp
      have hru := hI.thRnd u
      rw [h2, hrt] at hru
      obtain ⟨q, hq, -⟩ := os_ready hn hr hi hu
      cases hpu : s.pc u with
      | start =>
        rw [hpu] at hru
        simp only [roundAt] at hru
        split at hru
        · next h0 => rw [hI.unreg u hpu h0] at hq; cases hq
        · omega
      | reg =>
        have := (hI.regPc u hpu).2.1.1 (by rw [hq]; rfl)
        rw [h1] at this; cases this
      | quit =>
        have := (hO.quit u (by rw [hpcs]; simp [arrivedPc, hpu])).1
        rw [show s.reg u = none from this] at hq; cases hq
      | ops i => rw [hpu] at hru; simp [roundAt] at hru
      | final e => rw [hpu] at hru; simp [roundAt] at hru
  | again t ht hp hc hi =>
    have hi : s.initialised = true := hi
    rw [hpcs] at hp
    unfold arrivedPc at hp
    cases hpt : s.pc t with
    | start => exact ⟨_, .again s t ht hpt hc hi⟩
    | reg =>
      rw [hpt] at hp
      simp only at hp
      split at hp
      · cases hp
      · next hin =>
        obtain ⟨q, hq, -⟩ := os_ready hn hr hi ht
        exact absurd ((hI.regPc t hpt).2.1.1 (by rw [hq]; rfl)) hin
    | quit => rw [hpt] at hp; cases hp
    | ops i =>
      rw [hpt] at hp; simp only at hp; split at hp <;> cases hp
    | final e =>
      rw [hpt] at hp; simp only at hp; split at hp <;> cases hp
  | opDone t i ht hp hl hns he =>
    obtain ⟨hpt, -⟩ := os_at_ops hp
    exact ⟨_, .opDone s t i ht hpt hl hns he⟩
  | opFail t i e ht hp he =>
    obtain ⟨hpt, -⟩ := os_at_ops hp
    exact ⟨_, .opFail s t i e ht hpt he⟩
  | initDone t i ht hp hl =>
    obtain ⟨hpt, -⟩ := os_at_ops hp
    exact ⟨_, .initDone s t i ht hpt hl⟩
  | arrive t i ht hp hsy =>
    obtain ⟨hpt, hin⟩ := os_at_ops hp
    have hi := os_late hn hr (.inl ⟨i, hpt⟩)
    have hin := hin hsy
    rcases hob hi t ht (ob (s.call t) i) with h | ⟨h, -⟩
    · exact h
    · have : ((s.obj (ob (s.call t) i)).next s.domParams (s.domainId t)).isSome := by
        unfold SyncState.next
        cases hq : (s.obj (ob (s.call t) i)).pc (s.domainId t) <;> simp_all [SyncPc.inside]
      obtain ⟨o', hx⟩ := Option.isSome_iff_exists.1 this
      exact ⟨_, .sync s t i o' ht hpt hsy hx⟩
  | leave t i ht hp hcnt =>
    have hsync : s.pc t = .ops i ∧ (P.plan (s.call t))[i]? = some .sync := by
      rw [hpcs] at hp
      unfold arrivedPc at hp
      cases hpt : s.pc t with
      | ops j =>
        rw [hpt] at hp; simp only at hp
        split at hp
        · next h => cases hp; exact ⟨rfl, h.1⟩
        · cases hp
      | start => rw [hpt] at hp; cases hp
      | reg => rw [hpt] at hp; simp only at hp; split at hp <;> cases hp
      | quit => rw [hpt] at hp; cases hp
      | final e => rw [hpt] at hp; simp only at hp; split at hp <;> cases hp
    obtain ⟨hpt, hsy⟩ := hsync
    have hi := os_late hn hr (.inl ⟨i, hpt⟩)
    rcases hob hi t ht (ob (s.call t) i) with h | ⟨-, d, hd, h1, h2⟩
    · exact h
    · exfalso
      obtain ⟨x, r, m1, m2, m3⟩ := (os_facts hn hr).exists_master d hd
      have hxn : x < P.n := by
        obtain ⟨ar, ha⟩ := hO.reg
        obtain ⟨j, j1, -⟩ := (ha.reg x r).1 m1
        exact ha.lt x (List.mem_of_getElem? j1)
      have hxm : s.master x = true := by
        show ((s.reg x).map _).getD _ = _
        rw [show s.reg x = some r from m1]; exact m2
      have hxd : s.domainId x = d := by
        show ((s.reg x).map _).getD _ = _
        rw [show s.reg x = some r from m1]; exact m3
      obtain ⟨hj, hpa⟩ := all_of_cnt hn hO hi hcnt x hxn hxm
      rcases os_after hn hr hI hi ht hxn hpt hsy hxm hj hpa with h | ⟨-, -, -, h⟩
      · rw [hxd] at h; omega
      · rw [hxd, h1] at h; cases h
  | arriveFinal t e ht hp =>
    have hpt : s.pc t = .final e ∧ (s.th.pc t).inside = false := by
      rw [hpcs] at hp
      unfold arrivedPc at hp
      cases hpt : s.pc t with
      | final e' =>
        rw [hpt] at hp; simp only at hp
        split at hp
        · cases hp
        · next h => cases hp; exact ⟨rfl, by simpa using h⟩
      | ops j => rw [hpt] at hp; simp only at hp; split at hp <;> cases hp
      | start => rw [hpt] at hp; cases hp
      | reg => rw [hpt] at hp; simp only at hp; split at hp <;> cases hp
      | quit => rw [hpt] at hp; cases hp
    obtain ⟨hpt, hin⟩ := hpt
    have hi := os_late hn hr (.inr ⟨e, hpt⟩)
    rcases hth hi t ht with h | ⟨h, -⟩
    · exact h
    · have : (s.th.next (s.thParams P) t).isSome := by
        unfold SyncState.next
        cases hq : s.th.pc t <;> simp_all [SyncPc.inside]
      obtain ⟨th', hx⟩ := Option.isSome_iff_exists.1 this
      by_cases hl : th'.rnd t = s.th.rnd t
      · exact ⟨_, .final s t e th' ht hpt hx hl⟩
      · exact ⟨_, .return s t e th' ht hpt hx hl⟩
  | «return» t ht hp hf =>
    have hpt : (∃ e, s.pc t = .final e) ∧ (s.th.pc t).inside = true := by
      rw [hpcs] at hp
      unfold arrivedPc at hp
      cases hpt : s.pc t with
      | final e' =>
        rw [hpt] at hp; simp only at hp
        split at hp
        · next h => exact ⟨⟨e', rfl⟩, h⟩
        · cases hp
      | ops j => rw [hpt] at hp; simp only at hp; split at hp <;> cases hp
      | start => rw [hpt] at hp; cases hp
      | reg => rw [hpt] at hp; simp only at hp; split at hp <;> cases hp
      | quit => rw [hpt] at hp; cases hp
    obtain ⟨⟨e, hpt⟩, hin⟩ := hpt
    have hi := os_late hn hr (.inr ⟨e, hpt⟩)
    rcases hth hi t ht with h | ⟨-, u, hu, h1, h2⟩
    · exact h
    · exfalso
      have hrt := hI.thRnd t
      rw [hpt] at hrt
      simp only [roundAt] at hrt
      have hru := hI.thRnd u
      rw [h2, hrt] at hru
      have hall : ((Finset.range P.n).filter fun x => past P (s.abs P ob w cnt fin data) x (s.call t)
          (2 * (P.plan (s.call t)).length + 4)) = Finset.range P.n := by
        refine Finset.eq_of_subset_of_card_le (Finset.filter_subset _ _) ?_
        rw [← hO.fin, show (s.abs P ob w cnt fin data).fin (s.call t) = P.total from hf, Finset.card_range, htot]
      have hu' := Finset.mem_range.2 hu
      rw [← hall] at hu'
      obtain ⟨q, hq, -⟩ := os_ready hn hr hi hu
      rcases (Finset.mem_filter.1 hu').2 with hlt | ⟨heq, hst⟩
      · have hlt : s.call t < s.call u := hlt
        cases hpu : s.pc u with
        | start => rw [hpu] at hru; simp only [roundAt] at hru; split at hru <;> omega
        | reg => have := (hI.regPc u hpu).1; omega
        | quit =>
          have := (hO.quit u (by rw [hpcs]; simp [arrivedPc, hpu])).1
          rw [show s.reg u = none from this] at hq; cases hq
        | ops i => rw [hpu] at hru; simp only [roundAt] at hru; omega
        | final e => rw [hpu] at hru; simp only [roundAt] at hru; omega
      · have hst : 2 * (P.plan (s.call t)).length + 4 < (arrivedPc P ob s u).stage (P.plan (s.call t)).length := hst
        have heq : s.call t = s.call u := heq
        unfold arrivedPc at hst
        cases hpu : s.pc u with
        | start => rw [hpu] at hst; simp [OpenPc.stage] at hst
        | quit => rw [hpu] at hst; simp [OpenPc.stage] at hst
        | reg => rw [hpu] at hst; simp only at hst; split at hst <;> simp [OpenPc.stage] at hst
        | ops i =>
          have hle := (os_ops hn hr hpu).2
          have hle' := stopsAt_le P (s.call u) (s.domainId u)
          rw [hpu] at hst; simp only at hst
          rw [← heq] at hle'
          rw [← heq] at hle
          split at hst <;> simp only [OpenPc.stage] at hst <;> omega
        | final e =>
          rw [hpu, h1] at hst
          simp [SyncPc.inside, OpenPc.stage] at hst

end

/-! ### Termination -/

/-- Positions in the calls before `k`. -/
def osStart (P : OpenParams) : Nat → Nat
  | 0 => 0
  | k + 1 => osStart P k + (8 * (P.plan k).length + 32)

theorem osStart_mono {k k' : Nat} (h : k ≤ k') : osStart P k ≤ osStart P k' := by
  induction h with
  | refl => exact Nat.le_refl _
  | step _ ih => exact ih.trans (Nat.le_add_right _ _)

theorem SyncPc.weight_le (p : SyncPc) : p.weight ≤ 6 := by cases p <;> simp [SyncPc.weight]

/-- Position of a thread within its call. -/
def osStage (P : OpenParams) (ob : Nat → Nat → Nat) (s : OSState) (t : Nat) : Nat :=
  match s.pc t with
  | .start => 0
  | .quit => 1
  | .reg => 1 + (s.th.pc t).weight
  | .ops i => 8 + 8 * i + if (P.plan (s.call t))[i]? = some .sync
      then ((s.obj (ob (s.call t) i)).pc (s.domainId t)).weight else 0
  | .final _ => 16 + 8 * (P.plan (s.call t)).length + (s.th.pc t).weight

/-- How far a thread has come. -/
def osPos (P : OpenParams) (ob : Nat → Nat → Nat) (s : OSState) (t : Nat) : Nat :=
  osStart P (s.call t) + osStage P ob s t

theorem osPos_other {s s' : OSState} {x : Nat} (h1 : s'.pc x = s.pc x) (h2 : s'.call x = s.call x)
    (h3 : s'.reg x = s.reg x) (h4 : (s.th.pc x).weight ≤ (s'.th.pc x).weight)
    (h5 : ∀ i, s.pc x = .ops i → ∀ o, ((s.obj o).pc (s.domainId x)).weight ≤ ((s'.obj o).pc (s.domainId x)).weight) :
    osPos P ob s x ≤ osPos P ob s' x := by
  have hd : s'.domainId x = s.domainId x := by simp [OSState.domainId, h3]
  unfold osPos osStage
  rw [h1, h2, hd]
  cases hp : s.pc x with
  | ops i =>
    simp only
    have := h5 i hp (ob (s.call x) i)
    split <;> omega
  | _ => simp only; omega

theorem osStage_lt {s : OSState} (h : OSOk P ob s) (hn : P.total = 0 ∨ P.n ≤ P.total) (t : Nat) :
    osStage P ob s t < 8 * (P.plan (s.call t)).length + 32 := by
  obtain ⟨a, hr, hsame, hI⟩ := h
  rw [same_abs hsame] at hr
  unfold osStage
  have hw := SyncPc.weight_le (s.th.pc t)
  cases hp : s.pc t with
  | ops i =>
    have h1 := (os_ops hn hr hp).2
    have h2 := stopsAt_le P (s.call t) (s.domainId t)
    have h3 := SyncPc.weight_le ((s.obj (ob (s.call t) i)).pc (s.domainId t))
    simp only
    split <;> omega
  | _ => simp only; omega

theorem osCall_lt {s : OSState} (h : OSOk P ob s) (t : Nat) :
    s.call t ≤ P.calls ∧ (s.pc t ≠ .start → s.call t < P.calls) := by
  obtain ⟨a, hr, hsame, hI⟩ := h
  rw [same_abs hsame] at hr
  obtain ⟨h1, h2⟩ := calls_bound hr t
  refine ⟨h1, fun hp => ?_⟩
  have hpc : (s.abs P ob a.waiting a.cnt a.fin a.data).pc t = arrivedPc P ob s t := rfl
  rw [hpc] at h2
  cases hq : s.pc t with
  | start => exact absurd hq hp
  | reg =>
    obtain ⟨h3, -, h4, -⟩ := hI.regPc t hq
    omega
  | quit => exact h2 (by simp [arrivedPc, hq])
  | ops i => exact h2 (by unfold arrivedPc; rw [hq]; simp only; split <;> simp)
  | final e => exact h2 (by unfold arrivedPc; rw [hq]; simp only; split <;> simp)

theorem osPos_le {s : OSState} (h : OSOk P ob s) (hn : P.total = 0 ∨ P.n ≤ P.total) (t : Nat) :
    osPos P ob s t ≤ osStart P P.calls := by
  obtain ⟨h1, h2⟩ := osCall_lt h t
  rcases Nat.lt_or_ge (s.call t) P.calls with hc | hc
  · have h3 : osStart P (s.call t + 1) ≤ _ := osStart_mono hc
    have h4 := osStage_lt h hn t
    simp only [osStart] at h3
    unfold osPos
    omega
  · have hp : s.pc t = .start := by
      by_contra hp
      have := h2 hp
      omega
    have : s.call t = P.calls := by omega
    simp [osPos, osStage, hp, this]

theorem afterReg_stage {s : OSState} {t : Nat} {b : Bool} (h : s.pc t = .afterReg b) : 8 ≤ osStage P ob s t := by
  unfold osStage
  rw [h]
  cases b <;> simp only [OSPc.afterReg, Bool.false_eq_true, if_false, if_true] <;> omega

/-- Every step brings one thread further and no thread back. -/
theorem os_step_pos {s s' : OSState} (h : OSOk P ob s) (hn : P.total = 0 ∨ P.n ≤ P.total) (hs : OSStep P ob s s') :
    ∃ t < P.n, osPos P ob s t < osPos P ob s' t ∧ ∀ x < P.n, x ≠ t → osPos P ob s x ≤ osPos P ob s' x := by
  obtain ⟨a, hr, hsame, hI⟩ := h
  rw [same_abs hsame] at hr
  cases hs with
  | noCpu t ht hp hc h0 hcpu =>
    refine ⟨t, ht, ?_, fun x _ hxt => ?_⟩
    · simp [osPos, osStage, hp, upd_self]
    · exact osPos_other (upd_ne _ _ hxt) rfl rfl (Nat.le_refl _) fun _ _ _ => Nat.le_refl _
  | check t ht hp hc h0 hcpu =>
    refine ⟨t, ht, ?_, fun x _ hxt => ?_⟩
    · simp [osPos, osStage, hp, upd_self]
    · exact osPos_other (upd_ne _ _ hxt) rfl rfl (Nat.le_refl _) fun _ _ _ => Nat.le_refl _
  | again t ht hp hc hi =>
    refine ⟨t, ht, ?_, fun x _ hxt => ?_⟩
    · have h8 := afterReg_stage (P := P) (ob := ob) (t := t) (s := { s with
        pc := upd s.pc t (.afterReg (s.numa.masters[s.threadId t]?.getD false)) }) (upd_self _ _ _)
      have h0 : osStage P ob s t = 0 := by simp [osStage, hp]
      unfold osPos
      rw [h0]
      show osStart P (s.call t) + 0 < osStart P (s.call t) + _
      omega
    · exact osPos_other (upd_ne _ _ hxt) rfl rfl (Nat.le_refl _) fun _ _ _ => Nat.le_refl _
  | regWait t th' ht hp hin har hx =>
    refine ⟨t, ht, ?_, fun x _ hxt => ?_⟩
    · rcases next_self hx with ⟨-, -, h3 | h3⟩ | ⟨-, -, h3, -⟩
      · rw [hin] at h3; cases h3
      · rw [har] at h3; cases h3
      · simp only [osPos, osStage, hp]; omega
    · exact osPos_other rfl rfl rfl (next_other hx hxt).1.weight fun _ _ _ => Nat.le_refl _
  | regArrive t th' ht hp har hx =>
    refine ⟨t, ht, ?_, fun x _ hxt => ?_⟩
    · rcases next_self hx with ⟨-, h2, -⟩ | ⟨h2, -, h3, -⟩
      · rw [if_neg (by omega)]
        have hw := SyncPc.weight_le (s.th.pc t)
        have h0 : osStage P ob s t ≤ 7 := by
          simp only [osStage, hp]; omega
        unfold osPos
        show osStart P (s.call t) + _ < osStart P (s.call t) + _
        refine Nat.add_lt_add_left ?_ _
        refine lt_of_le_of_lt h0 (lt_of_lt_of_le ?_ (afterReg_stage (upd_self _ _ _)))
        omega
      · rw [if_pos h2]
        simp only [osPos, osStage, hp, upd_self]; omega
    · exact osPos_other (upd_ne _ _ hxt) rfl (upd_ne _ _ hxt) (next_other hx hxt).1.weight
        fun _ _ _ => Nat.le_refl _
  | regPass t r th' ht hp hin hg hx =>
    refine ⟨t, ht, ?_, fun x _ hxt => ?_⟩
    · rcases next_self hx with ⟨-, h2, -⟩ | ⟨h2, -, h3, -⟩
      · rw [if_neg (by omega)]
        have hw := SyncPc.weight_le (s.th.pc t)
        have h0 : osStage P ob s t ≤ 7 := by
          simp only [osStage, hp]; omega
        unfold osPos
        show osStart P (s.call t) + _ < osStart P (s.call t) + _
        refine Nat.add_lt_add_left ?_ _
        refine lt_of_le_of_lt h0 (lt_of_lt_of_le ?_ (afterReg_stage (upd_self _ _ _)))
        omega
      · rw [if_pos h2]
        simp only [osPos, osStage, hp, upd_self]; omega
    · exact osPos_other (upd_ne _ _ hxt) rfl rfl (next_other hx hxt).1.weight fun _ _ _ => Nat.le_refl _
  | opDone t i ht hp hl hns he =>
    refine ⟨t, ht, ?_, fun x _ hxt => ?_⟩
    · simp only [osPos, osStage, hp, upd_self, if_neg hns]; omega
    · exact osPos_other (upd_ne _ _ hxt) rfl rfl (Nat.le_refl _) fun _ _ _ => Nat.le_refl _
  | opFail t i e ht hp he =>
    refine ⟨t, ht, ?_, fun x _ hxt => ?_⟩
    · obtain ⟨h1, h2⟩ := opError_lt he
      simp only [osPos, osStage, hp, upd_self, if_neg h2]; omega
    · exact osPos_other (upd_ne _ _ hxt) rfl rfl (Nat.le_refl _) fun _ _ _ => Nat.le_refl _
  | initDone t i ht hp hl =>
    refine ⟨t, ht, ?_, fun x _ hxt => ?_⟩
    · have h1 := (os_ops hn hr hp).2
      have h2 := stopsAt_le P (s.call t) (s.domainId t)
      have h3 : (P.plan (s.call t))[i]? ≠ some .sync := by
        rw [List.getElem?_eq_none hl]; simp
      simp only [osPos, osStage, hp, upd_self, if_neg h3]; omega
    · exact osPos_other (upd_ne _ _ hxt) rfl rfl (Nat.le_refl _) fun _ _ _ => Nat.le_refl _
  | sync t i o' ht hp hsy hx =>
    have hi := os_late hn hr (.inl ⟨i, hp⟩)
    refine ⟨t, ht, ?_, fun x hxn hxt => ?_⟩
    · rcases next_self hx with ⟨-, h2, -⟩ | ⟨h2, -, h3, -⟩
      · rw [if_neg (by omega)]
        have hw := SyncPc.weight_le ((s.obj (ob (s.call t) i)).pc (s.domainId t))
        simp only [osPos, osStage, hp, upd_self, if_pos hsy]; omega
      · rw [if_pos h2]
        have hd : ({ s with obj := upd s.obj (ob (s.call t) i) o', pc := upd s.pc t (.ops i) } : OSState).domainId t =
          s.domainId t := rfl
        simp only [osPos, osStage, hp, upd_self, if_pos hsy, hd]; omega
    · refine osPos_other (upd_ne _ _ hxt) rfl rfl (Nat.le_refl _) fun j hj o => ?_
      have hdne : s.domainId x ≠ s.domainId t := fun e =>
        hxt (os_unique hn hr hi hxn ht (os_ops hn hr hj).1 (os_ops hn hr hp).1 e)
      by_cases ho : o = ob (s.call t) i
      · subst ho
        simp only [upd_self]
        exact (next_other hx hdne).1.weight
      · simp only [upd_ne _ _ ho]; exact Nat.le_refl _
  | final t e th' ht hp hx hl =>
    refine ⟨t, ht, ?_, fun x _ hxt => ?_⟩
    · rcases next_self hx with ⟨-, h2, -⟩ | ⟨-, -, h3, -⟩
      · omega
      · simp only [osPos, osStage, hp]; omega
    · exact osPos_other rfl rfl rfl (next_other hx hxt).1.weight fun _ _ _ => Nat.le_refl _
  | «return» t e th' ht hp hx hl =>
    refine ⟨t, ht, ?_, fun x _ hxt => ?_⟩
    · have hw := SyncPc.weight_le (s.th.pc t)
      simp only [osPos, osStage, hp, upd_self, osStart]; omega
    · exact osPos_other (upd_ne _ _ hxt) (upd_ne _ _ hxt) rfl (next_other hx hxt).1.weight fun _ _ _ => Nat.le_refl _

/-- Steps the threads can still make. -/
def osLeft (P : OpenParams) (ob : Nat → Nat → Nat) (s : OSState) : Nat :=
  ∑ t ∈ Finset.range P.n, (osStart P P.calls - osPos P ob s t)

theorem osLeft_decreases {s s' : OSState} (hT : 0 < P.total) (hn : P.n ≤ P.total) (h : OSOk P ob s)
    (hs : OSStep P ob s s') : osLeft P ob s' < osLeft P ob s := by
  obtain ⟨t, ht, h1, h2⟩ := os_step_pos h (.inr hn) hs
  have h3 := osPos_le (h.step hT hn hs) (.inr hn)
  refine Finset.sum_lt_sum ?_ ⟨t, Finset.mem_range.2 ht, ?_⟩
  · intro x hx
    by_cases hxt : x = t
    · subst hxt; omega
    · have := h2 x (Finset.mem_range.1 hx) hxt
      omega
  · have := h3 t
    omega

end Asagi
