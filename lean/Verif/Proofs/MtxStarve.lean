import Verif.Proofs.Starve
import Verif.Props.MpiMutex
/-
The distributed lock: if the mutexes of the processes and the windows are granted fairly, nobody
starves. The lock itself is a queue.
-/
namespace Asagi
open Spec Props
variable {P : MtxParams} {σ : Nat → MtxState}

/-- A step moves the threads inside of the functions forward. -/
theorem mtx_forward {s s' : MtxState} (h : MtxStep P false s s') (t : Thr) :
    s'.pc t = s.pc t ∨ s.pc t = .idle ∨ mtxPlace (s.pc t) < mtxPlace (s'.pc t) := by
  have one : ∀ (u : Thr) (p : MtxPc), s'.pc = upd s.pc u p → mtxPlace (s.pc u) < mtxPlace p →
      s'.pc t = s.pc t ∨ s.pc t = .idle ∨ mtxPlace (s.pc t) < mtxPlace (s'.pc t) := by
    intro u p e hlt
    by_cases hu : t = u
    · subst hu; rw [e, upd_self]; exact .inr (.inr hlt)
    · rw [e, upd_ne _ _ hu]; exact .inl rfl
  cases h with
  | call u l _ hp =>
    by_cases hu : t = u
    · subst hu; exact .inr (.inl hp)
    · exact .inl (upd_ne _ _ hu)
  | handOver u v l l' dest tag hu hv =>
    by_cases h1 : t = v
    · subst h1
      refine .inr (.inr ?_)
      show _ < mtxPlace (upd _ t _ t)
      rw [upd_self, hv]; split <;> simp [mtxPlace]
    · by_cases h2 : t = u
      · subst h2
        refine .inr (.inr ?_)
        show _ < mtxPlace (upd _ v _ t)
        rw [upd_ne _ _ h1, upd_self, hu]; simp [mtxPlace]
      · exact .inl ((upd_ne _ _ h1).trans (upd_ne _ _ h2))
  | endCall u l hp => exact one u _ rfl (by rw [hp]; split <;> simp [mtxPlace])
  | init => exact .inl rfl
  | proc u _ hp | win u _ hp | acquire u _ hp | enqueue u _ hp | wait u _ _ hp | reProc u _ hp
  | reWin u _ hp | hold u _ hp | delete u _ hp | relProc u _ hp | relWin u _ hp | free u _ hp
  | contended u _ hp | leave u _ hp => exact one u _ rfl (by rw [hp]; simp [mtxPlace])

/-- The mutexes of the processes and the windows are taken only if they are free. -/
theorem mtx_locks {s s' : MtxState} (h : MtxStep P false s s') (r : Nat) :
    (s'.win r = s.win r ∨ s.win r = none ∨ s'.win r = none) ∧
    (s'.proc r = s.proc r ∨ s.proc r = none ∨ s'.proc r = none) := by
  have up : ∀ (f : Nat → Option Thr) (x : Nat) (v : Option Thr), f x = none ∨ v = none →
      upd f x v r = f r ∨ f r = none ∨ upd f x v r = none := by
    intro f x v hv
    by_cases e : r = x
    · subst e; rw [upd_self]
      rcases hv with h | h
      · exact .inr (.inl h)
      · exact .inr (.inr h)
    · exact .inl (upd_ne _ _ e)
  cases h with
  | proc _ _ _ hf | reProc _ _ _ hf | relProc _ _ _ hf => exact ⟨.inl rfl, up _ _ _ (.inl hf)⟩
  | win _ _ _ hf | reWin _ _ _ hf | relWin _ _ _ hf => exact ⟨up _ _ _ (.inl hf), .inl rfl⟩
  | wait | hold =>
    refine ⟨up _ _ _ (.inr rfl), ?_⟩
    dsimp only
    split
    · exact .inl rfl
    · exact up _ _ _ (.inr rfl)
  | leave => exact ⟨up _ _ _ (.inr rfl), up _ _ _ (.inr rfl)⟩
  | _ => exact ⟨.inl rfl, .inl rfl⟩

/-- What a thread inside of the functions waits for. -/
theorem mtx_can {s : MtxState} (h : MtxReach P false s) {t : Thr} (hn : s.pc t ≠ .idle) :
    (∃ s', MtxMoves P t s s') ∨
    (∃ l, (s.pc t = .wantWin l ∨ s.pc t = .reWin l ∨ s.pc t = .relWin l) ∧ s.win (P.home l) ≠ none) ∨
    (∃ l, (s.pc t = .wantProc l ∨ s.pc t = .reProc l ∨ s.pc t = .relProc l) ∧ s.proc t.rank ≠ none) ∨
    ∃ l d g, s.pc t = .sending l d g := by
  have mk : ∀ (s' : MtxState) (p : MtxPc), MtxStep P false s s' → s'.pc = upd s.pc t p →
      p ≠ s.pc t → ∃ s', MtxMoves P t s s' := by
    intro s' p hs e hp
    exact ⟨s', hs, by rw [e, upd_self]; exact hp⟩
  have win : ∀ l, s.pc t = .wantWin l ∨ s.pc t = .reWin l ∨ s.pc t = .relWin l →
      (∃ s', MtxMoves P t s s') ∨
      (∃ l, (s.pc t = .wantWin l ∨ s.pc t = .reWin l ∨ s.pc t = .relWin l) ∧
        s.win (P.home l) ≠ none) := by
    intro l hp
    by_cases hw : s.win (P.home l) = none
    · left
      rcases hp with hp | hp | hp
      · exact mk _ _ (.win s t l hp hw) rfl (by rw [hp]; simp)
      · exact mk _ _ (.reWin s t l hp hw) rfl (by rw [hp]; simp)
      · exact mk _ _ (.relWin s t l hp hw) rfl (by rw [hp]; simp)
    · exact .inr ⟨l, hp, hw⟩
  have proc : ∀ l, s.pc t = .wantProc l ∨ s.pc t = .reProc l ∨ s.pc t = .relProc l →
      (∃ s', MtxMoves P t s s') ∨
      (∃ l, (s.pc t = .wantProc l ∨ s.pc t = .reProc l ∨ s.pc t = .relProc l) ∧
        s.proc t.rank ≠ none) := by
    intro l hp
    by_cases hw : s.proc t.rank = none
    · left
      rcases hp with hp | hp | hp
      · exact mk _ _ (.proc s t l hp hw) rfl (by rw [hp]; simp)
      · exact mk _ _ (.reProc s t l hp hw) rfl (by rw [hp]; simp)
      · exact mk _ _ (.relProc s t l hp hw) rfl (by rw [hp]; simp)
    · exact .inr ⟨l, hp, hw⟩
  cases hp : s.pc t with
  | idle => exact absurd hp hn
  | wantProc l =>
    rw [← hp]; exact (proc l (.inl hp)).imp id fun h => .inr (.inl h)
  | reProc l =>
    rw [← hp]; exact (proc l (.inr (.inl hp))).imp id fun h => .inr (.inl h)
  | relProc l =>
    rw [← hp]; exact (proc l (.inr (.inr hp))).imp id fun h => .inr (.inl h)
  | wantWin l => rw [← hp]; exact (win l (.inl hp)).imp id .inl
  | reWin l => rw [← hp]; exact (win l (.inr (.inl hp))).imp id .inl
  | relWin l => rw [← hp]; exact (win l (.inr (.inr hp))).imp id .inl
  | sending l d g => exact .inr (.inr (.inr ⟨l, d, g, rfl⟩))
  | swap l =>
    left
    by_cases hm : s.mem l < 0
    · exact mk _ _ (.acquire s t l hp hm) rfl (by rw [hp]; simp)
    · exact mk _ _ (.enqueue s t l hp (by omega)) rfl (by rw [hp]; simp)
  | swapped l old => exact .inl (mk _ _ (.wait s t l old hp) rfl (by rw [hp]; simp))
  | update l => exact .inl (mk _ _ (.hold s t l hp) rfl (by rw [hp]; simp))
  | held l => exact .inl (mk _ _ (.endCall s t l hp) rfl (by rw [hp]; split <;> simp))
  | cas l =>
    left
    by_cases hm : s.mem l = P.lockId t
    · exact mk _ _ (.free s t l hp hm) rfl (by rw [hp]; simp)
    · exact mk _ _ (.contended s t l hp hm) rfl (by rw [hp]; simp)
  | recv l =>
    obtain ⟨_, _, ⟨s', hs, hr, _⟩, _⟩ := C36_release P s h t l hp
    exact .inl ⟨s', hs, by rw [hr, hp]; simp⟩
  | released l => exact .inl (mk _ _ (.leave s t l hp) rfl (by rw [hp]; simp))

theorem mtx_course (h : MtxReach P false (σ 0)) (hc : CourseOf (MtxStep P false) σ) :
    ∀ n, MtxReach P false (σ n) := by
  intro n
  induction n with
  | zero => exact h
  | succ n ih =>
    rcases hc n with h | h
    · exact .step ih h
    · rw [h]; exact ih

/-- The queues along an execution. -/
theorem mtx_queues (h : MtxReach P false (σ 0)) (hc : CourseOf (MtxStep P false) σ) :
    ∃ Q : Nat → Nat → List Thr, ∀ n, MtxInv P (Q n) (σ n) ∧ MtxInv.QueueStep (Q n) (Q (n + 1)) := by
  have hn : ∀ n (Q : Nat → List Thr), ∃ Q', MtxInv P Q (σ n) →
      MtxInv P Q' (σ (n + 1)) ∧ MtxInv.QueueStep Q Q' := by
    intro n Q
    by_cases hI : MtxInv P Q (σ n)
    · rcases hc n with hs | hs
      · obtain ⟨Q', h1, h2⟩ := hI.step hs
        exact ⟨Q', fun _ => ⟨h2, h1⟩⟩
      · exact ⟨Q, fun _ => ⟨by rw [hs]; exact hI, .inl rfl⟩⟩
    · exact ⟨Q, fun h => absurd h hI⟩
  choose nx hnx using hn
  obtain ⟨Q0, h0⟩ := MtxInv.reachable h
  let Q : Nat → Nat → List Thr := fun n => Nat.rec Q0 (fun n q => nx n q) n
  have hI : ∀ n, MtxInv P (Q n) (σ n) := by
    intro n
    induction n with
    | zero => exact h0
    | succ n ih => exact (hnx n _ ih).1
  exact ⟨Q, fun n => ⟨hI n, (hnx n _ (hI n)).2⟩⟩

/-- While a thread waits for ever in a queue, the first thread of the queue finally stays the same. -/
theorem queue_head {Q : Nat → Nat → List Thr} (hs : ∀ n, MtxInv.QueueStep (Q n) (Q (n + 1)))
    {l : Nat} {t : Thr} : ∀ k N, (Q N l).idxOf t ≤ k →
    (∀ m, N ≤ m → t ∈ Q m l ∧ (Q m l).head? ≠ some t) →
    ∃ N' u, N ≤ N' ∧ ∀ m, N' ≤ m → (Q m l).head? = some u := by
  have one : ∀ n, t ∈ Q n l → t ∈ Q (n + 1) l → (Q (n + 1) l).head? = (Q n l).head? ∧
      (Q (n + 1) l).idxOf t = (Q n l).idxOf t ∨ (Q (n + 1) l).idxOf t < (Q n l).idxOf t ∨
      (Q n l).head? = some t := by
    intro n h1 h2
    rcases hs n with e | ⟨l', u, -, e⟩ | ⟨l', u, r, e1, e⟩
    · rw [e]; exact .inl ⟨rfl, rfl⟩
    · rw [e]
      by_cases hl : l = l'
      · subst hl
        rw [upd_self, List.idxOf_append_of_mem h1, List.head?_append]
        cases hq : Q n l with
        | nil => rw [hq] at h1; cases h1
        | cons a r => exact .inl ⟨rfl, rfl⟩
      · rw [upd_ne _ _ hl]; exact .inl ⟨rfl, rfl⟩
    · rw [e] at h2 ⊢
      by_cases hl : l = l'
      · subst hl
        rw [upd_self] at h2 ⊢
        by_cases ht : u = t
        · subst ht; exact .inr (.inr (by rw [e1]; rfl))
        · refine .inr (.inl ?_)
          rw [e1, List.idxOf_cons_ne _ ht]; omega
      · rw [upd_ne _ _ hl]; exact .inl ⟨rfl, rfl⟩
  intro k
  induction k with
  | zero =>
    intro N hk hm
    obtain ⟨h1, h2⟩ := hm N (Nat.le_refl _)
    cases hq : Q N l with
    | nil => rw [hq] at h1; cases h1
    | cons a r =>
      rw [hq] at hk h2
      by_cases e : a = t
      · subst e; exact absurd rfl h2
      · rw [List.idxOf_cons_ne _ e] at hk; omega
  | succ k ih =>
    intro N hk hm
    by_cases hx : ∃ n, N ≤ n ∧ (Q n l).idxOf t ≤ k
    · obtain ⟨n, h1, h2⟩ := hx
      obtain ⟨N', u, h3, h4⟩ := ih n h2 (fun m h => hm m (by omega))
      exact ⟨N', u, by omega, h4⟩
    · push Not at hx
      obtain ⟨h1, h2⟩ := hm N (Nat.le_refl _)
      obtain ⟨u, hu⟩ : ∃ u, (Q N l).head? = some u := by
        cases hq : Q N l with
        | nil => rw [hq] at h1; cases h1
        | cons a r => exact ⟨a, rfl⟩
      have key := forever (Q := fun m => (Q m l).head? = some u ∧ (Q m l).idxOf t ≤ k + 1) ⟨hu, hk⟩
        (fun m hNm hq => by
          have h3 := hx (m + 1) (by omega)
          rcases one m (hm m hNm).1 (hm (m + 1) (by omega)).1 with ⟨h4, h5⟩ | h4 | h4
          · exact ⟨h4.trans hq.1, by omega⟩
          · omega
          · exact absurd h4 (hm m hNm).2)
      exact ⟨N, u, Nat.le_refl _, fun m h => (key m h).1⟩

/-- Nobody starves. With the lock of the library, only the threads that have it need to be fair. -/
theorem mtx_leaves {O : MtxPc → Prop} (h0 : O .idle)
    (hO : ∀ p, O p → p = .idle ∨ (P.lib = true ∧ p.hasProc true = false))
    (h : MtxReach P false (σ 0)) (hc : CourseOf (MtxStep P false) σ)
    (hf : FairLocksOf (MtxMoves P) (fun t s => O (s.pc t)) σ) (t : Thr) (n : Nat) :
    ∃ m, n ≤ m ∧ O ((σ m).pc t) := by
  have hr := mtx_course h hc
  obtain ⟨Q, hQ⟩ := mtx_queues h hc
  have hI := fun n => (hQ n).1
  -- a thread that never returns is blocked for ever, at one position
  have busy : ∀ {t : Thr} {n : Nat}, (∀ m, n ≤ m → ¬ O ((σ m).pc t)) → ∀ m, n ≤ m → (σ m).pc t ≠ .idle :=
    fun hb m hm e => hb m hm (by rw [e]; exact h0)
  have stuck : ∀ {t : Thr} {n : Nat}, (∀ m, n ≤ m → ¬ O ((σ m).pc t)) →
      ∃ N, n ≤ N ∧ ∀ m, N ≤ m → (∀ s', ¬ MtxMoves P t (σ m) s') ∧ (σ m).pc t = (σ N).pc t := by
    intro t n hb
    have fwd : ∀ n, ¬ O ((σ n).pc t) → (σ (n + 1)).pc t = (σ n).pc t ∨
        mtxPlace ((σ n).pc t) < mtxPlace ((σ (n + 1)).pc t) := by
      intro n hn
      rcases hc n with hs | hs
      · rcases mtx_forward hs t with h1 | h1 | h1
        · exact .inl h1
        · exact absurd (by rw [h1]; exact h0) hn
        · exact .inr h1
      · rw [hs]; exact .inl rfl
    have le14 : ∀ p : MtxPc, mtxPlace p ≤ 14 := by intro p; cases p <;> simp [mtxPlace]
    obtain ⟨N, hN, hx⟩ := stuck_of_busy hf (fun s => 14 - mtxPlace (s.pc t)) (a := t)
      (fun n hn => by
        rcases fwd n hn with h1 | h1
        · rw [h1]
        · omega)
      (fun n hn hm => by
        rcases fwd n hn with h1 | h1
        · exact absurd h1 hm.2
        · have := le14 ((σ (n + 1)).pc t)
          omega) hb
    refine ⟨N, hN, fun m hm => ⟨hx m hm, ?_⟩⟩
    refine forever (Q := fun m => (σ m).pc t = (σ N).pc t) rfl (fun m hm e => ?_) m hm
    rw [← e]
    rcases hc m with hs | hs
    · by_contra hne
      exact hx m hm _ ⟨hs, hne⟩
    · rw [hs]
  -- the positions at which a thread can be blocked
  have can := fun {t : Thr} {N m : Nat}
      (hx : ∀ m, N ≤ m → (∀ s', ¬ MtxMoves P t (σ m) s') ∧ (σ m).pc t = (σ N).pc t)
      (hb : ∀ m, N ≤ m → (σ m).pc t ≠ .idle) (hm : N ≤ m) =>
    (mtx_can (hr m) (hb m hm)).resolve_left (fun ⟨s', h⟩ => (hx m hm).1 s' h)
  -- windows are free again and again
  have win : ∀ r N, ¬ ∀ m, N ≤ m → (σ m).win r ≠ none := by
    intro r N hne
    obtain ⟨v, hv⟩ := held_forever (own := fun n => (σ n).win r) (fun n => by
      rcases hc n with hs | hs
      · exact (mtx_locks hs r).1
      · rw [hs]; exact .inl rfl) hne
    have hw := fun m hm => ((hI m).win r v).1 (hv m hm)
    have hb : ∀ m, N ≤ m → ¬ O ((σ m).pc v) := by
      intro m hm e
      obtain ⟨l, h1, -⟩ := hw m hm
      rcases hO _ e with e | ⟨-, e⟩
      · rw [e] at h1; cases h1
      · revert h1 e
        cases (σ m).pc v <;> intro h1 e <;> first | cases h1; done | cases e
    obtain ⟨M, hM, hx⟩ := stuck hb
    obtain ⟨l, h1, -⟩ := hw M hM
    rcases can hx (fun m hm => busy hb m (by omega)) (Nat.le_refl M) with ⟨l', h2 | h2 | h2, -⟩ |
      ⟨l', h2 | h2 | h2, -⟩ | ⟨l', d, g, h2⟩ <;> (rw [h2] at h1; cases h1)
  -- so nobody waits for a window for ever
  have can2 : ∀ {t : Thr} {N : Nat},
      (∀ m, N ≤ m → (∀ s', ¬ MtxMoves P t (σ m) s') ∧ (σ m).pc t = (σ N).pc t) →
      (∀ m, N ≤ m → (σ m).pc t ≠ .idle) →
      (∃ l, ((σ N).pc t = .wantProc l ∨ (σ N).pc t = .reProc l ∨ (σ N).pc t = .relProc l)) ∨
      ∃ l d g, (σ N).pc t = .sending l d g := by
    intro t N hx hb
    rcases can hx hb (Nat.le_refl N) with ⟨l, h2, -⟩ | ⟨l, h2, -⟩ | h2
    · exfalso
      refine win (P.home l) N fun m hm => ?_
      have e := (hx m hm).2
      rcases can hx hb hm with ⟨l', h3, h4⟩ | ⟨l', h3, -⟩ | ⟨l', d, g, h3⟩
      · have : l' = l := by
          rw [e] at h3
          rcases h2 with h2 | h2 | h2 <;> rw [h2] at h3 <;> simp_all
        rw [← this]; exact h4
      · rw [e] at h3
        rcases h2 with h2 | h2 | h2 <;> rw [h2] at h3 <;> simp at h3
      · rw [e] at h3
        rcases h2 with h2 | h2 | h2 <;> rw [h2] at h3 <;> simp at h3
    · exact .inl ⟨l, h2⟩
    · exact .inr h2
  -- a mutex of a process that is never free is held by a thread that waits in the queue for ever
  have proc : ∀ r N, (∀ m, N ≤ m → (σ m).proc r ≠ none) → ∃ v M, N ≤ M ∧
      (∀ m, M ≤ m → (σ m).pc v = (σ M).pc v) ∧ ∃ l d g, (σ M).pc v = .sending l d g ∧ P.lib = true := by
    intro r N hne
    obtain ⟨v, hv⟩ := held_forever (own := fun n => (σ n).proc r) (fun n => by
      rcases hc n with hs | hs
      · exact (mtx_locks hs r).2
      · rw [hs]; exact .inl rfl) hne
    have hw := fun m hm => (((hI m).proc r v).1 (hv m hm)).1
    have hb : ∀ m, N ≤ m → ¬ O ((σ m).pc v) := by
      intro m hm e
      have h1 := hw m hm
      rcases hO _ e with e | ⟨hl, e⟩
      · rw [e] at h1; cases h1
      · rw [hl, e] at h1; cases h1
    obtain ⟨M, hM, hx⟩ := stuck hb
    have h1 := hw M hM
    rcases can2 hx (fun m hm => busy hb m (by omega)) with ⟨l', h2 | h2 | h2⟩ | ⟨l', d, g, h2⟩
    · rw [h2] at h1; cases h1
    · rw [h2] at h1; cases h1
    · rw [h2] at h1; cases h1
    · refine ⟨v, M, hM, fun m hm => (hx m hm).2, l', d, g, h2, ?_⟩
      rw [h2] at h1; exact h1
  -- nobody waits for ever in a queue
  have queue : ∀ v M, (∀ m, M ≤ m → (σ m).pc v = (σ M).pc v) → ∀ l d g,
      (σ M).pc v ≠ .sending l d g := by
    intro v M hx l d g hp
    obtain ⟨N, u, hN, hu⟩ := queue_head (fun n => (hQ n).2) (l := l) (t := v) _ M (Nat.le_refl _)
      (fun m hm => by
        have e : (σ m).pc v = .sending l d g := (hx m hm).trans hp
        refine ⟨((hI m).mem_iff l v).2 (.inr (by rw [e]; rfl)), fun h => ?_⟩
        have := ((hI m).head l v).1 h
        rw [e] at this; cases this)
    have ho := fun m hm => ((hI m).head l u).1 (hu m hm)
    have hb : ∀ m, N ≤ m → ¬ O ((σ m).pc u) := by
      intro m hm e
      have h1 := ho m hm
      rcases hO _ e with e | ⟨hl, e⟩
      · rw [e] at h1; cases h1
      · have h3 := (hI m).lib u hl
        revert h1 e h3
        cases (σ m).pc u <;> intro h1 e h3 <;> first | cases h1; done | cases e; done | cases h3
    obtain ⟨K, hK, hy⟩ := stuck hb
    have h1 := ho K hK
    have hbK := fun m (hm : K ≤ m) => busy hb m (by omega)
    rcases can2 hy hbK with ⟨l', h2 | h2⟩ | ⟨l', d', g', h2⟩
    · rw [h2] at h1; cases h1
    · -- without the lock of the library: the mutex of the process is free again and again
      have hlib : P.lib = false := by
        cases hl : P.lib with
        | false => rfl
        | true =>
          have h3 := (hI K).lib u hl
          rcases h2 with h2 | h2 <;> rw [h2] at h3 <;> cases h3
      have hne : ∀ m, K ≤ m → (σ m).proc u.rank ≠ none := by
        intro m hm
        have e := (hy m hm).2
        rcases can hy hbK hm with ⟨l1, h3, -⟩ | ⟨l1, -, h4⟩ | ⟨l1, d1, g1, h3⟩
        · rw [e] at h3; rcases h2 with h2 | h2 <;> rw [h2] at h3 <;> simp at h3
        · exact h4
        · rw [e] at h3; rcases h2 with h2 | h2 <;> rw [h2] at h3 <;> simp at h3
      obtain ⟨_, _, _, _, _, _, _, _, h5⟩ := proc _ _ hne
      rw [hlib] at h5; cases h5
    · rw [h2] at h1; cases h1
  -- the thread itself
  by_contra hx
  push Not at hx
  obtain ⟨M, hM, hs⟩ := stuck hx
  have hbM := fun m (hm : M ≤ m) => busy hx m (by omega)
  rcases can2 hs hbM with ⟨l, h2⟩ | ⟨l, d, g, h2⟩
  · have hne : ∀ m, M ≤ m → (σ m).proc t.rank ≠ none := by
      intro m hm
      have e := (hs m hm).2
      rcases can hs hbM hm with ⟨l1, h3, -⟩ | ⟨l1, -, h4⟩ | ⟨l1, d1, g1, h3⟩
      · rw [e] at h3; rcases h2 with h2 | h2 | h2 <;> rw [h2] at h3 <;> simp at h3
      · exact h4
      · rw [e] at h3; rcases h2 with h2 | h2 | h2 <;> rw [h2] at h3 <;> simp at h3
    obtain ⟨v, K, -, h5, l', d, g, h6, -⟩ := proc _ _ hne
    exact queue v K h5 l' d g h6
  · exact queue t M (fun m hm => (hs m hm).2) l d g h2

theorem mtx_returns (h : MtxReach P false (σ 0)) (hc : CourseOf (MtxStep P false) σ)
    (hf : FairLocksOf (MtxMoves P) (fun t s => s.pc t = .idle) σ) (t : Thr) (n : Nat) :
    ∃ m, n ≤ m ∧ (σ m).pc t = .idle :=
  mtx_leaves (O := (· = .idle)) rfl (fun _ => .inl) h hc hf t n

end Asagi
