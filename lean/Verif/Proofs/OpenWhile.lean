import Verif.Spec.OpenWhile
import Verif.Proofs.ManyLevelsLocal
/-
Grids are opened and closed while other grids are used: proofs.
-/
namespace Asagi
open Spec Props
variable {α : Type} {G : Many α} {P : MixParams} {prog : Nat → List Nat} {f : Nat → OpenedFile α}
  {s s' : MixState G}

/-- The getters do not notice that other grids are opened and closed. -/
theorem open_many (h : MixReach G P prog s) : ManyReach G s.lv := by
  induction h with
  | init h => exact .init h.1
  | step _ hs ih =>
    cases hs with
    | level x h1 => exact .step ih h1
    | _ => exact ih

theorem open_during {i t : Nat} (h : MixDuring G P i t s s') : ManyDuring G i t s.lv s'.lv := by
  induction h with
  | refl => exact .refl _
  | tail _ hs hb ih =>
    cases hs with
    | level x h1 => exact .tail ih h1 hb
    | _ => exact ih

/-- What is left of the programs. -/
structure MixInv (P : MixParams) (prog : Nat → List Nat) (s : MixState G) : Prop where
  suffix : ∀ t, s.prog t <:+ prog t
  inside : ∀ t j, s.at_ t = some j → ∃ c rest, s.prog t = c :: rest ∧ j ≤ (P.kind c).rounds

theorem open_inv (h : MixReach G P prog s) : MixInv P prog s := by
  induction h with
  | init h =>
    obtain ⟨-, h2, h3⟩ := h
    exact ⟨fun t => by rw [h2], fun t j hj => by rw [h3] at hj; cases hj⟩
  | @step s s' _ hs ih =>
    cases hs with
    | level x => exact ⟨ih.suffix, ih.inside⟩
    | enter t c rest h1 h2 =>
      refine ⟨ih.suffix, fun u j hj => ?_⟩
      change upd s.at_ t _ u = _ at hj
      rw [upd_apply] at hj
      split at hj
      · next e => subst e; injection hj with hj; subst hj; exact ⟨c, rest, h1, Nat.zero_le _⟩
      · exact ih.inside u j hj
    | ret t c j rest h1 h2 h3 =>
      refine ⟨ih.suffix, fun u i hj => ?_⟩
      change upd s.at_ t _ u = _ at hj
      rw [upd_apply] at hj
      split at hj
      · next e => subst e; injection hj with hj; subst hj; exact ⟨c, rest, h1, h3⟩
      · exact ih.inside u i hj
    | leave t c rest h1 h2 =>
      refine ⟨fun u => ?_, fun u j hj => ?_⟩
      · change upd s.prog t rest u <:+ _
        rw [upd_apply]
        split
        · next e =>
          subst e
          exact ((List.suffix_cons c rest).trans (h1 ▸ List.suffix_refl _)).trans (ih.suffix u)
        · exact ih.suffix u
      · change upd s.at_ t _ u = _ at hj
        rw [upd_apply] at hj
        split at hj
        · cases hj
        · next e =>
          obtain ⟨c', r', h⟩ := ih.inside u j hj
          refine ⟨c', r', ?_, h.2⟩
          change upd s.prog t rest u = _
          rw [upd_ne _ _ e]; exact h.1

theorem lock_inside {t : Nat} (h : s.hasLock P t) : s.at_ t ≠ none := by
  obtain ⟨c, rest, i, -, h, -⟩ := h
  rw [h]; nofun

/-- `mpiLock` has one owner in each process. -/
theorem open_excl (h : MixReach G P prog s) :
    (∀ t u, s.hasLock P t → s.hasLock P u → G.rank t = G.rank u → t = u) ∧
    (∀ t u i, i < G.n → s.hasLock P t → (G.L i).uses .mpi (s.lv i) u → G.rank t ≠ G.rank u) ∧
    (∀ t, s.at_ t ≠ none → ∀ i, i < G.n → ¬ (G.L i).busy (s.lv i) t) := by
  induction h with
  | init h =>
    obtain ⟨h1, h2, h3⟩ := h
    have hn : ∀ t, _ → False := fun t (h : MixState.hasLock _ P t) => lock_inside h (by rw [h3])
    exact ⟨fun t _ h => (hn t h).elim, fun t _ _ _ h => (hn t h).elim, fun t h => absurd (by rw [h3]) h⟩
  | @step s s' hr hs ih =>
    obtain ⟨i1, i2, i3⟩ := ih
    have keep : ∀ t (at' : Nat → Option Nat), (∀ u, u ≠ t → at' u = s.at_ u) → ∀ u, u ≠ t →
        MixState.hasLock (G := G) { s with at_ := at' } P u → s.hasLock P u := by
      rintro t at' h1 u hu ⟨c, rest, i, h3, h4, h5⟩
      exact ⟨c, rest, i, h3, (h1 u hu).symm.trans h4, h5⟩
    cases hs with
    | level x h1 h2 h3 =>
      refine ⟨i1, fun t u i hi ht hu e => ?_, fun t ht i hi hb => ?_⟩
      · by_cases e' : (G.L i).uses .mpi (s.lv i) u
        · exact i2 t u i hi ht e' e
        · exact h3 i u hi hu e' t e ht
      · by_cases e : (G.L i).busy (s.lv i) t
        · exact i3 t ht i hi e
        · exact ht (h2 i t hi hb e).1
    | enter t c rest h1 h2 h3 h4 h5 =>
      have hk := keep t (upd s.at_ t (some 0)) (fun u hu => upd_ne _ _ hu)
      have hl : MixState.hasLock (G := G) { s with at_ := upd s.at_ t (some 0) } P t →
          P.lib = true ∧ (P.kind c).locked = true := by
        rintro ⟨c', r', i, g1, g2, g3, g4⟩
        change s.prog t = _ at g1
        rw [h1] at g1
        injection g1 with g1 _
        exact ⟨g3, g1 ▸ g4⟩
      refine ⟨fun a b ha hb e => ?_, fun a b i hi ha hb e => ?_, fun a ha i hi => ?_⟩
      · by_cases ea : a = t
        · by_cases eb : b = t
          · rw [ea, eb]
          · subst ea
            exact absurd (hk b eb hb) (h5 (hl ha).1 (hl ha).2 b e.symm).1
        · by_cases eb : b = t
          · subst eb
            exact absurd (hk a ea ha) (h5 (hl hb).1 (hl hb).2 a e).1
          · exact i1 a b (hk a ea ha) (hk b eb hb) e
      · by_cases ea : a = t
        · subst ea
          exact (h5 (hl ha).1 (hl ha).2 b e.symm).2 i hi hb
        · exact i2 a b i hi (hk a ea ha) hb e
      · by_cases ea : a = t
        · subst ea; exact h3 i hi
        · refine i3 a ?_ i hi
          change upd s.at_ t _ a ≠ none at ha
          rw [upd_ne _ _ ea] at ha; exact ha
    | ret t c j rest h1 h2 =>
      have hk : ∀ u, MixState.hasLock (G := G) { s with at_ := upd s.at_ t (some (j + 1)) } P u → s.hasLock P u := by
        intro u hu
        by_cases e : u = t
        · subst e
          obtain ⟨c', r', i, g1, g2, g3⟩ := hu
          exact ⟨c', r', j, g1, h2, g3⟩
        · exact keep t _ (fun u hu => upd_ne _ _ hu) u e hu
      refine ⟨fun a b ha hb => i1 a b (hk a ha) (hk b hb), fun a b i hi ha => i2 a b i hi (hk a ha), fun a ha => ?_⟩
      by_cases ea : a = t
      · subst ea; exact i3 a (by rw [h2]; nofun)
      · refine i3 a ?_
        change upd s.at_ t _ a ≠ none at ha
        rw [upd_ne _ _ ea] at ha; exact ha
    | leave t c rest h1 h2 =>
      have hk : ∀ u, MixState.hasLock (G := G)
          { s with prog := upd s.prog t rest, at_ := upd s.at_ t none } P u → s.hasLock P u := by
        rintro u ⟨c', r', i, g1, g2, g3⟩
        change upd s.prog t rest u = _ at g1
        change upd s.at_ t none u = _ at g2
        by_cases e : u = t
        · subst e; rw [upd_self] at g2; cases g2
        · rw [upd_ne _ _ e] at g1 g2; exact ⟨c', r', i, g1, g2, g3⟩
      refine ⟨fun a b ha hb => i1 a b (hk a ha) (hk b hb), fun a b i hi ha => i2 a b i hi (hk a ha), fun a ha => ?_⟩
      change upd s.at_ t none a ≠ none at ha
      rw [upd_apply] at ha
      split at ha
      · exact absurd rfl ha
      · exact i3 a ha

/-! ### Levels are used between `open` and `close` -/

/-- Operations are called in order. -/
theorem arrived_step (hP : OrderlyProgram G P prog) (h : MixReach G P prog s) (hs : MixStep G P s s') {c u j : Nat}
    (ha : s.arrived c u j) : s'.arrived c u j := by
  have hI := open_inv h
  cases hs with
  | level x => exact ha
  | enter t c' rest h1 h2 =>
    rcases ha with ha | ⟨r, i, g1, g2, g3⟩
    · exact .inl ha
    · have : u ≠ t := by rintro rfl; rw [h2] at g2; cases g2
      exact .inr ⟨r, i, g1, (upd_ne _ _ this).trans g2, g3⟩
  | ret t c' k rest h1 h2 =>
    rcases ha with ha | ⟨r, i, g1, g2, g3⟩
    · exact .inl ha
    · by_cases e : u = t
      · subst e
        rw [h2] at g2; injection g2 with g2; subst g2
        exact .inr ⟨r, k + 1, g1, upd_self .., by omega⟩
      · exact .inr ⟨r, i, g1, (upd_ne _ _ e).trans g2, g3⟩
  | leave t c' rest h1 h2 =>
    by_cases e : u = t
    · subst e
      refine .inl ?_
      change c ∉ upd s.prog u rest u
      rw [upd_self]
      have hsuf := hI.suffix u
      have hsort := (hP.sorted u).sublist hsuf.sublist
      rw [h1] at hsort
      rcases ha with ha | ⟨r, i, g1, g2, g3⟩
      · intro h; exact ha (by rw [h1]; exact List.mem_cons_of_mem _ h)
      · rw [h1] at g1
        injection g1 with g1 _
        subst g1
        intro h
        exact absurd ((List.pairwise_cons.1 hsort).1 _ h) (Nat.lt_irrefl _)
    · rcases ha with ha | ⟨r, i, g1, g2, g3⟩
      · refine .inl ?_
        change c ∉ upd s.prog t rest u
        rw [upd_ne _ _ e]; exact ha
      · exact .inr ⟨r, i, (upd_ne _ _ e).trans g1, (upd_ne _ _ e).trans g2, g3⟩

/-- Nobody has returned from an operation that somebody has not called. -/
theorem open_sync (hP : OrderlyProgram G P prog) (h : MixReach G P prog s) :
    ∀ c j u, j < (P.kind c).rounds → u ∈ P.members c → s.arrived c u (j + 1) →
      ∀ w ∈ P.members c, s.arrived c w j := by
  induction h with
  | init h =>
    obtain ⟨-, h2, h3⟩ := h
    intro c j u _ hu ha
    rcases ha with ha | ⟨r, i, g1, g2, g3⟩
    · rw [h2] at ha; exact absurd ((hP.members c u).1 hu) ha
    · rw [h3] at g2; cases g2
  | @step s s' hr hs ih =>
    intro c j u hj hu ha w hw
    have back : s.arrived c u (j + 1) → s'.arrived c w j := fun ha =>
      arrived_step hP hr hs (ih c j u hj hu ha w hw)
    cases hs with
    | level x => exact back ha
    | enter t c' rest h1 h2 =>
      rcases ha with ha | ⟨r, i, g1, g2, g3⟩
      · exact back (.inl ha)
      · by_cases e : u = t
        · subst e
          change upd s.at_ u (some 0) u = _ at g2
          rw [upd_self] at g2; injection g2 with g2; omega
        · change upd s.at_ t (some 0) u = _ at g2
          rw [upd_ne _ _ e] at g2
          exact back (.inr ⟨r, i, g1, g2, g3⟩)
    | ret t c' k rest h1 h2 h3 h4 =>
      rcases ha with ha | ⟨r, i, g1, g2, g3⟩
      · exact back (.inl ha)
      · by_cases e : u = t
        · subst e
          change upd s.at_ u _ u = _ at g2
          change s.prog u = _ at g1
          rw [upd_self] at g2; injection g2 with g2
          rw [h1] at g1; injection g1 with g1 _
          subst g1
          by_cases hk : j + 1 ≤ k
          · exact back (.inr ⟨rest, k, h1, h2, hk⟩)
          · have : j = k := by omega
            subst this
            exact arrived_step hP hr (.ret s u c' j rest h1 h2 h3 h4) (h4 w hw)
        · change upd s.at_ t _ u = _ at g2
          rw [upd_ne _ _ e] at g2
          exact back (.inr ⟨r, i, g1, g2, g3⟩)
    | leave t c' rest h1 h2 =>
      by_cases e : u = t
      · subst e
        rcases ha with ha | ⟨r, i, g1, g2, g3⟩
        · change c ∉ upd s.prog u rest u at ha
          rw [upd_self] at ha
          by_cases ec : c = c'
          · subst ec; exact back (.inr ⟨rest, _, h1, h2, hj⟩)
          · refine back (.inl ?_)
            rw [h1]
            intro h
            rcases List.mem_cons.1 h with h | h
            · exact ec h
            · exact ha h
        · change upd s.at_ u none u = _ at g2
          rw [upd_self] at g2; cases g2
      · rcases ha with ha | ⟨r, i, g1, g2, g3⟩
        · change c ∉ upd s.prog t rest u at ha
          rw [upd_ne _ _ e] at ha
          exact back (.inl ha)
        · change upd s.prog t rest u = _ at g1
          change upd s.at_ t none u = _ at g2
          rw [upd_ne _ _ e] at g1 g2
          exact back (.inr ⟨r, i, g1, g2, g3⟩)

/-- While a level is used in a process, it is open there. -/
theorem open_usable (hG : ∀ i, i < G.n → (G.L i).Safe (f i))
    (h : MixReach G P prog s) :
    ∀ i t, i < G.n → (G.L i).busy (s.lv i) t → s.usable P i (G.rank t) := by
  induction h with
  | init h => exact fun i t hi hb => absurd hb ((hG i hi).fresh _ t (h.1 i))
  | @step s s' hr hs ih =>
    have hfirst : ∀ i r, s.usable P i r → ∀ u, G.rank u = r → u ∈ P.members (P.opens i) →
        P.opens i ∉ s'.prog u := by
      intro i r hu u h1 h2
      have hn := hu.1 u h1 h2
      cases hs with
      | leave t c rest h3 =>
        change _ ∉ upd s.prog t rest u
        rw [upd_apply]
        split
        · next e => subst e; intro h; exact hn (by rw [h3]; exact List.mem_cons_of_mem _ h)
        · exact hn
      | _ => exact hn
    intro i t hi hb
    have same : s'.prog = s.prog → (∀ u, G.rank u = G.rank t → s'.at_ u = s.at_ u ∨ (P.closes i) ∉ (s.prog u).head?) →
        s.usable P i (G.rank t) → s'.usable P i (G.rank t) := by
      intro e1 e2 hu
      refine ⟨hfirst i _ hu, fun w h1 h2 ha => hu.2 w h1 h2 ?_⟩
      rcases ha with ha | ⟨r, j, g1, g2, g3⟩
      · rw [e1] at ha; exact .inl ha
      · rw [e1] at g1
        rcases e2 w h1 with e | e
        · rw [e] at g2; exact .inr ⟨r, j, g1, g2, g3⟩
        · rw [g1] at e; exact absurd rfl e
    cases hs with
    | level x h1 h2 h3 =>
      by_cases e : (G.L i).busy (s.lv i) t
      · exact ih i t hi e
      · exact (h2 i t hi hb e).2
    | enter u c rest h1 h2 h3 h4 =>
      refine same rfl (fun w hw => ?_) (ih i t hi hb)
      by_cases e : w = u
      · subst e
        refine .inr ?_
        rw [h1]
        intro h
        have hc : c = P.closes i := by simpa using h
        exact h4 i t hi hc.symm hw.symm hb
      · exact .inl (upd_ne _ _ e)
    | ret u c j rest h1 h2 =>
      have hu := ih i t hi hb
      refine ⟨hfirst i _ hu, fun w g1 g2 ha => hu.2 w g1 g2 ?_⟩
      rcases ha with ha | ⟨r, k, g3, g4, g5⟩
      · exact .inl ha
      · by_cases e : w = u
        · subst e; exact .inr ⟨r, j, g3, h2, Nat.zero_le _⟩
        · exact .inr ⟨r, k, g3, (upd_ne _ _ e).symm.trans g4, g5⟩
    | leave u c rest h1 h2 =>
      have hu := ih i t hi hb
      refine ⟨hfirst i _ hu, fun w g1 g2 ha => hu.2 w g1 g2 ?_⟩
      by_cases e : w = u
      · subst e
        by_cases ec : P.closes i = c
        · subst ec; exact .inr ⟨rest, _, h1, h2, Nat.zero_le _⟩
        · rcases ha with ha | ⟨r, k, g3, g4, g5⟩
          · refine .inl ?_
            change _ ∉ upd s.prog w rest w at ha
            rw [upd_self] at ha
            rw [h1]
            intro h
            rcases List.mem_cons.1 h with h | h
            · exact ec h
            · exact ha h
          · change upd s.at_ w none w = _ at g4
            rw [upd_self] at g4; cases g4
      · rcases ha with ha | ⟨r, k, g3, g4, g5⟩
        · change _ ∉ upd s.prog u rest w at ha
          rw [upd_ne _ _ e] at ha; exact .inl ha
        · change upd s.prog u rest w = _ at g3
          change upd s.at_ u none w = _ at g4
          rw [upd_ne _ _ e] at g3 g4
          exact .inr ⟨r, k, g3, g4, g5⟩

/-- Before the end of a section the later sections are not begun. -/
theorem later_not_begun (hP : OrderlyProgram G P prog) (h : MixReach G P prog s) {b c u : Nat}
    (hb : b ∈ s.prog u) (hbc : b < c) (hc : u ∈ P.members c) : NotBegun s c u := by
  obtain ⟨pre, hpre⟩ := (open_inv h).suffix u
  have hsort := hP.sorted u
  rw [← hpre] at hsort
  have hmem := (hP.members c u).1 hc
  rw [← hpre] at hmem
  obtain ⟨-, h2, h3⟩ := List.pairwise_append.1 hsort
  refine ⟨?_, fun _ hh => ?_⟩
  · rcases List.mem_append.1 hmem with h | h
    · have := h3 c h b hb
      omega
    · exact h
  · cases hp : s.prog u with
    | nil => rw [hp] at hb; cases hb
    | cons d rest =>
      rw [hp] at hh hb h2
      cases hh
      rcases List.mem_cons.1 hb with e | e
      · omega
      · have := (List.pairwise_cons.1 h2).1 b e
        omega

/-! ### Progress -/

/-- A quiet step of a level with new uses of locks that nobody has, and of `mpiLock` only where it is free. -/
theorem open_lift {i : Nat} {x : (G.L i).S} (hi : i < G.n) (hq : (G.L i).Quiet (s.lv i) x)
    (hu : ∀ k t, (G.L i).uses k x t → ¬ (G.L i).uses k (s.lv i) t → ∀ j u, j < G.n → ¬ (G.L j).uses k (s.lv j) u)
    (hl : ∀ t, (G.L i).uses .mpi x t → ¬ (G.L i).uses .mpi (s.lv i) t → ∀ u, G.rank u = G.rank t → ¬ s.hasLock P u) :
    ∃ s', MixQuiet G P s s' := by
  obtain ⟨h1, h2⟩ := many_lift hi hq hu
  refine ⟨_, .level s _ h1 (fun j t hj hb hn => ?_) (fun j t hj hm hn => ?_), h2⟩
  · by_cases e : j = i
    · subst e; rw [Function.update_self] at hb; exact absurd (hq.2 t hb) hn
    · rw [Function.update_of_ne e] at hb; exact absurd hb hn
  · by_cases e : j = i
    · subst e; rw [Function.update_self] at hm; exact hl t hm hn
    · rw [Function.update_of_ne e] at hm; exact absurd hm hn

theorem mix_progress (hP : OrderlyProgram G P prog) (hG : ∀ i, i < G.n → (G.L i).Good (f i))
    (hL : ∀ i, i < G.n → (G.L i).Local G.rank) (h : MixReach G P prog s) {t : Nat} (ht : StillBusy G s t) :
    ∃ s', MixQuiet G P s s' := by
  have hr := many_level (open_many h)
  by_cases hn : ∃ i u, i < G.n ∧ (G.L i).uses .netcdf (s.lv i) u
  · obtain ⟨i, u, hi, hu⟩ := hn
    obtain ⟨x, hq, hx⟩ := (hG i hi).netcdf _ u (hr i) hu
    exact open_lift hi hq (fun k v h1 h2 => absurd (hx k v h1) h2) fun v h1 h2 => absurd (hx _ v h1) h2
  by_cases hm : ∃ i u, i < G.n ∧ (G.L i).uses .mpi (s.lv i) u
  · obtain ⟨i, u, hi, hu⟩ := hm
    obtain ⟨x, hq, hx⟩ := (hG i hi).mpi _ u (hr i) hu
    refine open_lift hi hq (fun k v h1 h2 j w hj h3 => ?_) fun v h1 h2 => absurd (hx v h1) h2
    cases k with
    | mpi => exact h2 (hx v h1)
    | netcdf => exact hn ⟨j, w, hj, h3⟩
  have none_ : ∀ k j w, j < G.n → ¬ (G.L j).uses k (s.lv j) w := fun k j w hj h3 => by
    cases k with
    | mpi => exact hm ⟨j, w, hj, h3⟩
    | netcdf => exact hn ⟨j, w, hj, h3⟩
  have hI := open_inv h
  -- a thread at the end of a section can leave it
  by_cases hend : ∃ u c rest, s.prog u = c :: rest ∧ s.at_ u = some (P.kind c).rounds
  · obtain ⟨u, c, rest, h1, h2⟩ := hend
    exact ⟨_, .leave s u c rest h1 h2, fun _ h => h⟩
  -- who has the lock calls collective operations
  have hcoll : ∀ w j, s.at_ w = some j → CallsCollective P prog w := by
    intro w j hw
    obtain ⟨c, rest, g1, g2⟩ := hI.inside w j hw
    refine ⟨c, (hI.suffix w).subset (by rw [g1]; exact List.mem_cons_self ..), ?_⟩
    by_contra h0
    exact hend ⟨w, c, rest, g1, by rw [hw]; congr 1; omega⟩
  -- a thread that is not inside of a section and has the process for itself can continue
  have outside : ∀ u c rest, s.prog u = c :: rest → s.at_ u = none →
      (∀ w, G.rank w = G.rank u → ¬ s.hasLock P w) → ∃ s', MixQuiet G P s s' := by
    intro u c rest hp ha nolock
    have go : ∀ i v, i < G.n → G.rank v = G.rank u → (G.L i).busy (s.lv i) v → ∃ s', MixQuiet G P s s' := by
      intro i v hi hv hb
      obtain ⟨x, hq, hx⟩ := hL i hi _ v (hr i) hb fun w => none_ _ i w hi
      refine open_lift hi hq (fun k v _ _ j w hj => none_ k j w hj) fun w hw _ z hz => ?_
      exact nolock z (by rw [hz, hx w hw, hv])
    by_cases h1 : ∃ i, i < G.n ∧ (G.L i).busy (s.lv i) u
    · obtain ⟨i, hi, hb⟩ := h1
      exact go i u hi rfl hb
    by_cases h2 : ∃ i v, i < G.n ∧ P.closes i = c ∧ G.rank v = G.rank u ∧ (G.L i).busy (s.lv i) v
    · obtain ⟨i, v, hi, -, hv, hb⟩ := h2
      exact go i v hi hv hb
    exact ⟨_, .enter s u c rest hp ha (fun i hi hb => h1 ⟨i, hi, hb⟩)
      (fun i v hi hc hv hb => h2 ⟨i, v, hi, hc, hv, hb⟩)
      (fun _ _ w hw => ⟨nolock w hw, fun i hi => none_ _ i w hi⟩), fun _ h => h⟩
  by_cases hex : ∃ c u, CallsCollective P prog u ∧ c ∈ s.prog u
  · classical
    obtain ⟨c, ⟨u0, hu0, hc0⟩, hmin⟩ : ∃ c, (∃ u, CallsCollective P prog u ∧ c ∈ s.prog u) ∧
        ∀ d u, CallsCollective P prog u → d ∈ s.prog u → c ≤ d :=
      ⟨Nat.find hex, Nat.find_spec hex, fun d u h1 hd => Nat.find_min' hex ⟨u, h1, hd⟩⟩
    have hhead : ∀ u, CallsCollective P prog u → c ∈ s.prog u → ∃ rest, s.prog u = c :: rest := by
      intro u hcu hu
      cases hp : s.prog u with
      | nil => rw [hp] at hu; cases hu
      | cons d rest =>
        rw [hp] at hu
        have hs := (hP.sorted u).sublist (hI.suffix u).sublist
        rw [hp] at hs
        have h1 := hmin d u hcu (by rw [hp]; exact List.mem_cons_self ..)
        rcases List.mem_cons.1 hu with e | e
        · exact ⟨rest, by rw [e]⟩
        · have h2 := (List.pairwise_cons.1 hs).1 c e
          omega
    by_cases hout : ∃ u rest, CallsCollective P prog u ∧ s.prog u = c :: rest ∧ s.at_ u = none
    · obtain ⟨u, rest, hcu, hp, ha⟩ := hout
      refine outside u c rest hp ha ?_
      rintro w hw ⟨c', r', j, g1, g2, g3, -⟩
      have e : w = u := hP.one g3 w u (hcoll w j g2) hcu hw
      rw [e, ha] at g2; cases g2
    · have hin : ∃ j u rest, CallsCollective P prog u ∧ s.prog u = c :: rest ∧ s.at_ u = some j := by
        obtain ⟨rest, hp⟩ := hhead u0 hu0 hc0
        cases ha : s.at_ u0 with
        | none => exact absurd ⟨u0, rest, hu0, hp, ha⟩ hout
        | some j => exact ⟨j, u0, rest, hu0, hp, ha⟩
      obtain ⟨j, ⟨u, rest, hcu, hp, ha⟩, hmj⟩ :
          ∃ j, (∃ u rest, CallsCollective P prog u ∧ s.prog u = c :: rest ∧ s.at_ u = some j) ∧
            ∀ j' u rest, CallsCollective P prog u → s.prog u = c :: rest → s.at_ u = some j' → j ≤ j' :=
        ⟨Nat.find hin, Nat.find_spec hin, fun d u rest h0 h1 h2 => Nat.find_min' hin ⟨u, rest, h0, h1, h2⟩⟩
      obtain ⟨c', r', h1, h2⟩ := hI.inside u j ha
      rw [hp] at h1
      injection h1 with h1 _
      subst h1
      have hj : j ≠ (P.kind c).rounds := fun e => hend ⟨u, c, rest, hp, e ▸ ha⟩
      refine ⟨_, .ret s u c j rest hp ha (by omega) fun w hw => ?_, fun _ h => h⟩
      by_cases hc : c ∈ s.prog w
      · have hcw : CallsCollective P prog w := ⟨c, (hP.members c w).1 hw, by omega⟩
        obtain ⟨rw', hpw⟩ := hhead w hcw hc
        cases haw : s.at_ w with
        | none => exact absurd ⟨w, rw', hcw, hpw, haw⟩ hout
        | some i => exact .inr ⟨rw', i, hpw, haw, hmj i w rw' hcw hpw haw⟩
      · exact .inl hc
  · -- only sections without collective operations are left
    have nolock : ∀ w, ¬ s.hasLock P w := by
      rintro w ⟨c, r, j, g1, g2, -⟩
      exact hex ⟨c, w, hcoll w j g2, by rw [g1]; exact List.mem_cons_self ..⟩
    by_cases hall : ∃ u c rest, s.prog u = c :: rest
    · obtain ⟨u, c, rest, hp⟩ := hall
      cases ha : s.at_ u with
      | none => exact outside u c rest hp ha fun w _ => nolock w
      | some j => exact absurd ⟨c, u, hcoll u j ha, by rw [hp]; exact List.mem_cons_self ..⟩ hex
    · rcases ht with ⟨i, hi, hb⟩ | ht
      · obtain ⟨x, hq⟩ := (hG i hi).free _ t (hr i) hb
        exact open_lift hi hq (fun k v _ _ j w hj => none_ k j w hj) fun v _ _ u _ => nolock u
      · cases hp : s.prog t with
        | nil => exact absurd hp ht
        | cons c rest => exact absurd ⟨t, c, rest, hp⟩ hall

/-- The steps that a thread still has to take in sections. -/
def MixState.left (P : MixParams) (s : MixState G) (t : Nat) : Nat :=
  ((s.prog t).map fun c => (P.kind c).rounds + 2).sum - (s.at_ t).elim 0 (· + 1)

/-- Each step of a section decreases it. -/
theorem left_step (hs : MixStep G P s s') :
    ManyStep G s.lv s'.lv ∧ s'.prog = s.prog ∧ s'.at_ = s.at_ ∨
    s'.lv = s.lv ∧ ∃ t, s.prog t ≠ [] ∧ s'.left P t + 1 ≤ s.left P t ∧ ∀ u, u ≠ t → s'.left P u = s.left P u := by
  cases hs with
  | level x h1 => exact .inl ⟨h1, rfl, rfl⟩
  | enter t c rest h1 h2 =>
    refine .inr ⟨rfl, t, by rw [h1]; nofun, ?_, fun u hu => ?_⟩
    · simp only [MixState.left, upd_self, h1, h2, List.map_cons, List.sum_cons, Option.elim_none, Option.elim_some]; omega
    · simp only [MixState.left, upd_ne _ _ hu]
  | ret t c j rest h1 h2 h3 =>
    refine .inr ⟨rfl, t, by rw [h1]; nofun, ?_, fun u hu => ?_⟩
    · simp only [MixState.left, upd_self, h1, h2, List.map_cons, List.sum_cons, Option.elim_some]; omega
    · simp only [MixState.left, upd_ne _ _ hu]
  | leave t c rest h1 h2 =>
    refine .inr ⟨rfl, t, by rw [h1]; nofun, ?_, fun u hu => ?_⟩
    · simp only [MixState.left, upd_self, h1, h2, List.map_cons, List.sum_cons, Option.elim_none, Option.elim_some]; omega
    · simp only [MixState.left, upd_ne _ _ hu]

theorem open_quiet_reach {n : Nat} (h : MixReach G P prog s) (hr : MixQuietRun G P n s s') :
    MixReach G P prog s' := by
  induction hr with
  | zero => exact h
  | succ _ hq ih => exact .step (ih h) hq.1

theorem open_bound (hP : OrderlyProgram G P prog) (hG : ∀ i, i < G.n → (G.L i).Good (f i))
    (h : MixReach G P prog s) : ∃ N, ∀ n s', MixQuietRun G P n s s' → n ≤ N := by
  obtain ⟨M, hM⟩ := hP.finite
  obtain ⟨N, hN⟩ := many_bound hG (open_many h)
  refine ⟨N + ∑ t ∈ Finset.range M, s.left P t, fun n s' hr => ?_⟩
  have key : ∃ a, ManyQuietRun G a s.lv s'.lv ∧
      n + ∑ t ∈ Finset.range M, s'.left P t ≤ a + ∑ t ∈ Finset.range M, s.left P t := by
    clear hN
    induction hr with
    | zero => exact ⟨0, .zero _, by omega⟩
    | @succ n s s1 s2 hr hq ih =>
      obtain ⟨a, h1, h2⟩ := ih h
      have hr1 := open_quiet_reach h hr
      rcases left_step hq.1 with ⟨g1, g2, g3⟩ | ⟨g1, t, g2, g3, g4⟩
      · have e : ∀ u, s2.left P u = s1.left P u := fun u => by simp only [MixState.left, g2, g3]
        refine ⟨a + 1, .succ h1 ⟨g1, hq.2⟩, ?_⟩
        simp only [e]; omega
      · refine ⟨a, by rw [g1]; exact h1, ?_⟩
        have ht : t < M := by
          by_contra hc
          have := (open_inv hr1).suffix t
          rw [hM t (by omega)] at this
          exact g2 (List.suffix_nil.1 this)
        have : ∑ t ∈ Finset.range M, s2.left P t < ∑ t ∈ Finset.range M, s1.left P t := by
          refine Finset.sum_lt_sum (fun u _ => ?_) ⟨t, Finset.mem_range.2 ht, by omega⟩
          by_cases e : u = t
          · subst e; omega
          · rw [g4 u e]
        omega
  obtain ⟨a, h1, h2⟩ := key
  have := hN a _ h1
  omega

/-! ### Sequences of calls -/

theorem sections_threads (c : LifeCall) (k : MpiSection) (ms : List Nat) (h : (k, ms) ∈ c.sections) (hk : 0 < k.rounds) :
    ms = c.threads := by
  have hd : ∀ ts ls, (k, ms) ∈ List.flatMap (LevelComm.destroy ts) ls → ms = ts := by
    intro ts ls h
    obtain ⟨l, -, h⟩ := List.mem_flatMap.1 h
    cases l with
    | full d => simp only [LevelComm.destroy, List.mem_append, List.mem_replicate, List.mem_cons, Prod.mk.injEq] at h; tauto
    | cache => simp only [LevelComm.destroy, List.mem_cons, Prod.mk.injEq] at h; tauto
    | other => cases h
  cases c with
  | setComm ts => simp only [LifeCall.sections, List.mem_singleton, Prod.mk.injEq] at h; exact h.2
  | open_ ts hs l =>
    cases l <;> simp only [LifeCall.sections, LevelComm.create, List.mem_cons, Prod.mk.injEq, List.not_mem_nil, or_false] at h
    · rcases h with h | h | ⟨rfl, -⟩ | h
      · exact h.2
      · exact h.2
      · cases hk
      · exact h.2
    · rcases h with h | h | h | h <;> exact h.2
    · exact h.2
  | close ts ls =>
    simp only [LifeCall.sections, List.mem_cons, List.mem_append, Prod.mk.injEq, List.not_mem_nil, or_false] at h
    rcases h with h | h | h | h
    · exact h.2
    · exact h.2
    · exact hd ts ls h
    · exact h.2

theorem history_bound (l : List (MpiSection × List Nat)) : ∃ M, ∀ p ∈ l, ∀ t ∈ p.2, t < M := by
  have one : ∀ m : List Nat, ∃ M, ∀ t ∈ m, t < M := by
    intro m
    induction m with
    | nil => exact ⟨0, nofun⟩
    | cons a m ih =>
      obtain ⟨M, hM⟩ := ih
      refine ⟨max M (a + 1), fun t ht => ?_⟩
      rcases List.mem_cons.1 ht with rfl | ht
      · omega
      · have := hM t ht
        omega
  obtain ⟨M, hM⟩ := one (l.flatMap (·.2))
  exact ⟨M, fun p hp t ht => hM t (List.mem_flatMap.2 ⟨p, hp, ht⟩)⟩

theorem history_at (cs : List LifeCall) {k : Nat} {c : LifeCall} (h : cs[k]? = some c) (j : Nat) (hj : j < c.sections.length) :
    (historySections cs)[(historySections (cs.take k)).length + j]? = c.sections[j]? := by
  obtain ⟨hk, rfl⟩ := List.getElem?_eq_some_iff.1 h
  have e : historySections cs =
      historySections (cs.take k) ++ (cs[k].sections ++ historySections (cs.drop (k + 1))) := by
    unfold historySections
    conv_lhs => rw [← List.take_append_drop k cs, List.drop_eq_getElem_cons hk]
    rw [List.flatMap_append, List.flatMap_cons]
  rw [e, List.getElem?_append_right (by omega), Nat.add_sub_cancel_left, List.getElem?_append_left hj]

theorem history_orderly {lib : Bool} {cs : List LifeCall} {op cl : Nat → Option Nat} (h : OrderlyHistory G lib cs op cl) :
    OrderlyProgram G (historyParams lib cs op cl) (historyProg cs) := by
  have mem : ∀ c t, c ∈ historyProg cs t ↔ ∃ p, (historySections cs)[c]? = some p ∧ t ∈ p.2 := by
    intro c t
    unfold historyProg
    rw [List.mem_filter, List.mem_range]
    constructor
    · rintro ⟨h1, h2⟩
      refine ⟨(historySections cs)[c], List.getElem?_eq_getElem h1, ?_⟩
      rw [List.getElem?_eq_getElem h1] at h2
      simpa using h2
    · rintro ⟨p, h1, h2⟩
      refine ⟨(List.getElem?_eq_some_iff.1 h1).1, ?_⟩
      rw [h1]; simpa using h2
  constructor
  · obtain ⟨M, hM⟩ := history_bound (historySections cs)
    refine ⟨M, fun t ht => List.eq_nil_iff_forall_not_mem.2 fun c hc => ?_⟩
    obtain ⟨p, h1, h2⟩ := (mem c t).1 hc
    have := hM p (List.mem_of_getElem? h1) t h2
    omega
  · exact fun t => List.Pairwise.sublist List.filter_sublist List.pairwise_lt_range
  · intro c t
    rw [mem]
    change t ∈ ((historySections cs)[c]?.map (·.2)).getD [] ↔ _
    cases hc : (historySections cs)[c]? with
    | none => simp
    | some p => simp
  · have calls : ∀ t, CallsCollective (historyParams lib cs op cl) (historyProg cs) t → ∃ c ∈ cs, t ∈ c.threads := by
      rintro t ⟨c, h1, h2⟩
      obtain ⟨⟨k, ms⟩, h3, h4⟩ := (mem c t).1 h1
      simp only [historyParams, h3] at h2
      obtain ⟨g, hg, h5⟩ := List.mem_flatMap.1 (List.mem_of_getElem? h3)
      exact ⟨g, hg, by rw [← sections_threads g k ms h5 h2]; exact h4⟩
    intro hl t u ht hu hr
    obtain ⟨c, hc, ht⟩ := calls t ht
    obtain ⟨d, hd, hu⟩ := calls u hu
    exact h.one hl c hc d hd t ht u hu hr
  · intro i hi
    simp only [historyParams]
    cases hcl : cl i with
    | none => simp
    | some k =>
      obtain ⟨ts, ls, hk⟩ := h.closed i k hi hcl
      have := history_at cs hk 0 (by simp [LifeCall.sections])
      rw [Nat.add_zero] at this
      simp only [this]; rfl

/-- The last section of the call that opens a level. -/
theorem history_opens {lib : Bool} {cs : List LifeCall} {op cl : Nat → Option Nat} {i k : Nat} (ho : op i = some k)
    {ts hs : List Nat} {l : LevelComm} (hk : cs[k]? = some (.open_ ts hs l)) :
    (historyParams lib cs op cl).kind ((historyParams lib cs op cl).opens i) = (match l with
      | .full _ => .createFull
      | .cache => .createCache
      | .other => .makeType) ∧
    (historyParams lib cs op cl).members ((historyParams lib cs op cl).opens i) = ts := by
  have e : (historyParams lib cs op cl).opens i = (historySections (cs.take k)).length + ((l.create ts hs).length - 1) := by
    simp only [historyParams, ho]
    obtain ⟨hk', hk''⟩ := List.getElem?_eq_some_iff.1 hk
    rw [List.take_succ_eq_append_getElem hk', historySections, List.flatMap_append, List.length_append, hk'']
    simp only [List.flatMap_cons, List.flatMap_nil, List.append_nil, LifeCall.sections, historySections]
    cases l <;> simp [LevelComm.create]
  have := history_at cs hk ((l.create ts hs).length - 1) (by cases l <;> simp [LifeCall.sections, LevelComm.create])
  simp only [LifeCall.sections] at this
  constructor
  · simp only [historyParams] at e ⊢
    rw [e, this]
    cases l <;> rfl
  · simp only [historyParams] at e ⊢
    rw [e, this]
    cases l <;> rfl

end Asagi
