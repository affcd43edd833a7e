import Verif.Proofs.TypeConc
/-
C80: the NUMA domains agree on the element type and use the complete MPI data type.
-/
namespace Asagi.Props

/-- C80: the masters of the NUMA domains call `check` at the same time, in every open. Whatever the
schedule, the result in a domain is the result of checking the files one after the other; in particular
it is the same in all domains. -/
theorem C80_verdict (P : ElemParams) (hb : ∀ b, P.cls ≠ .basic b) (hpos : ∀ k, 0 < P.varSize k)
    {s : ElemState} (h : ElemReach P s) (d k : Nat) (e : Error) (hv : s.verdict d k = some e) :
    ((TypeObj.new P.cls).checkAll ((List.range P.calls).map P.varSize)).2[k]? = some e := by
  obtain ⟨c, hi⟩ := ElemReach.inv (count_pos hpos) h
  have hlt := hi.verdictLt d k e hv
  have hk : ((List.range P.calls).map P.varSize)[k]? = some (P.varSize k) := by simp [hlt]
  have he := hi.verdict d k e hv
  rcases ha : P.cls.accepts (P.varSize k) with _ | _
  · rw [if_pos ha] at he
    rw [he]
    exact checkAll_invalid _ (TypeObj.new P.cls) hb k _ hk ha
  · have hf := hi.verdictFixed d k e hv ha
    rw [checkAll_result _ (TypeObj.new P.cls) hb s.fixed hf (Or.inr ⟨rfl, ?_⟩) k _ hk]
    · rw [he]; rfl
    · intro i v hiv hacc hbefore
      obtain ⟨k0, hk0, hk0'⟩ := hi.fix hf
      simp only [List.getElem?_map, Option.map_eq_some_iff] at hiv hbefore
      obtain ⟨i', hi', rfl⟩ := hiv
      have hile : i < P.calls ∧ i' = i := by
        rcases Nat.lt_or_ge i P.calls with hl | hl
        · simp [hl] at hi'; exact ⟨hl, hi'.symm⟩
        · simp [hl] at hi'
      obtain ⟨hl, rfl⟩ := hile
      have : FirstValid P i' := by
        refine ⟨hacc, fun j hj => hbefore j _ hj ⟨j, ?_, rfl⟩⟩
        rw [List.getElem?_range (by omega)]
      rw [hk0', hk0.unique this]
      rfl

/-- C80: two domains never disagree about a file. -/
theorem C80_same_verdict (P : ElemParams) (hb : ∀ b, P.cls ≠ .basic b) (hpos : ∀ k, 0 < P.varSize k)
    {s : ElemState} (h : ElemReach P s) (d d' k : Nat) (e e' : Error) (hv : s.verdict d k = some e)
    (hv' : s.verdict d' k = some e') : e = e' := by
  have h1 := C80_verdict P hb hpos h d k e hv
  have h2 := C80_verdict P hb hpos h d' k e' hv'
  rw [h1] at h2
  exact Option.some.inj h2

/-- C80: the MPI data type a domain uses for a level is committed, and covers exactly one value of the
variable of this file, although the domain that creates it does so without holding the lock. -/
theorem C80_type_complete (P : ElemParams) (hb : ∀ b, P.cls ≠ .basic b) (hpos : ∀ k, 0 < P.varSize k)
    {s : ElemState} (h : ElemReach P s) (d k : Nat) (m : MpiType) (hm : s.used d k = some m) :
    m = .committed (P.varSize k) := by
  obtain ⟨c, hi⟩ := ElemReach.inv (count_pos hpos) h
  obtain ⟨ha, hcnt, hf, k0, hk0, rfl⟩ := hi.used d k m hm
  obtain ⟨k1, hk1, hk1'⟩ := hi.fix hf
  obtain rfl := hk0.unique hk1
  congr 1
  cases hc : P.cls with
  | basic b => exact absurd hc (hb b)
  | struct b =>
    rw [hc] at hcnt hk1'
    simp only [TypeClass.count, TypeClass.mpiBytes] at *
    omega
  | array b =>
    rw [hc] at hcnt ha
    simp only [TypeClass.count, TypeClass.mpiBytes] at *
    have hd : P.varSize k % b.size = 0 := by simpa [TypeClass.accepts] using ha
    rw [← hcnt]
    exact Nat.div_mul_cancel (Nat.dvd_of_mod_eq_zero hd)

/-- C80: at most one data type is created for a grid, however many domains and levels there are. -/
theorem C80_created_once (P : ElemParams) (hpos : ∀ k, 0 < P.varSize k)
    {s : ElemState} (h : ElemReach P s) : s.created ≤ 1 := by
  obtain ⟨c, hi⟩ := ElemReach.inv (count_pos hpos) h
  cases hc : c with
  | none => have := (hi.before hc).2; omega
  | some d =>
    by_cases h1 : s.pc d = .create
    · have := (hi.atCreate d hc h1).2; omega
    by_cases h2 : s.pc d = .commit
    · have := (hi.atCommit d hc h2).1; omega
    · have := (hi.after d hc h1 h2).1; omega

/-- C80: the domains do not block each other: as long as a domain has not finished all its calls, some domain
can go on; and when a call is over, the domain has its result. -/
theorem C80_progress (P : ElemParams) (hpos : ∀ k, 0 < P.varSize k) {s : ElemState} (h : ElemReach P s) :
    ((∀ d < P.doms, s.call d = P.calls) ∨ ∃ s', ElemStep P s s') ∧
      ∀ d k, k < s.call d → s.verdict d k ≠ none := by
  have hb := BarrierInv.reach (count_pos hpos) h
  refine ⟨?_, fun d k hk => hb.result d k (.inl hk)⟩
  by_cases hall : ∀ d < P.doms, s.call d = P.calls
  · exact .inl hall
  · push Not at hall
    obtain ⟨d, hd, hne⟩ := hall
    exact .inr (elem_progress (count_pos hpos) h hd (Nat.lt_of_le_of_ne (hb.bound d) hne))

/-- C80: there are no infinite executions. Together with `C80_progress`: whatever the schedule, all domains
finish all calls. -/
theorem C80_terminates (P : ElemParams) (hpos : ∀ k, 0 < P.varSize k) (run : Nat → ElemState)
    (h : ElemReach P (run 0)) : ¬ ∀ n, ElemStep P (run n) (run (n + 1)) :=
  elem_finite (count_pos hpos) h

/-- Two domains open three files with float arrays of 3, 3 and 2 elements. -/
def twoDomains : ElemParams := ⟨.array .float, 2, 3, fun k => if k = 2 then 8 else 12⟩

/-- A domain may leave `check` with SUCCESS before the data type exists (the broadcast in between is
what C80_type_complete rests on). -/
theorem C80_success_before_type : ∃ s, ElemReach twoDomains s ∧ s.verdict 1 0 = some .SUCCESS ∧ s.mpi = .null := by
  have h0 : ElemReach twoDomains ElemState.fresh := .init rfl
  have h1 := h0.step (.start _ 0 (by decide) rfl (by decide) (by decide))
  have h2 := h1.step (.start _ 1 (by decide) rfl (by decide) (by decide))
  have h3 := h2.step (.lockFirst _ 0 (by decide) rfl rfl)
  have h4 := h3.step (.lockOther _ 1 (by decide) rfl (by decide) (by decide))
  exact ⟨_, h4, rfl, rfl⟩

/-- Hypotheses of C80 met: both domains use the type in the first call; the third file is rejected. -/
example : ∃ s, ElemReach twoDomains s ∧ s.used 0 0 = some (.committed 12) ∧ s.used 1 0 = some (.committed 12) ∧
    s.verdict 0 0 = some .SUCCESS ∧ s.verdict 1 0 = some .SUCCESS := by
  have h0 : ElemReach twoDomains ElemState.fresh := .init rfl
  have h1 := h0.step (.start _ 0 (by decide) rfl (by decide) (by decide))
  have h2 := h1.step (.start _ 1 (by decide) rfl (by decide) (by decide))
  have h3 := h2.step (.lockFirst _ 0 (by decide) rfl rfl)
  have h4 := h3.step (.lockOther _ 1 (by decide) rfl (by decide) (by decide))
  have h5 := h4.step (.arrive _ 1 (by decide) rfl)
  have h6 := h5.step (.create _ 0 (by decide) rfl)
  have h7 := h6.step (.commit _ 0 _ (by decide) rfl rfl)
  have h8 := h7.step (.arrive _ 0 (by decide) rfl)
  have h9 := h8.step (.leave _ 1 (by decide) rfl (by decide))
  have h10 := h9.step (.use _ 1 (by decide) rfl)
  have h11 := h10.step (.leave _ 0 (by decide) rfl (by decide))
  have h12 := h11.step (.use _ 0 (by decide) rfl)
  exact ⟨_, h12, rfl, rfl, rfl, rfl⟩

example : (∀ b, twoDomains.cls ≠ .basic b) ∧ (∀ k, 0 < twoDomains.varSize k) ∧
    ((TypeObj.new twoDomains.cls).checkAll ((List.range 3).map twoDomains.varSize)).2 =
      [.SUCCESS, .SUCCESS, .WRONG_SIZE] :=
  ⟨fun b => by simp [twoDomains], fun k => by simp only [twoDomains]; split <;> decide, by decide⟩

end Asagi.Props
