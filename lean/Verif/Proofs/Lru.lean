import Verif.Model.Lru
/- Invariants of the two-handed clock and of the cache bookkeeping. -/
namespace Asagi

@[simp] theorem Res.bind_ok {β γ : Type} (a : β) (f : β → Res γ) :
    (Res.ok a >>= f) = f a := rfl
@[simp] theorem Res.pure_eq {β : Type} (a : β) : (pure a : Res β) = Res.ok a := rfl

/-- Invariant of the clock with hand distance `h`. -/
structure LruInv (l : Lru) (h : Nat) : Prop where
  hsize : h < l.size
  len : l.referenced.length = l.size
  page : l.nextPage < l.size
  clear : l.nextClear = (l.nextPage + 1 + h) % l.size
  /-- the slots between the hands are initialised -/
  ini : ∀ j, j < h → ∃ b, l.referenced[(l.nextPage + 1 + j) % l.size]? = some (some b)

theorem Lru.init_inv {size : Nat} {handDiff : Int} (hs : 0 < size) (hd : handDiff < size) :
    ∃ l h, Lru.init size handDiff = some l ∧ LruInv l h ∧ l.size = size ∧
      h = (if handDiff < 0 then size / 2 else handDiff.toNat) := by
  let h := if handDiff < 0 then size / 2 else handDiff.toNat
  have hh : h < size := by simp only [h]; split <;> omega
  refine ⟨{ size, nextPage := size - 1, nextClear := h,
            referenced := List.replicate h (some false) ++
             List.replicate (size - h) none }, h, ?_, ?_, rfl, rfl⟩
  · have : h ≤ size := by omega
    simp only [Lru.init]
    exact if_pos this
  · constructor
    · exact hh
    · simp; omega
    · simp only; omega
    · simp only
      rw [show size - 1 + 1 + h = h + size by omega, Nat.add_mod_right, Nat.mod_eq_of_lt hh]
    · intro j hj
      simp only
      rw [show size - 1 + 1 + j = j + size by omega, Nat.add_mod_right,
        Nat.mod_eq_of_lt (by omega : j < size)]
      exact ⟨false, by rw [List.getElem?_append_left (by simpa using hj)]; simp [hj]⟩

theorem LruInv.access {l : Lru} {h i : Nat} (inv : LruInv l h) (hi : i < l.size) :
    ∃ l', l.access i = .ok l' ∧ LruInv l' h ∧ l'.size = l.size ∧ l'.nextPage = l.nextPage ∧
      l'.referenced = l.referenced.set i (some true) := by
  refine ⟨{ l with referenced := l.referenced.set i (some true) }, ?_, ?_, rfl, rfl, rfl⟩
  · simp [Lru.access, inv.len, hi]
  · refine ⟨inv.hsize, by simpa using inv.len, inv.page, inv.clear, ?_⟩
    intro j hj
    obtain ⟨b, hb⟩ := inv.ini j hj
    simp only [List.getElem?_set]
    split
    · rename_i he
      refine ⟨true, ?_⟩
      rw [if_pos (by rw [inv.len]; exact Nat.lt_of_le_of_lt (Nat.le_of_eq he) (by
        rw [← he]; exact hi))]
    · exact ⟨b, hb⟩

theorem mod_shift (p k n : Nat) : ((p + 1) % n + k) % n = (p + (k + 1)) % n := by
  rw [Nat.mod_add_mod]; congr 1; omega

theorem mod_inj {p a b n : Nat} (ha : a < n) (hb : b < n) (h : (p + a) % n = (p + b) % n) :
    a = b := by
  have h1 : (p + a) % n = (p % n + a) % n := by rw [Nat.mod_add_mod]
  have h2 : (p + b) % n = (p % n + b) % n := by rw [Nat.mod_add_mod]
  rw [h1, h2] at h
  have hp : p % n < n := Nat.mod_lt _ (by omega)
  generalize p % n = q at *
  have key : ∀ x, x < n → (q + x) % n = if q + x < n then q + x else q + x - n := by
    intro x hx
    split
    · exact Nat.mod_eq_of_lt (by assumption)
    · rw [Nat.mod_eq_sub_mod (by omega)]; exact Nat.mod_eq_of_lt (by omega)
  rw [key a ha, key b hb] at h
  split at h <;> split at h <;> omega

theorem LruInv.step {l : Lru} {h : Nat} (inv : LruInv l h) :
    ∃ l', l.step = .ok l' ∧ LruInv l' h ∧ l'.size = l.size ∧
      l'.nextPage = (l.nextPage + 1) % l.size ∧
      l'.referenced = l.referenced.set ((l.nextPage + 1 + h) % l.size) (some false) := by
  have hs : 0 < l.size := by have := inv.hsize; omega
  have hc : l.nextClear < l.referenced.length := by
    rw [inv.len, inv.clear]; exact Nat.mod_lt _ hs
  refine ⟨{ l with
      referenced := l.referenced.set l.nextClear (some false)
      nextPage := (l.nextPage + 1) % l.size
      nextClear := (l.nextClear + 1) % l.size }, ?_, ?_, rfl, rfl, ?_⟩
  · simp [Lru.step, hc, hs]
  · refine ⟨inv.hsize, by simpa using inv.len, Nat.mod_lt _ hs, ?_, ?_⟩
    · simp only [inv.clear]
      rw [Nat.mod_add_mod, Nat.add_assoc ((l.nextPage + 1) % l.size), Nat.mod_add_mod]
      congr 1; omega
    · intro j hj
      simp only
      have e : ((l.nextPage + 1) % l.size + 1 + j) % l.size = (l.nextPage + 1 + (j + 1)) % l.size := by
        rw [Nat.add_assoc, Nat.mod_add_mod]; congr 1; omega
      rw [e, List.getElem?_set]
      split
      · rename_i he
        exact ⟨false, by simp⟩
      · rename_i he
        by_cases hj1 : j + 1 < h
        · exact inv.ini (j + 1) hj1
        · exfalso
          apply he
          rw [inv.clear]
          have : j + 1 = h := by omega
          rw [this]
  · simp only [inv.clear]

/-- Description of the slot chosen by the loop: after `i` moves of the hand. -/
theorem getFreeLoop_spec (h : Nat) (l : Lru) (inv : LruInv l h) (c fuel : Nat) (hc : c ≤ h)
    (hfuel : h + 1 - c ≤ fuel)
    (hclear : ∀ j, j < c → l.referenced[(l.nextPage + 1 + h - 1 - j) % l.size]? =
      some (some false)) :
    ∃ l' i, Lru.getFreeLoop fuel l = .ok l' ∧ LruInv l' h ∧ l'.size = l.size ∧
      1 ≤ i ∧ i ≤ h + 1 - c ∧ l'.nextPage = (l.nextPage + i) % l.size ∧
      l'.referenced[l'.nextPage]? = some (some false) ∧
      (∀ j, 1 ≤ j → j < i → l.referenced[(l.nextPage + j) % l.size]? = some (some true)) ∧
      (i ≤ h → l.referenced[(l.nextPage + i) % l.size]? = some (some false)) ∧
      (∀ k, k < l.size → l'.referenced[k]? = l.referenced[k]? ∨
        l'.referenced[k]? = some (some false)) ∧
      (∀ j, 1 ≤ j → j ≤ i →
        l'.referenced[(l.nextPage + h + j) % l.size]? = some (some false)) ∧
      (∀ k, k < l.size → (∀ j, 1 ≤ j → j ≤ i → k ≠ (l.nextPage + h + j) % l.size) →
        l'.referenced[k]? = l.referenced[k]?) := by
  have hs := inv.hsize
  induction fuel generalizing l c with
  | zero => omega
  | succ fuel ih =>
    obtain ⟨l1, e1, inv1, s1, p1, r1⟩ := inv.step
    simp only [Lru.getFreeLoop, e1, Res.bind_ok]
    have hl1 : ∀ k, l1.referenced[(l.nextPage + 1 + k) % l.size]? =
        if (l.nextPage + 1 + h) % l.size = (l.nextPage + 1 + k) % l.size then
          some (some false) else l.referenced[(l.nextPage + 1 + k) % l.size]? := by
      intro k
      rw [r1, List.getElem?_set]
      split
      · rw [if_pos (by rw [inv.len]; exact Nat.mod_lt _ (by omega))]
      · rfl
    have hread : ∃ b, l1.referenced[l1.nextPage]? = some (some b) := by
      rw [p1]
      have := hl1 0
      simp only [Nat.add_zero] at this
      rw [this]
      split
      · exact ⟨false, rfl⟩
      · rename_i hne
        by_cases h0 : 0 < h
        · obtain ⟨b, hb⟩ := inv.ini 0 h0
          exact ⟨b, by simpa using hb⟩
        · exfalso; apply hne
          have : h = 0 := by omega
          rw [this]
    obtain ⟨b, hb⟩ := hread
    rw [hb]
    cases b with
    | false =>
      refine ⟨l1, 1, rfl, inv1, s1, Nat.le_refl _, by omega, p1, hb, ?_, ?_, ?_, ?_, ?_⟩
      · intro j h1 h2; omega
      · intro h1
        have h2 := hl1 0
        simp only [Nat.add_zero] at h2
        rw [if_neg (by
          intro he
          have := mod_inj (p := l.nextPage + 1) (a := h) (b := 0) hs (by omega) he
          omega)] at h2
        rw [← h2, ← p1, hb]
      · intro k hk
        rw [r1, List.getElem?_set]
        split
        · right; rw [if_pos (by rw [inv.len]; exact Nat.mod_lt _ (by omega))]
        · left; rfl
      · intro j hj1 hj2
        have hj : j = 1 := by omega
        subst hj
        rw [r1, show l.nextPage + h + 1 = l.nextPage + 1 + h by omega, List.getElem?_set,
          if_pos rfl, if_pos (by rw [inv.len]; exact Nat.mod_lt _ (by omega))]
      · intro k hk hkn
        rw [r1, List.getElem?_set_ne]
        have := hkn 1 (by omega) (by omega)
        rw [show l.nextPage + h + 1 = l.nextPage + 1 + h by omega] at this
        exact fun h => this h.symm
    | true =>
      -- the next iteration; one more slot before the clear hand is known to be clear
      have hch : c < h := by
        rcases Nat.lt_or_ge c h with h1 | h1
        · exact h1
        · exfalso
          have hch : c = h := by omega
          have h2 := hl1 0
          simp only [Nat.add_zero] at h2
          rw [← p1, hb] at h2
          split at h2
          · simp at h2
          · rename_i hne
            have h0 : 0 < h := by
              rcases Nat.eq_zero_or_pos h with h0 | h0
              · exfalso; apply hne; rw [h0, p1]
              · exact h0
            have h3 := hclear (h - 1) (by omega)
            rw [show l.nextPage + 1 + h - 1 - (h - 1) = l.nextPage + 1 by omega] at h3
            rw [p1, h3] at h2
            simp at h2
      obtain ⟨l2, i, f1, f2, f3, f4, f5, f6, f7, f8, f9, f10, f11, f12⟩ :=
        ih l1 inv1 (c + 1) (by omega) (by omega)
        (by
          intro j hj
          rw [p1, s1]
          have e : ((l.nextPage + 1) % l.size + 1 + h - 1 - j) % l.size =
              (l.nextPage + 1 + (h - j)) % l.size := by
            rw [show (l.nextPage + 1) % l.size + 1 + h - 1 - j =
              (l.nextPage + 1) % l.size + (h - j) by omega, Nat.mod_add_mod]
          rw [e, hl1]
          split
          · rfl
          · rename_i hne
            cases j with
            | zero => exact absurd rfl hne
            | succ j =>
              have := hclear j (by omega)
              rw [← this]
              congr 2; omega)
        (by rw [s1]; exact hs)
      rw [s1] at f3 f6 f8 f9 f10 f11 f12
      refine ⟨l2, i + 1, f1, f2, f3, by omega, by omega, ?_, f7, ?_, ?_, ?_, ?_, ?_⟩
      · rw [f6, p1, Nat.mod_add_mod]; congr 1; omega
      · intro j hj1 hj2
        have key : ∀ j', j = j' + 1 → j' < h →
            l1.referenced[(l.nextPage + 1 + j') % l.size]? = some (some true) →
            l.referenced[(l.nextPage + j) % l.size]? = some (some true) := by
          intro j' hjj hlt hx
          subst hjj
          rw [hl1] at hx
          split at hx
          · simp at hx
          · rw [← hx]; congr 2; omega
        cases j with
        | zero => omega
        | succ j =>
          cases j with
          | zero =>
            apply key 0 rfl (by omega)
            simpa [p1] using hb
          | succ j =>
            apply key (j + 1) rfl (by omega)
            have := f8 (j + 1) (by omega) (by omega)
            rw [p1, Nat.mod_add_mod] at this
            exact this
      · intro hi
        have h1 := f9 (by omega)
        rw [p1, Nat.mod_add_mod, hl1] at h1
        split at h1
        · rename_i he
          have := mod_inj (p := l.nextPage + 1) (a := h) (b := i) hs (by omega) he
          omega
        · rw [← h1]; congr 2; omega
      · intro k hk
        rcases f10 k hk with h1 | h1
        · rw [h1, r1, List.getElem?_set]
          split
          · right; rw [if_pos (by rw [inv.len]; exact Nat.mod_lt _ (by omega))]
          · left; rfl
        · right; exact h1
      · intro j hj1 hj2
        cases j with
        | zero => omega
        | succ j =>
          cases j with
          | zero =>
            rcases f10 ((l.nextPage + h + 1) % l.size) (Nat.mod_lt _ (by omega)) with hx | hx
            · rw [Nat.zero_add, hx, r1,
                show l.nextPage + h + 1 = l.nextPage + 1 + h by omega, List.getElem?_set,
                if_pos rfl, if_pos (by rw [inv.len]; exact Nat.mod_lt _ (by omega))]
            · exact hx
          | succ j =>
            have h1 := f11 (j + 1) (by omega) (by omega)
            rw [p1, Nat.add_assoc, Nat.mod_add_mod] at h1
            rw [← h1]; congr 2; omega
      · intro k hk hkn
        rw [f12 k hk, r1, List.getElem?_set_ne]
        · have := hkn 1 (by omega) (by omega)
          rw [show l.nextPage + h + 1 = l.nextPage + 1 + h by omega] at this
          exact fun h => this h.symm
        · intro j hj1 hj2
          have := hkn (j + 1) (by omega) (by omega)
          rw [p1, Nat.add_assoc, Nat.mod_add_mod]
          intro he
          apply this
          rw [he]; congr 1; omega

end Asagi
