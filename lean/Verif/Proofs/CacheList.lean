import Verif.Proofs.Lru
/- Invariants of the cache bookkeeping (cache/cachelist.h). -/
namespace Asagi

/-- Invariant of `CacheList`. -/
structure CLInv (c : CacheList) (h : Nat) : Prop where
  lru : LruInv c.lru h
  len : c.indexToBlock.length = c.lru.size
  bij : ∀ b i, c.blockToIndex b = some i ↔ c.indexToBlock[i]? = some (some b)

theorem CLInv.slot_lt {c : CacheList} {h : Nat} (inv : CLInv c h) {b i : Nat}
    (hb : c.blockToIndex b = some i) : i < c.lru.size := by
  have := (inv.bij b i).mp hb
  rw [← inv.len]
  exact (List.getElem?_eq_some_iff.mp this).1

theorem CacheList.init_inv {size : Nat} {handDiff : Int} (hs : 0 < size)
    (hd : handDiff < size) :
    ∃ c h, CacheList.init size handDiff = some c ∧ CLInv c h ∧ c.lru.size = size ∧
      (∀ b, c.blockToIndex b = none) ∧ c.indexToBlock = List.replicate size none ∧
      c.lru.nextPage = size - 1 ∧
      (∀ j : Nat, c.lru.referenced[j]? ≠ some (some true)) ∧
      h = (if handDiff < 0 then size / 2 else handDiff.toNat) := by
  obtain ⟨l, h, e, inv, hsz, hheq⟩ := Lru.init_inv hs hd
  have hl := e
  refine ⟨_, h, by simp only [CacheList.init, e]; rfl, ⟨inv, by simp [hsz], ?_⟩, hsz,
    fun _ => rfl, rfl, ?_, ?_, hheq⟩
  · intro b i
    simp [List.getElem?_replicate]
  · simp only [Lru.init] at hl
    generalize (if handDiff < 0 then size / 2 else handDiff.toNat) = k at hl
    split at hl
    · injection hl with hl; subst hl; rfl
    · simp at hl
  · intro j
    simp only [Lru.init] at hl
    generalize (if handDiff < 0 then size / 2 else handDiff.toNat) = k at hl
    split at hl
    · injection hl with hl; subst hl
      simp only [List.getElem?_append, List.getElem?_replicate]
      split <;> split <;> simp
    · simp at hl

/-- One request: the slot, and what changes. -/
theorem CLInv.get {c : CacheList} {h : Nat} (inv : CLInv c h) (b : Nat) :
    ∃ c' slot old, c.get b = .ok (c', slot, old) ∧ CLInv c' h ∧ c'.lru.size = c.lru.size ∧
      slot < c.lru.size ∧ c'.blockToIndex b = some slot ∧
      ((c.blockToIndex b = some slot ∧ old = some b ∧ c'.indexToBlock = c.indexToBlock ∧
          c'.blockToIndex = c.blockToIndex ∧ c'.lru.nextPage = c.lru.nextPage ∧
          c'.lru.referenced = c.lru.referenced.set slot (some true)) ∨
       (c.blockToIndex b = none ∧ old ≠ some b ∧ c.indexToBlock[slot]? = some old ∧
          c'.indexToBlock = c.indexToBlock.set slot (some b) ∧
          (∃ l1, Lru.getFreeLoop (c.lru.size + 1) c.lru = .ok l1 ∧ slot = l1.nextPage ∧
            c'.lru.nextPage = l1.nextPage ∧
            c'.lru.referenced = l1.referenced.set slot (some true)))) := by
  cases hb : c.blockToIndex b with
  | some i =>
    have hi := inv.slot_lt hb
    obtain ⟨l', e, inv', s', p', r'⟩ := inv.lru.access hi
    refine ⟨{ c with lru := l' }, i, some b, ?_, ⟨inv', by simpa [s'] using inv.len, inv.bij⟩,
      s', hi, hb, Or.inl ⟨rfl, rfl, rfl, rfl, p', r'⟩⟩
    simp [CacheList.get, CacheList.getIndex, hb, e]
  | none =>
    obtain ⟨l1, i, f1, f2, f3, f4, f5, f6, f7, -⟩ :=
      getFreeLoop_spec h c.lru inv.lru 0 (c.lru.size + 1) (Nat.zero_le _)
        (by have := inv.lru.hsize; omega) (by intro j hj; omega)
    have hp : l1.nextPage < l1.size := f2.page
    obtain ⟨l2, e2, inv2, s2, p2, r2⟩ := f2.access hp
    have hlt : l1.nextPage < c.indexToBlock.length := by rw [inv.len, ← f3]; exact hp
    obtain ⟨old, hold⟩ : ∃ o, c.indexToBlock[l1.nextPage]? = some o :=
      ⟨_, List.getElem?_eq_getElem hlt⟩
    have hne : old ≠ some b := by
      intro he
      rw [he] at hold
      rw [(inv.bij b _).mpr hold] at hb
      simp at hb
    refine ⟨{ lru := l2, indexToBlock := c.indexToBlock.set l1.nextPage (some b),
              blockToIndex := fun x => if x = b then some l1.nextPage else
                if some x = old then none else c.blockToIndex x },
      l1.nextPage, old, ?_, ⟨inv2, ?_, ?_⟩, by simp [s2, f3], by omega, by simp,
      Or.inr ⟨rfl, hne, hold, rfl, l1, f1, rfl, p2, r2⟩⟩
    · simp [CacheList.get, CacheList.getIndex, hb, CacheList.getFreeIndex, Lru.getFree, f1, e2,
        hold]
    · simp [inv.len, s2, f3]
    · intro x j
      simp only [List.getElem?_set]
      by_cases hx : x = b
      · subst hx
        simp only [if_true]
        by_cases hj : l1.nextPage = j
        · subst hj; simp [hlt]
        · rw [if_neg hj]
          constructor
          · intro h; injection h with h; exact absurd h hj
          · intro h
            rw [(inv.bij x j).mpr h] at hb
            simp at hb
      · rw [if_neg hx]
        by_cases hj : l1.nextPage = j
        · subst hj
          simp only [if_true, hlt]
          constructor
          · intro h
            split at h
            · simp at h
            · rename_i hox
              rw [(inv.bij x _).mp h] at hold
              injection hold with hold
              exact absurd hold hox
          · intro h; injection h with h; injection h with h; exact absurd h.symm hx
        · rw [if_neg hj]
          by_cases hox : some x = old
          · rw [if_pos hox]
            constructor
            · intro h; simp at h
            · intro h
              have h1 := (inv.bij x j).mpr h
              rw [← hox] at hold
              have h2 := (inv.bij x _).mpr hold
              rw [h1] at h2
              injection h2 with h2
              exact absurd h2.symm hj
          · rw [if_neg hox]; exact inv.bij x j

theorem CLInv.run {c : CacheList} {h : Nat} (inv : CLInv c h) (bs : List Nat) :
    ∃ c' outs, c.run bs = .ok (c', outs) ∧ CLInv c' h ∧ c'.lru.size = c.lru.size ∧
      outs.length = bs.length := by
  induction bs generalizing c with
  | nil => exact ⟨c, [], rfl, inv, rfl, rfl⟩
  | cons b bs ih =>
    obtain ⟨c1, slot, old, e, inv1, s1, -⟩ := inv.get b
    obtain ⟨c2, outs, e2, inv2, s2, l2⟩ := ih inv1
    exact ⟨c2, (slot, old) :: outs, by simp [CacheList.run, e, e2], inv2, by rw [s2, s1],
      by simp [l2]⟩

/-! ### Filling phase -/

theorem length_le_of_subset {s t : List Nat} (hs : s.Nodup) (h : ∀ x ∈ s, x ∈ t) :
    s.length ≤ t.length := by
  induction s generalizing t with
  | nil => simp
  | cons x s ih =>
    have hx : x ∈ t := h x (by simp)
    have := ih (t := t.erase x) (List.nodup_cons.mp hs).2 (by
      intro y hy
      have hne : y ≠ x := by
        rintro rfl; exact (List.nodup_cons.mp hs).1 hy
      exact (List.mem_erase_of_ne hne).mpr (h y (by simp [hy])))
    rw [List.length_erase_of_mem hx] at this
    have : 0 < t.length := List.length_pos_of_mem hx
    simp only [List.length_cons]; omega

/-- The cache has been filled with the blocks `keys`, in slots 0, 1, ..., and nothing has
been evicted yet. -/
structure FillInv (c : CacheList) (keys : List Nat) : Prop where
  le : keys.length ≤ c.lru.size
  nodup : keys.Nodup
  tab : c.indexToBlock = keys.map some ++ List.replicate (c.lru.size - keys.length) none
  page : c.lru.nextPage = (c.lru.size - 1 + keys.length) % c.lru.size
  unref : ∀ j : Nat, keys.length ≤ j → c.lru.referenced[j]? ≠ some (some true)

theorem FillInv.mem_iff {c : CacheList} {h : Nat} {keys : List Nat} (inv : CLInv c h)
    (fi : FillInv c keys) (b : Nat) : c.blockToIndex b ≠ none ↔ b ∈ keys := by
  constructor
  · intro hb
    cases hc : c.blockToIndex b with
    | none => exact absurd hc hb
    | some i =>
      have := (inv.bij b i).mp hc
      rw [fi.tab, List.getElem?_append] at this
      split at this
      · rw [List.getElem?_map] at this
        simp only [Option.map_eq_some_iff] at this
        obtain ⟨a, ha, hab⟩ := this
        injection hab with hab
        subst hab
        exact List.mem_of_getElem? ha
      · rw [List.getElem?_replicate] at this
        split at this <;> simp at this
  · intro hb hn
    obtain ⟨i, hi⟩ := List.getElem?_of_mem hb
    have hlt := (List.getElem?_eq_some_iff.mp hi).1
    have : c.indexToBlock[i]? = some (some b) := by
      rw [fi.tab, List.getElem?_append_left (by simpa using hlt)]
      simp [hi]
    rw [(inv.bij b i).mpr this] at hn
    simp at hn

theorem FillInv.hit {c : CacheList} {h : Nat} {keys : List Nat} (inv : CLInv c h)
    (fi : FillInv c keys) {b : Nat} (hb : b ∈ keys) :
    ∃ c' slot, c.get b = .ok (c', slot, some b) ∧ CLInv c' h ∧ c'.lru.size = c.lru.size ∧
      FillInv c' keys := by
  obtain ⟨c', slot, old, e, inv', s', hslot, _, hcase⟩ := inv.get b
  rcases hcase with ⟨h1, h2, h3, h4, h5, h6⟩ | ⟨h1, -⟩
  · subst h2
    refine ⟨c', slot, e, inv', s', ?_⟩
    refine ⟨by rw [s']; exact fi.le, fi.nodup, by rw [h3, s']; exact fi.tab,
      by rw [h5, s']; exact fi.page, ?_⟩
    intro j hj
    rw [h6, List.getElem?_set]
    split
    · rename_i hsj
      subst hsj
      exfalso
      have h7 := (inv.bij b slot).mp h1
      rw [fi.tab, List.getElem?_append_right (by simpa using hj),
        List.getElem?_replicate] at h7
      split at h7 <;> simp at h7
    · exact fi.unref j hj
  · exact absurd h1 ((fi.mem_iff inv b).mpr hb)

theorem FillInv.miss {c : CacheList} {h : Nat} {keys : List Nat} (inv : CLInv c h)
    (fi : FillInv c keys) {b : Nat} (hb : b ∉ keys) (hlt : keys.length < c.lru.size) :
    ∃ c', c.get b = .ok (c', keys.length, none) ∧ CLInv c' h ∧ c'.lru.size = c.lru.size ∧
      FillInv c' (keys ++ [b]) := by
  have hn : c.blockToIndex b = none := by
    cases hc : c.blockToIndex b with
    | none => rfl
    | some i => exact absurd ((fi.mem_iff inv b).mp (by simp [hc])) hb
  obtain ⟨c', slot, old, e, inv', s', hslot, hb', hcase⟩ := inv.get b
  rcases hcase with ⟨h1, -⟩ | ⟨-, hne, hold, htab, l1, f1, hsl, hpage, href⟩
  · rw [hn] at h1; simp at h1
  obtain ⟨l1', i, g1, g2, g3, g4, g5, g6, g7, g8, g9, g10, -, -⟩ :=
    getFreeLoop_spec h c.lru inv.lru 0 (c.lru.size + 1) (Nat.zero_le _)
      (by have := inv.lru.hsize; omega) (by intro j hj; omega)
  rw [g1] at f1
  injection f1 with f1
  subst f1
  -- the hand moves exactly once
  have hnext : (c.lru.nextPage + 1) % c.lru.size = keys.length := by
    rw [fi.page, Nat.mod_add_mod, show c.lru.size - 1 + keys.length + 1 =
      keys.length + c.lru.size by omega, Nat.add_mod_right, Nat.mod_eq_of_lt hlt]
  have hi : i = 1 := by
    rcases Nat.lt_or_ge 1 i with h1 | h1
    · have := g8 1 (Nat.le_refl _) h1
      rw [hnext] at this
      exact absurd this (fi.unref _ (Nat.le_refl _))
    · omega
  subst hi
  have hslot' : slot = keys.length := by rw [hsl, g6, hnext]
  subst hslot'
  have hold' : old = none := by
    rw [fi.tab, List.getElem?_append_right (by simp), List.getElem?_replicate] at hold
    split at hold
    · injection hold with hold; exact hold.symm
    · simp at hold
  subst hold'
  refine ⟨c', e, inv', s', ?_⟩
  refine ⟨by simp; omega, ?_, ?_, ?_, ?_⟩
  · rw [List.nodup_append]
    refine ⟨fi.nodup, by simp, ?_⟩
    intro a ha x hx
    simp at hx; subst hx
    rintro rfl; exact hb ha
  · rw [htab, fi.tab, s', List.set_append_right _ _ (by simp)]
    simp only [List.length_map, Nat.sub_self, List.map_append, List.map_cons, List.map_nil,
      List.length_append, List.length_cons, List.length_nil, List.append_assoc]
    congr 1
    rw [show c.lru.size - keys.length = (c.lru.size - (keys.length + (0 + 1))) + 1 by omega,
      List.replicate_succ]
    simp
  · rw [hpage, g6, hnext, s']
    simp only [List.length_append, List.length_cons, List.length_nil]
    rw [show c.lru.size - 1 + (keys.length + (0 + 1)) = keys.length + c.lru.size by omega,
      Nat.add_mod_right, Nat.mod_eq_of_lt hlt]
  · intro j hj
    simp only [List.length_append, List.length_cons, List.length_nil] at hj
    rw [href, List.getElem?_set_ne (by omega)]
    by_cases hjs : j < c.lru.size
    · rcases g10 j hjs with h1 | h1
      · rw [h1]; exact fi.unref j (by omega)
      · rw [h1]; simp
    · rw [List.getElem?_eq_none (by rw [g2.len, g3]; omega)]; simp

/-- As long as at most `size` different blocks are requested, nothing is evicted and each
block misses once. -/
theorem FillInv.run {c : CacheList} {h : Nat} {keys S : List Nat} (inv : CLInv c h)
    (fi : FillInv c keys) (hS : S.length ≤ c.lru.size) (hk : ∀ b ∈ keys, b ∈ S)
    (bs : List Nat) (hbs : ∀ b ∈ bs, b ∈ S) :
    ∃ c' outs, c.run bs = .ok (c', outs) ∧
      outs.map Prod.snd = (List.range bs.length).map (fun i =>
        if bs.getD i 0 ∈ keys ++ bs.take i then some (bs.getD i 0) else none) := by
  induction bs generalizing c keys with
  | nil => exact ⟨c, [], rfl, rfl⟩
  | cons b bs ih =>
    by_cases hb : b ∈ keys
    · obtain ⟨c1, slot, e, inv1, s1, fi1⟩ := fi.hit inv hb
      obtain ⟨c2, outs, e2, h2⟩ := ih inv1 fi1 (by rw [s1]; exact hS) hk
        (fun x hx => hbs x (by simp [hx]))
      refine ⟨c2, (slot, some b) :: outs, by simp [CacheList.run, e, e2], ?_⟩
      simp only [List.map_cons, h2, List.length_cons, List.range_succ_eq_map,
        List.map_map, List.getD_cons_zero, List.take_zero, List.append_nil, hb, if_true]
      congr 1
      apply List.map_congr_left
      intro i hi
      simp only [Function.comp, List.getD_cons_succ, List.take_succ_cons]
      have : ∀ x, (x ∈ keys ++ bs.take i ↔ x ∈ keys ++ b :: bs.take i) := by
        intro x; simp only [List.mem_append, List.mem_cons]
        constructor
        · rintro (h | h)
          · exact Or.inl h
          · exact Or.inr (Or.inr h)
        · rintro (h | h | h)
          · exact Or.inl h
          · subst h; exact Or.inl hb
          · exact Or.inr h
      simp only [this]
    · have hlt : keys.length < c.lru.size := by
        have := length_le_of_subset (s := b :: keys) (t := S)
          (List.nodup_cons.mpr ⟨hb, fi.nodup⟩) (by
            intro x hx
            rcases List.mem_cons.mp hx with h | h
            · subst h; exact hbs _ (by simp)
            · exact hk x h)
        simp only [List.length_cons] at this; omega
      obtain ⟨c1, e, inv1, s1, fi1⟩ := fi.miss inv hb hlt
      obtain ⟨c2, outs, e2, h2⟩ := ih inv1 fi1 (by rw [s1]; exact hS)
        (by
          intro x hx
          rcases List.mem_append.mp hx with h | h
          · exact hk x h
          · simp at h; subst h; exact hbs _ (by simp))
        (fun x hx => hbs x (by simp [hx]))
      refine ⟨c2, (keys.length, none) :: outs, by simp [CacheList.run, e, e2], ?_⟩
      simp only [List.map_cons, h2, List.length_cons, List.range_succ_eq_map,
        List.map_map, List.getD_cons_zero, List.take_zero, List.append_nil, hb, if_false]
      congr 1
      apply List.map_congr_left
      intro i hi
      simp only [Function.comp, List.getD_cons_succ, List.take_succ_cons, List.append_assoc,
        List.singleton_append]

end Asagi
