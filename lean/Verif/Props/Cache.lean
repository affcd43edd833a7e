import Verif.Proofs.CacheList
/-
Properties of the replacement policy and the cache bookkeeping: C13, C14, C15, C16.

All statements are about every state reachable from `CacheList.init size handDiff` by a
sequence of block requests (`CacheList.run`).
-/
namespace Asagi.Props
open Asagi

/-- The distance of the two hands: the user's setting or, if that is negative, half of the
cache. -/
def spread (size : Nat) (handDiff : Int) : Nat :=
  if handDiff < 0 then size / 2 else handDiff.toNat

/-- The states reachable by requests. -/
def Reachable (size : Nat) (handDiff : Int) (c : CacheList) : Prop :=
  ∃ c0 bs outs, CacheList.init size handDiff = some c0 ∧ c0.run bs = .ok (c, outs)

theorem Reachable.inv {size : Nat} {handDiff : Int} {c : CacheList} (hs : 0 < size)
    (hd : handDiff < size) (h : Reachable size handDiff c) :
    CLInv c (spread size handDiff) ∧ c.lru.size = size := by
  obtain ⟨c0, bs, outs, h0, h1⟩ := h
  obtain ⟨c0', h', e, inv, hsz, -, -, -, -, heq⟩ := CacheList.init_inv hs hd
  rw [e] at h0; cases h0
  obtain ⟨c', outs', e', inv', hsz', -⟩ := inv.run bs
  rw [e'] at h1; cases h1
  have : h' = spread size handDiff := heq
  subst this
  exact ⟨inv', by rw [hsz', hsz]⟩

/-- **C13.** For each cache size ≥ 1 and legal hand spread, after any history: each request
succeeds (no out-of-bounds access, no read of an uninitialised reference bit, no endless
search), answers with a slot below the cache size, and the search for a slot makes at most
`spread + 1` hand moves. -/
theorem C13_replacement_terminates (size : Nat) (handDiff : Int) (hs : 0 < size)
    (hd : handDiff < size) :
    (∃ c0, CacheList.init size handDiff = some c0) ∧
    ∀ c, Reachable size handDiff c →
      (∀ b, ∃ c' slot old, c.get b = .ok (c', slot, old) ∧ slot < size) ∧
      (∃ l, Lru.getFreeLoop (spread size handDiff + 1) c.lru = .ok l ∧ l.nextPage < size) := by
  constructor
  · obtain ⟨c0, h', e, -⟩ := CacheList.init_inv hs hd
    exact ⟨c0, e⟩
  · intro c hc
    obtain ⟨inv, hsz⟩ := hc.inv hs hd
    constructor
    · intro b
      obtain ⟨c', slot, old, e, -, -, hlt, -⟩ := inv.get b
      exact ⟨c', slot, old, e, by omega⟩
    · obtain ⟨l1, i, f1, f2, f3, -⟩ := getFreeLoop_spec _ c.lru inv.lru 0
        (spread size handDiff + 1) (Nat.zero_le _) (by omega) (by intro j hj; omega)
      exact ⟨l1, f1, by have := f2.page; omega⟩

/-- Every sequence of requests can be executed. -/
theorem C13_run_succeeds (size : Nat) (handDiff : Int) (hs : 0 < size) (hd : handDiff < size)
    (bs : List Nat) : ∃ c0 c outs, CacheList.init size handDiff = some c0 ∧
      c0.run bs = .ok (c, outs) ∧ outs.length = bs.length := by
  obtain ⟨c0, h', e, inv, -⟩ := CacheList.init_inv hs hd
  obtain ⟨c', outs', e', -, -, hl⟩ := inv.run bs
  exact ⟨c0, c', outs', e, e', hl⟩

/-- A cache with three slots and spread 1 under five requests: slot and evicted block. -/
example : ((CacheList.init 3 1).map fun c => match c.run [10, 11, 12, 10, 13] with
    | .ok (_, outs) => outs
    | _ => []) =
    some [(0, none), (1, none), (2, none), (0, some 10), (1, some 11)] := by decide +kernel

/-- **C13**, the excluded settings: with a spread not below the cache size, or an empty cache,
the code writes outside of the reference bits, in `init` or in the first search. -/
theorem C13_illegal_spread (size : Nat) (handDiff : Int) (hd : (size : Int) ≤ handDiff) :
    CacheList.init size handDiff = none ∨
    ∃ c0, CacheList.init size handDiff = some c0 ∧ ∀ b, c0.get b = .ub := by
  by_cases h : (size : Int) < handDiff
  · left
    have h1 : ¬ handDiff < 0 := by omega
    have h2 : ¬ handDiff.toNat ≤ size := by omega
    simp [CacheList.init, Lru.init, h1, h2]
  · right
    obtain rfl : handDiff = size := by omega
    have h1 : ¬ (size : Int) < 0 := by omega
    refine ⟨_, by simp [CacheList.init, Lru.init, h1]; rfl, ?_⟩
    intro b
    cases size with
    | zero =>
      simp [CacheList.get, CacheList.getIndex, CacheList.getFreeIndex, Lru.getFree,
        Lru.getFreeLoop]
      rfl
    | succ n =>
      simp [CacheList.get, CacheList.getIndex, CacheList.getFreeIndex, Lru.getFree,
        Lru.getFreeLoop, Lru.step]
      rfl

/-- **C14.** If at most `size` different blocks are requested, no block is evicted and each
block is loaded exactly once: request number `i` reports a hit if the block was requested
before and an empty slot otherwise. -/
theorem C14_no_early_eviction (size : Nat) (handDiff : Int) (hs : 0 < size)
    (hd : handDiff < size) (bs S : List Nat) (hS : S.length ≤ size) (hbs : ∀ b ∈ bs, b ∈ S) :
    ∃ c0 c outs, CacheList.init size handDiff = some c0 ∧ c0.run bs = .ok (c, outs) ∧
      outs.length = bs.length ∧
      ∀ i b out, bs[i]? = some b → outs[i]? = some out →
        out.2 = if b ∈ bs.take i then some b else none := by
  obtain ⟨c0, h', e, inv, hsz, hb0, hi0, hp0, hr0, -⟩ := CacheList.init_inv hs hd
  have fi : FillInv c0 [] := by
    refine ⟨by simp, List.nodup_nil, by simp [hi0, hsz], ?_, fun j _ => hr0 j⟩
    rw [hp0, hsz]; simp
  obtain ⟨c', outs, e1, e2⟩ := fi.run inv (S := S) (by omega) (by simp) bs hbs
  obtain ⟨c'', outs', e', -, -, hl⟩ := inv.run bs
  rw [e1] at e'; cases e'
  refine ⟨c0, c', outs, e, e1, hl, ?_⟩
  intro i b out hb hout
  have : (outs.map Prod.snd)[i]? = some out.2 := by simp [hout]
  rw [e2] at this
  have hi : i < bs.length := (List.getElem?_eq_some_iff.1 hb).1
  rw [List.getElem?_map, List.getElem?_range hi] at this
  simp [hb] at this
  exact this.symm

/-- Two different blocks in a cache of two slots. -/
example : ([7, 9] : List Nat).length ≤ 2 ∧ (∀ b ∈ [7, 9, 7, 7, 9], b ∈ [7, 9]) := by decide

/-- The reference bit of a slot: the slot was used since the clearing hand last passed it
(`C15_marks`). -/
def marked (c : CacheList) (slot : Nat) : Prop := c.lru.referenced[slot]? = some (some true)

/-- **C15**, meaning of the mark: a request marks its slot; no request removes the mark of a
slot unless it is a miss during whose search the clearing hand, which is `spread` slots ahead
of the searching hand, passed the slot; and nothing else becomes marked. -/
theorem C15_marks (size : Nat) (handDiff : Int) (hs : 0 < size) (hd : handDiff < size)
    (c : CacheList) (hc : Reachable size handDiff c) (b slot : Nat) (old : Option Nat)
    (c' : CacheList) (h : c.get b = .ok (c', slot, old)) :
    marked c' slot ∧ (∀ k, marked c' k → marked c k ∨ k = slot) ∧
    (∀ k, k < size → marked c k → ¬ marked c' k → old ≠ some b ∧
      ∃ i j, 1 ≤ j ∧ j ≤ i ∧ slot = (c.lru.nextPage + i) % size ∧ i ≤ spread size handDiff + 1 ∧
        k = (c.lru.nextPage + spread size handDiff + j) % size) := by
  obtain ⟨inv, hsz⟩ := hc.inv hs hd
  obtain ⟨c1, slot1, old1, e, inv1, hsz1, hlt, hb1, hcase⟩ := inv.get b
  rw [h] at e; cases e
  have hsl : slot < c'.lru.referenced.length := by rw [inv1.lru.len, hsz1]; exact hlt
  rcases hcase with ⟨h1, h2, h3, h4, h5, h6⟩ | ⟨h1, h2, h3, h4, l1, g1, g2, g3, g4⟩
  · have hl : slot < c.lru.referenced.length := by rw [inv.lru.len]; exact hlt
    refine ⟨by simp [marked, h6, hl], ?_, ?_⟩
    · intro k hk
      simp only [marked, h6, List.getElem?_set] at hk
      split at hk
      · right; omega
      · left; exact hk
    · intro k hk hm hn
      exfalso; apply hn
      simp only [marked, h6, List.getElem?_set]
      by_cases he : slot = k
      · rw [if_pos he, if_pos hl]
      · rw [if_neg he]; exact hm
  · obtain ⟨l1', i, f1, f2, f3, f4, f5, f6, f7, f8, f9, f10, f11, f12⟩ :=
      getFreeLoop_spec _ c.lru inv.lru 0 (c.lru.size + 1) (Nat.zero_le _)
        (by have := inv.lru.hsize; omega) (by intro j hj; omega)
    rw [g1] at f1; cases f1
    have hl : slot < l1.referenced.length := by rw [f2.len, f3]; exact hlt
    refine ⟨by simp [marked, g4, hl], ?_, ?_⟩
    · intro k hk
      simp only [marked, g4, List.getElem?_set] at hk
      split at hk
      · right; omega
      · have hks : k < c.lru.size := by
          have := (List.getElem?_eq_some_iff.1 hk).1
          rw [f2.len] at this; omega
        rcases f10 k hks with h | h
        · left; rw [marked, ← h]; exact hk
        · rw [h] at hk; simp at hk
    · intro k hk hm hn
      refine ⟨h2, ?_⟩
      by_cases hex : ∃ j, 1 ≤ j ∧ j ≤ i ∧ k = (c.lru.nextPage + spread size handDiff + j) % size
      · obtain ⟨j, j1, j2, j3⟩ := hex
        exact ⟨i, j, j1, j2, by rw [g2, f6, hsz], by omega, j3⟩
      · exfalso; apply hn
        simp only [marked, g4, List.getElem?_set]
        by_cases he : slot = k
        · rw [if_pos he, if_pos hl]
        · rw [if_neg he, f12 k (by omega) (fun j j1 j2 he => hex ⟨j, j1, j2, hsz ▸ he⟩)]
          exact hm

/-- **C15.** A miss in a reachable cache state: the new block is stored in the slot `i` places
after the last one, `1 ≤ i ≤ spread + 1`; all slots in between were marked as used, and the
chosen slot was unmarked unless the search used up all of its `spread + 1` moves. So a
marked slot is reused only if the `spread` slots searched before were all marked, too. -/
theorem C15_second_chance (size : Nat) (handDiff : Int) (hs : 0 < size) (hd : handDiff < size)
    (c : CacheList) (hc : Reachable size handDiff c) (b slot : Nat) (old : Option Nat)
    (c' : CacheList) (h : c.get b = .ok (c', slot, old)) (hmiss : old ≠ some b) :
    ∃ i, 1 ≤ i ∧ i ≤ spread size handDiff + 1 ∧ slot = (c.lru.nextPage + i) % size ∧
      c'.lru.nextPage = slot ∧
      (∀ j, 1 ≤ j → j < i → marked c ((c.lru.nextPage + j) % size)) ∧
      (marked c slot → i = spread size handDiff + 1) := by
  obtain ⟨inv, hsz⟩ := hc.inv hs hd
  obtain ⟨c1, slot1, old1, e, inv1, hsz1, hlt, hb1, hcase⟩ := inv.get b
  rw [h] at e; cases e
  rcases hcase with ⟨_, h2, _⟩ | ⟨h1, h2, h3, h4, l1, g1, g2, g3, g4⟩
  · exact absurd h2 hmiss
  · obtain ⟨l1', i, f1, f2, f3, f4, f5, f6, f7, f8, f9, f10, f11, f12⟩ :=
      getFreeLoop_spec _ c.lru inv.lru 0 (c.lru.size + 1) (Nat.zero_le _)
        (by have := inv.lru.hsize; omega) (by intro j hj; omega)
    rw [g1] at f1; cases f1
    rw [hsz] at f6 f8 f9
    refine ⟨i, f4, by omega, by rw [g2, f6], by rw [g3, g2], fun j j1 j2 => f8 j j1 j2, ?_⟩
    intro hm
    by_cases hi : i ≤ spread size handDiff
    · have := f9 hi
      rw [← f6, ← g2] at this
      rw [marked, this] at hm
      simp at hm
    · omega

/-- Hypotheses of C15: a reachable state of a cache with three slots in which the next request
is a miss that skips one marked slot. -/
example : ∃ c c', Reachable 3 1 c ∧ c.get 13 = .ok (c', 1, some 11) ∧ marked c 0 := by
  refine ⟨_, _, ⟨_, [10, 11, 12, 10], [(0, none), (1, none), (2, none), (0, some 10)], rfl, rfl⟩,
    rfl, rfl⟩

/-- **C16.** After any history: at most `size` blocks are cached (any duplicate-free list of
cached blocks is that short), each cached block is in exactly one slot below `size`, different
blocks are in different slots. A request reports a hit exactly if the block was cached and
then removes nothing; a miss removes exactly the reported block (nothing if none is
reported); afterwards the requested block is cached and all other blocks are as before. -/
theorem C16_cache_bijection (size : Nat) (handDiff : Int) (hs : 0 < size)
    (hd : handDiff < size) (c : CacheList) (hc : Reachable size handDiff c) :
    (∀ l : List Nat, l.Nodup → (∀ b ∈ l, c.peek b ≠ none) → l.length ≤ size) ∧
    (∀ b i, c.peek b = some i → i < size) ∧
    (∀ b b' i, c.peek b = some i → c.peek b' = some i → b = b') ∧
    (∀ b c' slot old, c.get b = .ok (c', slot, old) →
      c'.peek b = some slot ∧ (old = some b ↔ c.peek b ≠ none) ∧
      (∀ o, old = some o → c.peek o = some slot) ∧
      (∀ o, o ≠ b → c'.peek o = if old = some o then none else c.peek o)) := by
  obtain ⟨inv, hsz⟩ := hc.inv hs hd
  refine ⟨?_, ?_, ?_, ?_⟩
  · intro l hl hcached
    have hlen : (l.filterMap c.peek).length = l.length := by
      clear hl
      induction l with
      | nil => rfl
      | cons b l ih =>
        obtain ⟨i, hi⟩ := Option.ne_none_iff_exists'.1 (hcached b (by simp))
        rw [List.filterMap_cons, hi]
        simp [ih (fun b hb => hcached b (by simp [hb]))]
    have hnd : (l.filterMap c.peek).Nodup := by
      clear hlen hcached
      induction l with
      | nil => simp
      | cons b l ih =>
        rw [List.nodup_cons] at hl
        rw [List.filterMap_cons]
        cases hb : c.peek b with
        | none => exact ih hl.2
        | some i =>
          simp only [List.nodup_cons]
          refine ⟨?_, ih hl.2⟩
          intro hmem
          rw [List.mem_filterMap] at hmem
          obtain ⟨b', hb', hbi⟩ := hmem
          have h1 := (inv.bij b i).1 hb
          have h2 := (inv.bij b' i).1 hbi
          rw [h1] at h2
          injection h2 with h2; injection h2 with h2
          exact hl.1 (h2 ▸ hb')
    rw [← hlen]
    have := length_le_of_subset (t := List.range size) hnd (by
      intro x hx
      rw [List.mem_filterMap] at hx
      obtain ⟨b, _, hb⟩ := hx
      have := inv.slot_lt hb
      simp; omega)
    simpa using this
  · intro b i hb
    have := inv.slot_lt hb
    omega
  · intro b b' i h1 h2
    have h1 := (inv.bij b i).1 h1
    have h2 := (inv.bij b' i).1 h2
    rw [h1] at h2
    injection h2 with h2; injection h2 with h2
  · intro b c' slot old h
    obtain ⟨c1, slot1, old1, e, inv1, hsz1, hlt, hb1, hcase⟩ := inv.get b
    rw [h] at e; cases e
    rcases hcase with ⟨h1, h2, h3, h4, -⟩ | ⟨h1, h2, h3, h4, -⟩
    · subst h2
      refine ⟨hb1, by simp [CacheList.peek, h1], ?_, ?_⟩
      · intro o ho; cases ho; exact h1
      · intro o ho
        rw [if_neg (by simpa using Ne.symm ho)]
        simp [CacheList.peek, h4]
    · refine ⟨hb1, by simp [CacheList.peek, h1, h2], ?_, ?_⟩
      · rintro o rfl
        exact (inv.bij o slot).2 h3
      · intro o ho
        have key : ∀ i, c'.blockToIndex o = some i ↔ (c.blockToIndex o = some i ∧ i ≠ slot) := by
          intro i
          rw [inv1.bij, inv.bij, h4, List.getElem?_set]
          by_cases hi : slot = i
          · subst hi
            simp only [ne_eq, not_true_eq_false, and_false, iff_false, if_true]
            split
            · simp; exact Ne.symm ho
            · simp
          · simp [hi, Ne.symm hi]
        by_cases hoo : old = some o
        · rw [if_pos hoo]
          have hco := (inv.bij o slot).2 (hoo ▸ h3)
          rcases hx : c'.peek o with _ | i
          · rfl
          · exfalso
            have := (key i).1 hx
            rw [hco] at this
            exact this.2 (by simpa using this.1.symm)
        · rw [if_neg hoo]
          rcases hx : c.peek o with _ | i
          · rcases hy : c'.peek o with _ | i
            · rfl
            · have := ((key i).1 hy).1
              rw [CacheList.peek] at hx
              rw [hx] at this; cases this
          · apply (key i).2
            refine ⟨hx, ?_⟩
            rintro rfl
            have := (inv.bij o i).1 hx
            rw [h3] at this
            injection this with this
            exact hoo this

/-- A full cache of two slots in which a request evicts block 5. -/
example : ∃ c c', Reachable 2 (-1) c ∧ c.get 7 = .ok (c', 0, some 5) ∧
    c.peek 5 = some 0 ∧ c.peek 6 = some 1 := by
  refine ⟨_, _, ⟨_, [5, 6], [(0, none), (1, none)], rfl, rfl⟩, rfl, rfl, rfl⟩

end Asagi.Props
