import Verif.Proofs.Radix
/- Blocked::open and the block distribution. -/
namespace Asagi
open Spec

/-! ### Blocked::open -/

/-- Geometry expected after opening a variable with dimension sizes `size` and block size
parameters `param` (API order). -/
def openGeom (size : List Nat) (param : List Int) : List Dim :=
  List.zipWith (fun s p => ⟨s, loopBlockSize s p⟩) size (param.take size.length).reverse

theorem openGeom_getElem? (size : List Nat) (param : List Int) (i : Nat)
    (hi : i < size.length) (hp : size.length ≤ param.length) :
    (openGeom size param)[i]? =
      some ⟨size[i], loopBlockSize size[i] (param[size.length - i - 1]'(by omega))⟩ := by
  have h1 : (param.take size.length).length = size.length := by simp; omega
  rw [openGeom, List.getElem?_zipWith]
  rw [List.getElem?_eq_getElem hi, List.getElem?_reverse (by rw [h1]; exact hi), h1,
    List.getElem?_take_of_lt (by omega),
    List.getElem?_eq_getElem (by omega : size.length - 1 - i < param.length)]
  simp [Nat.sub_right_comm, Nat.sub_sub]

theorem openGeom_length (size : List Nat) (param : List Int) (hp : size.length ≤ param.length) :
    (openGeom size param).length = size.length := by
  simp [openGeom, hp]

theorem openGeom_map_size (size : List Nat) (param : List Int)
    (hp : size.length ≤ param.length) : (openGeom size param).map Dim.size = size := by
  apply List.ext_getElem?
  intro i
  by_cases hi : i < size.length
  · rw [List.getElem?_map, openGeom_getElem? size param i hi hp]; simp [hi]
  · rw [List.getElem?_eq_none (by simp [openGeom_length size param hp]; omega),
      List.getElem?_eq_none (by omega)]

theorem blockedOpen_fold (size : List Nat) (param : List Int) (st0 st : BlockedState) (k : Nat)
    (hk : k ≤ size.length) (h0 : st0.totalBlockSize = 1) (h0' : st0.totalBlocks = 1)
    (h : (List.range k).foldlM (blockedOpenStep size param) st0 = some st) :
    (∀ i, i < k → i < param.length ∨ size.length - i - 1 < param.length) ∧
    st.blockSize.length = st0.blockSize.length ∧ st.blocks.length = st0.blocks.length ∧
    (∀ i (hi : i < k), size.length - i - 1 < param.length ∧ i < st0.blockSize.length ∧
      ∀ p, param[size.length - i - 1]? = some p →
      st.blockSize[i]? = some (loopBlockSize (size[i]'(by omega)) p) ∧
      0 < loopBlockSize (size[i]'(by omega)) p) ∧
    (size.length ≤ param.length →
      st.totalBlockSize = prod (((openGeom size param).take k).map Dim.bs) ∧
      st.totalBlocks = prod (((openGeom size param).take k).map Dim.blocks)) := by
  induction k generalizing st with
  | zero =>
    simp at h; subst h
    refine ⟨by intro i hi; omega, rfl, rfl, ?_, ?_⟩
    · intro i hi; omega
    · intro _; simp [prod, h0, h0']
  | succ k ih =>
    rw [List.range_succ, List.foldlM_append] at h
    simp only [Option.bind_eq_bind, Option.bind_eq_some_iff] at h
    obtain ⟨st1, e1, e2⟩ := h
    obtain ⟨a0, a1, a2, a3, a4⟩ := ih st1 (by omega) e1
    simp only [List.foldlM_cons, List.foldlM_nil, Option.bind_eq_bind,
      Option.bind_eq_some_iff] at e2
    obtain ⟨st2, e2, e3⟩ := e2
    simp at e3; subst e3
    simp only [blockedOpenStep, Option.bind_eq_bind, Option.bind_eq_some_iff] at e2
    obtain ⟨s, hs, p, hp, e2⟩ := e2
    split at e2
    · simp at e2
    · rename_i hb
      simp only [not_or, Nat.not_le] at hb
      injection e2 with e2
      subst e2
      have hplt := (List.getElem?_eq_some_iff.mp hp).1
      have hs' : size[k]'(by omega) = s := by
        rw [List.getElem?_eq_getElem (by omega)] at hs; exact Option.some.inj hs
      refine ⟨?_, by simpa using a1, by simpa using a2, ?_, ?_⟩
      · intro i hi
        rcases Nat.lt_or_ge i k with h1 | h1
        · exact a0 i h1
        · right; have : i = k := by omega
          subst this; exact hplt
      · intro i hi
        rcases Nat.lt_or_ge i k with h1 | h1
        · obtain ⟨b1, b2, b3⟩ := a3 i h1
          refine ⟨b1, b2, ?_⟩
          intro p' hp'
          obtain ⟨c1, c2⟩ := b3 p' hp'
          refine ⟨?_, c2⟩
          simp only
          rw [List.getElem?_set_ne (by omega)]
          exact c1
        · have : i = k := by omega
          subst this
          refine ⟨hplt, by rw [← a1]; exact hb.2.1, ?_⟩
          intro p' hp'
          rw [hp] at hp'; injection hp' with hp'; subst hp'
          rw [hs']
          refine ⟨?_, by omega⟩
          simp only
          rw [List.getElem?_set_self hb.2.1]
      · intro hpl
        obtain ⟨b1, b2⟩ := a4 hpl
        have hg := openGeom_getElem? size param k (by omega) hpl
        have hp2 : param[size.length - k - 1]'(by omega) = p := by
          rw [List.getElem?_eq_getElem hplt] at hp; exact Option.some.inj hp
        rw [hs', hp2] at hg
        simp only [List.take_add_one, hg, Option.toList_some, List.map_append, List.map_cons,
          List.map_nil, prod_append, prod, Nat.mul_one]
        rw [b1, b2]
        exact ⟨rfl, rfl⟩

theorem loopBlockSize_le (s : Nat) (p : Int) : loopBlockSize s p ≤ s := by
  unfold loopBlockSize; simp only; repeat' split
  all_goals omega

/-- What `Blocked::open` establishes. -/
theorem blockedOpen_spec {size : List Nat} {param : List Int} {timeDim : Int}
    {junk st : BlockedState} (h : blockedOpen size param timeDim junk = some st) :
    size.length ≤ param.length ∧ st.geometry size = openGeom size param ∧
      GeomWF (openGeom size param) ∧ (openGeom size param).map Dim.size = size ∧
      (∀ s ∈ size, 0 < s) ∧
      st.totalBlockSize = totalBlockSize (openGeom size param) ∧
      st.totalBlocks = totalBlocks (openGeom size param) := by
  obtain ⟨-, a1, a2, a3, a4⟩ := blockedOpen_fold size param _ st size.length (Nat.le_refl _)
    (by rfl) (by rfl) h
  have hpl : size.length ≤ param.length := by
    rcases Nat.eq_zero_or_pos size.length with h0 | h0
    · omega
    · have := (a3 0 h0).1; omega
  obtain ⟨b1, b2⟩ := a4 hpl
  have hlen := openGeom_length size param hpl
  rw [List.take_of_length_le (by omega)] at b1 b2
  have hpos : ∀ i (hi : i < size.length),
      0 < loopBlockSize size[i] (param[size.length - i - 1]'(by omega)) := by
    intro i hi
    exact ((a3 i hi).2.2 _ (List.getElem?_eq_getElem _)).2
  refine ⟨hpl, ?_, ?_, openGeom_map_size size param hpl, ?_, ?_, ?_⟩
  · apply List.ext_getElem?
    intro i
    by_cases hi : i < size.length
    · rw [openGeom_getElem? size param i hi hpl, BlockedState.geometry, List.getElem?_zipWith,
        List.getElem?_eq_getElem hi]
      rw [((a3 i hi).2.2 _ (List.getElem?_eq_getElem (by omega))).1]
    · rw [List.getElem?_eq_none (by simp [BlockedState.geometry]; omega),
        List.getElem?_eq_none (by omega)]
  · intro d hd
    obtain ⟨i, hi⟩ := List.getElem?_of_mem hd
    have hlt : i < size.length := by
      have := (List.getElem?_eq_some_iff.mp hi).1; omega
    rw [openGeom_getElem? size param i hlt hpl] at hi
    injection hi with hi; subst hi
    exact ⟨hpos i hlt, loopBlockSize_le _ _⟩
  · intro s hs
    obtain ⟨i, hi⟩ := List.getElem?_of_mem hs
    obtain ⟨hlt, he⟩ := List.getElem?_eq_some_iff.mp hi
    have := hpos i hlt
    have := loopBlockSize_le size[i] (param[size.length - i - 1]'(by omega))
    omega
  · rw [b1, totalBlockSize_eq]
  · rw [b2, totalBlocks_eq]

theorem loopBlockSize_pos {s : Nat} (p : Int) (h : 0 < s) : 0 < loopBlockSize s p := by
  unfold loopBlockSize; simp only; repeat' split
  all_goals omega

/-- `Blocked::open` does not run into undefined behaviour when all dimensions are non-empty. -/
theorem blockedOpen_ok {size : List Nat} {param : List Int} (timeDim : Int)
    {junk : BlockedState} (hs : ∀ s ∈ size, 0 < s) (hp : size.length ≤ param.length)
    (h1 : size.length ≤ junk.blockSize.length) (h2 : size.length ≤ junk.blocks.length) :
    ∃ st, blockedOpen size param timeDim junk = some st := by
  have key : ∀ k, k ≤ size.length → ∀ st0 : BlockedState, size.length ≤ st0.blockSize.length →
      size.length ≤ st0.blocks.length →
      ∃ st, (List.range k).foldlM (blockedOpenStep size param) st0 = some st ∧
        size.length ≤ st.blockSize.length ∧ size.length ≤ st.blocks.length := by
    intro k
    induction k with
    | zero => intro _ st0 a b; exact ⟨st0, by simp, a, b⟩
    | succ k ih =>
      intro hk st0 a b
      obtain ⟨st1, e, a1, b1⟩ := ih (by omega) st0 a b
      rw [List.range_succ, List.foldlM_append, e]
      have hsk : 0 < size[k]'(by omega) := hs _ (List.getElem_mem _)
      have := loopBlockSize_pos (param[size.length - k - 1]'(by omega)) hsk
      have hstep : ∃ st2, blockedOpenStep size param st1 k = some st2 ∧
          st2.blockSize.length = st1.blockSize.length ∧
          st2.blocks.length = st1.blocks.length := by
        simp only [blockedOpenStep,
          List.getElem?_eq_getElem (by omega : k < size.length),
          List.getElem?_eq_getElem (by omega : size.length - k - 1 < param.length),
          Option.bind_eq_bind, Option.bind_some]
        rw [if_neg (by omega)]
        exact ⟨_, rfl, by simp, by simp⟩
      obtain ⟨st2, e2, l1, l2⟩ := hstep
      exact ⟨st2, by simp [e2], by omega, by omega⟩
  have h1' : size.length ≤
      (blockedOpenTime size.length param timeDim junk.blockSize).length := by
    simp only [blockedOpenTime]
    repeat' split
    all_goals simp [h1]
  obtain ⟨st, e, -⟩ := key size.length (Nat.le_refl _)
    { junk with
      blockSize := blockedOpenTime size.length param timeDim junk.blockSize
      totalBlockSize := 1
      totalBlocks := 1 } h1' h2
  exact ⟨st, e⟩

/-! ### Distribution -/

theorem Dist.total_le {c : Dist} {total : Nat} (hr : 0 < c.ranks) (hd : 0 < c.domains) :
    total ≤ c.localBlockCount total * (c.domains * c.ranks) := by
  simp only [Dist.localBlockCount]
  have hpos : 0 < c.domains * c.ranks := Nat.mul_pos hd hr
  generalize c.domains * c.ranks = n at *
  have h1 := Nat.div_add_mod (total + n - 1) n
  have h2 := Nat.mod_lt (total + n - 1) hpos
  rw [Nat.mul_comm] at h1
  omega

theorem Dist.owner_bounds {c : Dist} {total id : Nat} (hr : 0 < c.ranks) (hd : 0 < c.domains)
    (hid : id < total) :
    c.blockRank total id < c.ranks ∧ c.blockDomain total id < c.domains ∧
      c.blockOffset total id < c.localBlockCount total := by
  have htot := Dist.total_le (c := c) (total := total) hr hd
  have hL : 0 < c.localBlockCount total := by
    rcases Nat.eq_zero_or_pos (c.localBlockCount total) with h | h
    · rw [h] at htot; simp at htot; omega
    · exact h
  simp only [Dist.blockRank, Dist.blockDomain, Dist.blockOffset, Dist.nodeBlockCount]
  split
  · refine ⟨Nat.mod_lt _ hr, Nat.mod_lt _ hd, ?_⟩
    rw [Nat.div_div_eq_div_mul]
    apply Nat.div_lt_of_lt_mul
    rw [Nat.mul_comm, Nat.mul_comm c.ranks]
    omega
  · refine ⟨?_, Nat.mod_lt _ hd, Nat.mod_lt _ hL⟩
    apply Nat.div_lt_of_lt_mul
    rw [Nat.mul_assoc]; omega

theorem Dist.local2global_owner {c : Dist} {total id : Nat} :
    c.local2global total (c.blockRank total id) (c.blockDomain total id)
      (c.blockOffset total id) = id := by
  simp only [Dist.blockRank, Dist.blockDomain, Dist.blockOffset, Dist.nodeBlockCount,
    Dist.local2global]
  split
  · have h1 := Nat.div_add_mod id c.ranks
    have h2 := Nat.div_add_mod (id / c.ranks) c.domains
    rw [Nat.mul_comm] at h1 h2
    rw [h2, h1]
  · have h1 := Nat.div_add_mod id (c.localBlockCount total)
    have h2 := Nat.div_add_mod (id / c.localBlockCount total) c.domains
    rw [← Nat.div_div_eq_div_mul, Nat.add_comm (_ % c.domains), Nat.mul_comm _ c.domains, h2,
      Nat.mul_comm, Nat.add_comm, h1]

theorem Dist.owner_local2global {c : Dist} {total r d o : Nat} (hr : r < c.ranks)
    (hd : d < c.domains) (ho : o < c.localBlockCount total) :
    c.blockRank total (c.local2global total r d o) = r ∧
      c.blockDomain total (c.local2global total r d o) = d ∧
      c.blockOffset total (c.local2global total r d o) = o := by
  simp only [Dist.blockRank, Dist.blockDomain, Dist.blockOffset, Dist.nodeBlockCount,
    Dist.local2global]
  have hR : 0 < c.ranks := by omega
  have hD : 0 < c.domains := by omega
  split
  · have e1 : ((o * c.domains + d) * c.ranks + r) / c.ranks = o * c.domains + d := by
      rw [Nat.mul_comm, Nat.mul_add_div hR, Nat.div_eq_of_lt hr, Nat.add_zero]
    rw [e1]
    refine ⟨?_, ?_, ?_⟩
    · rw [Nat.mul_comm, Nat.mul_add_mod, Nat.mod_eq_of_lt hr]
    · rw [Nat.mul_comm, Nat.mul_add_mod, Nat.mod_eq_of_lt hd]
    · rw [Nat.mul_comm, Nat.mul_add_div hD, Nat.div_eq_of_lt hd, Nat.add_zero]
  · generalize c.localBlockCount total = L at *
    have hL : 0 < L := by omega
    have e1 : (o + (d + r * c.domains) * L) / L = d + r * c.domains := by
      rw [Nat.add_comm, Nat.mul_comm, Nat.mul_add_div hL, Nat.div_eq_of_lt ho, Nat.add_zero]
    rw [← Nat.div_div_eq_div_mul, e1]
    refine ⟨?_, ?_, ?_⟩
    · rw [Nat.add_comm, Nat.mul_comm, Nat.mul_add_div hD, Nat.div_eq_of_lt hd, Nat.add_zero]
    · rw [Nat.add_comm, Nat.mul_comm, Nat.mul_add_mod, Nat.mod_eq_of_lt hd]
    · rw [Nat.add_comm, Nat.mul_comm, Nat.mul_add_mod, Nat.mod_eq_of_lt ho]

theorem Dist.local2global_mono {c : Dist} {total r d i j : Nat} (h : i ≤ j) :
    c.local2global total r d i ≤ c.local2global total r d j := by
  simp only [Dist.local2global]
  split
  · apply Nat.add_le_add_right
    apply Nat.mul_le_mul_right
    apply Nat.add_le_add_right
    exact Nat.mul_le_mul_right _ h
  · omega

end Asagi
