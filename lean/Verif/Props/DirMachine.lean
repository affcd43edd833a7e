import Verif.Model.DirMachine
import Verif.Proofs.Machine
import Mathlib.Tactic.Ring
/-
C70: the records of the block directory in machine arithmetic.
-/
namespace Asagi.Props
open Asagi

theorem toInt64_nonneg {e : UInt64} (h : e.toNat < 2 ^ 63) : e.toInt64.toInt = e.toNat := by
  have h1 : e.toInt64.toInt = e.toBitVec.toInt := rfl
  have h2 : e.toNat = e.toBitVec.toNat := rfl
  rw [h1, h2, BitVec.toInt_eq_toNat_of_lt (by omega)]

theorem mrankCacheSize_toNat {cs dm : UInt32} (h : cs.toNat * dm.toNat < 2 ^ 32) :
    (mrankCacheSize cs dm).toNat = cs.toNat * dm.toNat := by
  rw [mrankCacheSize, UInt32.toNat_toUInt64, u32_mul h]

theorem slot_lt {cs dm slot d : Nat} (hs : slot < cs) (hd : d < dm) : slot + cs * d < cs * dm := by
  have : cs * (d + 1) ≤ cs * dm := Nat.mul_le_mul_left _ hd
  rw [Nat.mul_add] at this; omega

theorem mslotOffset_toNat {cs dm d : UInt32} {slot : UInt64} (h : cs.toNat * dm.toNat < 2 ^ 32)
    (hs : slot.toNat < cs.toNat) (hd : d.toNat < dm.toNat) :
    (mslotOffset slot cs d).toNat = slot.toNat + cs.toNat * d.toNat := by
  have := slot_lt hs hd
  have h1 : (cs * d).toUInt64.toNat = cs.toNat * d.toNat := by
    rw [UInt32.toNat_toUInt64, u32_mul (by omega)]
  rw [mslotOffset, u64_add (by rw [h1]; omega), h1]

theorem u64_ne_zero {a : UInt64} (h : 0 < a.toNat) : a ≠ 0 := by
  rintro rfl; simp at h

/-- **C70 (records).** If the slots of a process fit in 32 bits and all slots in 63 bits, the record for
slot `slot` in domain `d` of process `r` is not negative, and the process, the domain and the slot that
are computed from it are these. -/
theorem C70_records_partial (cs dm ranks d r : UInt32) (slot : UInt64)
    (h1 : cs.toNat * dm.toNat < 2 ^ 32) (h2 : ranks.toNat * (cs.toNat * dm.toNat) < 2 ^ 63)
    (hs : slot.toNat < cs.toNat) (hd : d.toNat < dm.toNat) (hr : r.toNat < ranks.toNat) :
    let e := mdirEntry (mrankCacheSize cs dm) r (mslotOffset slot cs d)
    0 ≤ e.toInt64.toInt ∧ mentryRank (mrankCacheSize cs dm) e = some r ∧
    ∃ o, mentryOffset (mrankCacheSize cs dm) e = some o ∧ o.toNat / cs.toNat = d.toNat ∧
      o.toNat % cs.toNat = slot.toNat := by
  intro e
  have eR := mrankCacheSize_toNat h1
  have eO := mslotOffset_toNat h1 hs hd
  have hlt := slot_lt hs hd
  have hmul : (r.toNat + 1) * (cs.toNat * dm.toNat) ≤ ranks.toNat * (cs.toNat * dm.toNat) :=
    Nat.mul_le_mul_right _ hr
  rw [Nat.add_mul] at hmul
  have e1 : (r.toUInt64 * mrankCacheSize cs dm).toNat = r.toNat * (cs.toNat * dm.toNat) := by
    rw [u64_mul] <;> rw [UInt32.toNat_toUInt64, eR]; omega
  have eE : e.toNat = r.toNat * (cs.toNat * dm.toNat) + (slot.toNat + cs.toNat * d.toNat) := by
    change (r.toUInt64 * mrankCacheSize cs dm + mslotOffset slot cs d).toNat = _
    rw [u64_add] <;> rw [e1, eO]; omega
  have hpos : 0 < (mrankCacheSize cs dm).toNat := by rw [eR]; omega
  have hne := u64_ne_zero hpos
  refine ⟨by rw [toInt64_nonneg (by omega)]; omega, ?_, ?_⟩
  · rw [mentryRank, if_neg hne]
    congr 1
    apply UInt32.toNat_inj.1
    rw [UInt64.toNat_toUInt32, UInt64.toNat_div, eE, eR, Nat.mul_comm r.toNat,
      Nat.mul_add_div (by omega), Nat.div_eq_of_lt hlt, Nat.add_zero, Nat.mod_eq_of_lt r.toNat_lt]
  · refine ⟨_, by rw [mentryOffset, if_neg hne], ?_⟩
    rw [UInt64.toNat_mod, eE, eR, Nat.mul_comm r.toNat, Nat.mul_add_mod, Nat.mod_eq_of_lt hlt,
      Nat.add_mul_div_left _ _ (by omega), Nat.div_eq_of_lt hs, Nat.add_mul_mod_self_left,
      Nat.mod_eq_of_lt hs]
    exact ⟨Nat.zero_add _, rfl⟩

/-- **C70 (messages).** If the numbers fit, the message about a change of entry `o` for the slot
`offset` of the sender is decoded to these numbers. -/
theorem C70_messages_partial (rcs o offset : UInt64) (blocks : Nat) (h : blocks * rcs.toNat ≤ 2 ^ 64)
    (ho : o.toNat < blocks) (hoff : offset.toNat < rcs.toNat) :
    mdirMsgDecode rcs (mdirMsg rcs o offset) = some (o, offset) := by
  have hmul : (o.toNat + 1) * rcs.toNat ≤ blocks * rcs.toNat := Nat.mul_le_mul_right _ ho
  rw [Nat.add_mul] at hmul
  have e1 : (o * rcs).toNat = o.toNat * rcs.toNat := u64_mul (by omega)
  have e2 : (mdirMsg rcs o offset).toNat = o.toNat * rcs.toNat + offset.toNat := by
    rw [mdirMsg, u64_add (by rw [e1]; omega), e1]
  rw [mdirMsgDecode, if_neg (u64_ne_zero (by omega))]
  congr 2
  · apply UInt64.toNat_inj.1
    rw [UInt64.toNat_div, e2, Nat.mul_comm o.toNat, Nat.mul_add_div (by omega),
      Nat.div_eq_of_lt hoff, Nat.add_zero]
  · apply UInt64.toNat_inj.1
    rw [UInt64.toNat_mod, e2, Nat.mul_comm o.toNat, Nat.mul_add_mod, Nat.mod_eq_of_lt hoff]

/-! ### The entries of the directory -/

theorem map_getD (d : List Int64) (i : Nat) :
    (d.getD i 0).toInt = (d.map Int64.toInt).getD i 0 := by
  rw [List.getD_eq_getElem?_getD, List.getD_eq_getElem?_getD, List.getElem?_map]
  cases d[i]? <;> rfl

theorem mdictCount_eq (d : List Int64) : mdictCount d = dictCount (d.map Int64.toInt) := by
  induction d with
  | nil => rfl
  | cons x xs ih =>
    simp only [mdictCount, dictCount, List.map_cons, ih, Int64.lt_iff_toInt_lt]
    rfl

theorem mdictShiftUp_eq (d : List Int64) (i : Nat) :
    (mdictShiftUp d i).map Int64.toInt = dictShiftUp (d.map Int64.toInt) i := by
  induction i generalizing d with
  | zero => rfl
  | succ i ih => rw [mdictShiftUp, dictShiftUp, ih, List.map_set, map_getD]

theorem mdictShiftDown_eq (d : List Int64) (i n : Nat) :
    (mdictShiftDown d i n).map Int64.toInt = dictShiftDown (d.map Int64.toInt) i n := by
  induction n generalizing d i with
  | zero => rfl
  | succ n ih => rw [mdictShiftDown, dictShiftDown, ih, List.map_set, map_getD]

theorem mdictFind_eq (d : List Int64) (e : Int64) :
    mdictFind d e = dictFind (d.map Int64.toInt) e.toInt := by
  induction d with
  | nil => rfl
  | cons x xs ih =>
    simp only [mdictFind, dictFind, List.map_cons, ih, Int64.toInt_inj]

/-- The change as the exact model sees it. -/
def dictOpOf (op : Bool × UInt64) : DictOp := if op.1 then .add op.2.toNat else .delete op.2.toNat

/-- **C70 (entries).** With records below 2^63 the entries hold exactly the records of the exact model,
after any sequence of changes, and `fetchBlockInfo` returns the same record. -/
theorem C70_entries_exact_partial (size : Nat) (ops : List (Bool × UInt64))
    (h : ∀ op ∈ ops, op.2.toNat < 2 ^ 63) :
    (mdictRun size ops).map Int64.toInt = dictRun size (ops.map dictOpOf) ∧
    ∀ random, (mdictFetch (mdictRun size ops) random).toInt =
      dictFetch (dictRun size (ops.map dictOpOf)) random := by
  have key : ∀ (d : List Int64), (ops.foldl mdictStep d).map Int64.toInt =
      (ops.map dictOpOf).foldl dictStep (d.map Int64.toInt) := by
    induction ops with
    | nil => intro d; rfl
    | cons op ops ih =>
      intro d
      rw [List.foldl_cons, List.map_cons, List.foldl_cons, ih (fun o ho => h o (by simp [ho]))]
      congr 1
      have ho := toInt64_nonneg (h op (by simp))
      unfold mdictStep dictOpOf
      by_cases hb : op.1 = true
      · rw [if_pos hb, if_pos hb]
        simp only [mdictAdd, dictStep, dictAdd, List.map_set, mdictShiftUp_eq, mdictCount_eq, ho,
          List.length_map]
      · rw [if_neg hb, if_neg hb]
        simp only [mdictDelete, dictStep, dictDelete, List.map_set, mdictShiftDown_eq, mdictFind_eq, ho,
          List.length_map]
        rfl
  have h0 : (mdictRun size ops).map Int64.toInt = dictRun size (ops.map dictOpOf) := by
    rw [mdictRun, key, dictRun, dictInit, List.map_replicate]
    rfl
  refine ⟨h0, fun random => ?_⟩
  rw [← h0]
  simp only [mdictFetch, dictFetch, mdictCount_eq]
  split
  · rw [map_getD]
  · rfl

/-! ### The memory of the directory -/

/-- **C70 (memory).** If the directory of a process has less than 2^64 longs, its entries do not overlap,
lie in the allocated memory, and each of their longs is initialised by exactly one domain. -/
theorem C70_memory_partial (blocks : UInt64) (total domains : UInt32)
    (h : blocks.toNat * total.toNat * domains.toNat < 2 ^ 64) :
    (mdictLongs blocks total domains).toNat = blocks.toNat * total.toNat * domains.toNat ∧
    (∀ i : UInt64, i.toNat < blocks.toNat * domains.toNat →
      (mdictIndex i total).toNat = i.toNat * total.toNat ∧
      (mdictIndex i total).toNat + total.toNat ≤ (mdictLongs blocks total domains).toNat) ∧
    (∀ k, k < (mdictLongs blocks total domains).toNat →
      ∃! d : UInt32, d.toNat < domains.toNat ∧ (mdictInitRange blocks total d).1.toNat ≤ k ∧
        k < (mdictInitRange blocks total d).2.toNat) := by
  rcases Nat.eq_zero_or_pos domains.toNat with h0 | hpos
  · have hz : domains = 0 := UInt32.toNat_inj.1 h0
    subst hz
    simp [mdictLongs]
  have hle : blocks.toNat * total.toNat ≤ blocks.toNat * total.toNat * domains.toNat :=
    Nat.le_mul_of_pos_right _ hpos
  have eA : (blocks * total.toUInt64).toNat = blocks.toNat * total.toNat := by
    rw [u64_mul] <;> rw [UInt32.toNat_toUInt64]; omega
  have eL : (mdictLongs blocks total domains).toNat = blocks.toNat * total.toNat * domains.toNat := by
    rw [mdictLongs, u64_mul] <;> rw [eA, UInt32.toNat_toUInt64]; omega
  refine ⟨eL, ?_, ?_⟩
  · intro i hi
    have hmul : (i.toNat + 1) * total.toNat ≤ blocks.toNat * domains.toNat * total.toNat :=
      Nat.mul_le_mul_right _ hi
    rw [Nat.add_mul, Nat.one_mul, Nat.mul_right_comm] at hmul
    rcases Nat.eq_zero_or_pos total.toNat with ht | ht
    · have hz : total = 0 := UInt32.toNat_inj.1 ht
      subst hz
      simp [mdictIndex]
    · have e : (mdictIndex i total).toNat = i.toNat * total.toNat := by
        rw [mdictIndex, u64_mul] <;> rw [UInt32.toNat_toUInt64]; omega
      rw [e, eL]
      exact ⟨rfl, hmul⟩
  · intro k hk
    rw [eL] at hk
    have hA : 0 < blocks.toNat * total.toNat := by
      rcases Nat.eq_zero_or_pos (blocks.toNat * total.toNat) with hz | hz
      · rw [hz] at hk; omega
      · exact hz
    generalize hAe : blocks.toNat * total.toNat = A at *
    have eR : ∀ d : UInt32, d.toNat < domains.toNat →
        (mdictInitRange blocks total d).1.toNat = A * d.toNat ∧
        (mdictInitRange blocks total d).2.toNat = A * (d.toNat + 1) := by
      intro d hd
      have hm : A * (d.toNat + 1) ≤ A * domains.toNat := Nat.mul_le_mul_left _ hd
      have hm' : A * (d.toNat + 1) = A * d.toNat + A := Nat.mul_succ _ _
      have := domains.toNat_lt
      have e1 : (d + 1).toNat = d.toNat + 1 := by
        have := u32_add (a := d) (b := 1) (by simp; omega)
        simpa using this
      simp only [mdictInitRange]
      have f1 : (blocks * total.toUInt64 * d.toUInt64).toNat = A * d.toNat := by
        rw [u64_mul (a := blocks * total.toUInt64)] <;> rw [eA, UInt32.toNat_toUInt64]; omega
      have f2 : (blocks * total.toUInt64 * (d + 1).toUInt64).toNat = A * (d.toNat + 1) := by
        rw [u64_mul (a := blocks * total.toUInt64)] <;> rw [eA, UInt32.toNat_toUInt64, e1]; omega
      exact ⟨f1, f2⟩
    have hdiv : k / A < domains.toNat := Nat.div_lt_of_lt_mul hk
    have hlt32 : k / A < 2 ^ 32 := lt_trans hdiv domains.toNat_lt
    have ed : (UInt32.ofNat (k / A)).toNat = k / A := by
      rw [UInt32.toNat_ofNat', Nat.mod_eq_of_lt hlt32]
    refine ⟨UInt32.ofNat (k / A), ⟨by rw [ed]; exact hdiv, ?_, ?_⟩, ?_⟩
    · rw [(eR _ (by rw [ed]; exact hdiv)).1, ed]; exact Nat.mul_div_le k A
    · rw [(eR _ (by rw [ed]; exact hdiv)).2, ed]
      exact Nat.lt_mul_div_succ k hA
    · rintro d ⟨hd, hd1, hd2⟩
      rw [(eR d hd).1] at hd1
      rw [(eR d hd).2] at hd2
      apply UInt32.toNat_inj.1
      rw [ed]
      symm
      rw [Nat.div_eq_iff hA]
      rw [Nat.mul_succ] at hd2
      rw [Nat.mul_comm] at hd1 hd2
      constructor <;> omega

/-! ### The numbers of the threads in the distributed mutex -/

/-- **C70 (mutex).** If the number of threads of all processes is less than 2^32, the number of a thread
is not negative and names exactly this process and thread. -/
theorem C70_lock_ids_partial (rank ranks threads id : UInt32)
    (h : ranks.toNat * threads.toNat < 2 ^ 32) (hr : rank.toNat < ranks.toNat)
    (hi : id.toNat < threads.toNat) :
    0 ≤ (mlockId rank threads id).toInt ∧
    mlockOwner threads (mlockId rank threads id) = some (rank, id) := by
  have hmul : (rank.toNat + 1) * threads.toNat ≤ ranks.toNat * threads.toNat :=
    Nat.mul_le_mul_right _ hr
  rw [Nat.add_mul] at hmul
  have e1 : (rank * threads).toNat = rank.toNat * threads.toNat := u32_mul (by omega)
  have e2 : (rank * threads + id).toUInt64.toNat = rank.toNat * threads.toNat + id.toNat := by
    rw [UInt32.toNat_toUInt64, u32_add (by rw [e1]; omega), e1]
  have eL : (mlockId rank threads id).toInt = rank.toNat * threads.toNat + id.toNat := by
    rw [mlockId, toInt64_nonneg (by omega), e2]; push_cast; rfl
  have eN : threads.toUInt64.toInt64.toInt = threads.toNat := by
    rw [toInt64_nonneg] <;> rw [UInt32.toNat_toUInt64]
    have := threads.toNat_lt; omega
  have hne : threads ≠ 0 := by rintro rfl; simp at hi
  refine ⟨by rw [eL]; omega, ?_⟩
  rw [mlockOwner, if_neg hne]
  have conv : ∀ (x : Int64) (n : Nat), x.toInt = n → n < 2 ^ 32 → x.toUInt64.toUInt32.toNat = n := by
    intro x n hx hn
    rw [UInt64.toNat_toUInt32]
    have : x.toUInt64.toNat = n := by
      have h3 : x.toInt = x.toBitVec.toInt := rfl
      have h4 : x.toUInt64.toNat = x.toBitVec.toNat := rfl
      rw [h4]
      rw [h3, BitVec.toInt_eq_toNat_cond] at hx
      split at hx <;> omega
    rw [this, Nat.mod_eq_of_lt hn]
  have hdiv : (mlockId rank threads id / threads.toUInt64.toInt64).toInt = (rank.toNat : ℤ) := by
    have hq : (rank.toNat * threads.toNat + id.toNat) / threads.toNat = rank.toNat := by
      rw [Nat.mul_comm, Nat.mul_add_div (by omega), Nat.div_eq_of_lt hi, Nat.add_zero]
    rw [Int64.toInt_div, eL, eN, ← Int.natCast_mul, ← Int.natCast_add, ← Int.ofNat_tdiv, hq]
    have := rank.toNat_lt
    exact Int.bmod_eq_of_le (by omega) (by omega)
  have hmod : (mlockId rank threads id % threads.toUInt64.toInt64).toInt = (id.toNat : ℤ) := by
    have hq : (rank.toNat * threads.toNat + id.toNat) % threads.toNat = id.toNat := by
      rw [Nat.mul_comm, Nat.mul_add_mod, Nat.mod_eq_of_lt hi]
    rw [Int64.toInt_mod, eL, eN, ← Int.natCast_mul, ← Int.natCast_add, ← Int.ofNat_tmod, hq]
  refine congrArg some (Prod.ext ?_ ?_)
  · exact UInt32.toNat_inj.1 (conv _ _ hdiv rank.toNat_lt)
  · exact UInt32.toNat_inj.1 (conv _ _ hmod id.toNat_lt)

/-! ### The bounds are needed -/

/-- **C70, violated.** Two domains with a cache of 2^31 blocks: the code computes 0 for the number of
slots of a process, and the division that finds the owner of a record is undefined. With one more block
the record of slot 2 of process 0 is taken for a slot of process 1. -/
theorem C70_rank_cache_size_violated :
    mrankCacheSize 2147483648 2 = 0 ∧ mentryRank (mrankCacheSize 2147483648 2) 5 = none ∧
    mentryRank (mrankCacheSize 2147483649 2)
      (mdirEntry (mrankCacheSize 2147483649 2) 0 (mslotOffset 2 2147483649 0)) = some 1 := by
  decide +kernel

/-- The bounds are met by 4 processes with 2 domains, caches of 1000 blocks, 10^6 blocks and 48 threads
per process. -/
example : (1000 : UInt32).toNat * (2 : UInt32).toNat < 2 ^ 32 ∧
    (4 : UInt32).toNat * ((1000 : UInt32).toNat * (2 : UInt32).toNat) < 2 ^ 63 ∧
    1000000 * (mrankCacheSize 1000 2).toNat ≤ 2 ^ 64 ∧
    (4 : UInt32).toNat * (48 : UInt32).toNat < 2 ^ 32 := by decide +kernel

/-- The record of slot 7 in domain 1 of process 3. -/
example : mdirEntry (mrankCacheSize 1000 2) 3 (mslotOffset 7 1000 1) = 7007 ∧
    mdictRun 4 [(true, 7007), (true, 5), (false, 7007)] = [5, -1, -1, -1] ∧
    mdirMsgDecode (mrankCacheSize 1000 2) (mdirMsg (mrankCacheSize 1000 2) 12 1007) = some (12, 1007) ∧
    mlockOwner 48 (mlockId 3 48 17) = some (3, 17) := by decide +kernel

end Asagi.Props
