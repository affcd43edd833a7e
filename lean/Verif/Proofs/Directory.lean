import Verif.Model.Directory
import Mathlib.Data.List.Basic
/-
A dictionary entry as a list of owners: `enc n L` is the array of length `n` that starts with
the owners `L`.
-/
namespace Asagi

/-- The array for the list of owners `L`. -/
def enc (n : Nat) (L : List Nat) : List Int :=
  L.map (fun e : Nat => (e : Int)) ++ List.replicate (n - L.length) (-1)

theorem enc_length {n : Nat} {L : List Nat} (h : L.length ≤ n) : (enc n L).length = n := by
  simp [enc]; omega

theorem dictInit_eq (n : Nat) : dictInit n = enc n [] := by simp [dictInit, enc]

theorem dictCount_neg (k : Nat) : dictCount (List.replicate k (-1)) = 0 := by
  cases k <;> simp [List.replicate_succ, dictCount]

theorem dictCount_enc (n : Nat) (L : List Nat) : dictCount (enc n L) = L.length := by
  unfold enc
  generalize n - L.length = k
  induction L with
  | nil => exact dictCount_neg k
  | cons x xs ih =>
    simp only [List.map_cons, List.cons_append, dictCount, List.length_cons]
    rw [if_neg (by omega), ih]

theorem dictShiftUp_spec (e : Int) (k : Nat) (d : List Int) (hk : k < d.length) :
    (dictShiftUp d k).set 0 e = e :: (d.take k ++ d.drop (k + 1)) := by
  induction k generalizing d with
  | zero =>
    cases d with
    | nil => simp at hk
    | cons x xs => simp [dictShiftUp]
  | succ k ih =>
    rw [dictShiftUp, ih _ (by simp; omega)]
    have h1 : (d.set (k + 1) (d.getD k 0)).take k = d.take k := by
      rw [List.take_set_of_le (by omega)]
    have h2 : (d.set (k + 1) (d.getD k 0)).drop (k + 1) = d.getD k 0 :: d.drop (k + 2) := by
      rw [List.drop_eq_getElem_cons (by simp; omega)]
      simp only [List.getElem_set_self, List.cons.injEq, true_and]
      rw [List.drop_set_of_lt (by omega)]
    rw [h1, h2]
    have h3 : d.take (k + 1) = d.take k ++ [d.getD k 0] := by
      rw [List.take_add_one, List.getElem?_eq_getElem (by omega)]
      simp [List.getD_eq_getElem?_getD, List.getElem?_eq_getElem (show k < d.length by omega)]
    rw [h3]
    simp

theorem dictAdd_enc {n : Nat} {L : List Nat} (hn : 0 < n) (h : L.length ≤ n) (e : Nat) :
    dictAdd (enc n L) e = enc n ((e :: L).take n) := by
  unfold dictAdd
  simp only
  rw [dictCount_enc, enc_length h, dictShiftUp_spec _ _ _ (by rw [enc_length h]; omega)]
  by_cases hl : L.length = n
  · have hm : min L.length (n - 1) = n - 1 := by omega
    have he : enc n L = L.map (fun e : Nat => (e : Int)) := by simp [enc, hl]
    rw [hm, he, show n - 1 + 1 = n by omega]
    obtain ⟨m, rfl⟩ : ∃ m, n = m + 1 := ⟨n - 1, by omega⟩
    have hd : List.drop (m + 1) (L.map (fun e : Nat => (e : Int))) = [] := by
      apply List.drop_eq_nil_of_le; simp [hl]
    rw [hd, List.take_succ_cons]
    simp [enc, List.map_take, hl]
  · have hm : min L.length (n - 1) = L.length := by omega
    rw [hm, List.take_of_length_le (show (e :: L).length ≤ n by simp; omega)]
    unfold enc
    rw [List.take_left' (by simp), List.drop_append]
    simp only [List.length_map, List.length_cons, List.map_cons, List.cons_append]
    rw [List.drop_eq_nil_of_le (by simp)]
    simp only [List.nil_append, List.drop_replicate]
    congr 3
    omega

theorem dictFind_enc_mem {n : Nat} {L : List Nat} {e : Nat} (h : e ∈ L) :
    dictFind (enc n L) e = L.idxOf e := by
  unfold enc
  generalize n - L.length = k
  induction L with
  | nil => simp at h
  | cons x xs ih =>
    simp only [List.map_cons, List.cons_append, dictFind]
    by_cases hx : x = e
    · subst hx; simp
    · rw [if_neg (by omega), ih ((List.mem_cons.1 h).resolve_left (fun h => hx h.symm)), List.idxOf_cons_ne _ hx]

theorem dictFind_enc_not {n : Nat} {L : List Nat} (hl : L.length ≤ n) {e : Nat} (h : e ∉ L) :
    dictFind (enc n L) e = n := by
  have key : ∀ (L : List Nat) (k : Nat), e ∉ L →
      dictFind (L.map (fun e : Nat => (e : Int)) ++ List.replicate k (-1)) e = L.length + k := by
    intro L
    induction L with
    | nil =>
      intro k _
      induction k with
      | zero => rfl
      | succ k ih =>
        simp only [List.map_nil, List.nil_append, List.replicate_succ, dictFind] at ih ⊢
        rw [if_neg (by omega), ih]
        simp
    | cons x xs ih =>
      intro k h
      simp only [List.mem_cons, not_or] at h
      simp only [List.map_cons, List.cons_append, dictFind]
      rw [if_neg (by omega), ih k h.2]
      simp; omega
  unfold enc
  rw [key _ _ h]; omega

theorem dictShiftDown_length (m : Nat) (d : List Int) (i : Nat) :
    (dictShiftDown d i m).length = d.length := by
  induction m generalizing d i with
  | zero => rfl
  | succ m ih => rw [dictShiftDown, ih]; simp

theorem dictShiftDown_spec (x : Int) (m : Nat) (d : List Int) (i : Nat)
    (h : i + m + 1 = d.length) :
    (dictShiftDown d i m).set (d.length - 1) x = d.take i ++ d.drop (i + 1) ++ [x] := by
  induction m generalizing d i with
  | zero =>
    rw [dictShiftDown]
    rw [show d.length - 1 = i by omega, List.set_eq_take_append_cons_drop, if_pos (by omega)]
    rw [List.drop_eq_nil_of_le (by omega)]
    simp
  | succ m ih =>
    rw [dictShiftDown]
    have hl : (d.set i (d.getD (i + 1) 0)).length = d.length := by simp
    have := ih (d.set i (d.getD (i + 1) 0)) (i + 1) (by rw [hl]; omega)
    rw [hl] at this
    rw [this]
    have h1 : (d.set i (d.getD (i + 1) 0)).take (i + 1) = d.take i ++ [d.getD (i + 1) 0] := by
      rw [List.take_add_one, List.take_set_of_le (by omega)]
      simp [show i < d.length by omega]
    have h2 : (d.set i (d.getD (i + 1) 0)).drop (i + 1 + 1) = d.drop (i + 1 + 1) := by
      rw [List.drop_set_of_lt (by omega)]
    have h3 : d.drop (i + 1) = d.getD (i + 1) 0 :: d.drop (i + 1 + 1) := by
      rw [List.drop_eq_getElem_cons (by omega)]
      simp [List.getD_eq_getElem?_getD, List.getElem?_eq_getElem (show i + 1 < d.length by omega)]
    rw [h1, h2, h3]
    simp

theorem dictDelete_mem {n : Nat} {L : List Nat} (h : L.length ≤ n) {e : Nat} (he : e ∈ L) :
    dictDelete (enc n L) e = enc n (L.erase e) := by
  unfold dictDelete
  simp only
  rw [dictFind_enc_mem he, enc_length h]
  have hi := List.idxOf_lt_length_iff.2 he
  have hs := dictShiftDown_spec (-1) (n - 1 - L.idxOf e) (enc n L) (L.idxOf e)
    (by rw [enc_length h]; omega)
  rw [enc_length h] at hs
  rw [hs, List.erase_eq_eraseIdx_of_idxOf rfl, List.eraseIdx_eq_take_drop_succ]
  unfold enc
  have hlen : (List.take (L.idxOf e) L ++ List.drop (L.idxOf e + 1) L).length = L.length - 1 := by
    simp; omega
  rw [hlen, List.take_append_of_le_length (by simp; omega),
    List.drop_append_of_le_length (by simp; omega)]
  simp only [List.map_append, List.map_take, List.map_drop, List.append_assoc]
  congr 2
  rw [show n - (L.length - 1) = n - L.length + 1 by omega, List.replicate_succ']

theorem dictDelete_not {n : Nat} {L : List Nat} (hn : 0 < n) (h : L.length ≤ n) {e : Nat}
    (he : e ∉ L) : dictDelete (enc n L) e = enc n (L.take (n - 1)) := by
  unfold dictDelete
  simp only
  rw [dictFind_enc_not h he, enc_length h, show n - 1 - n = 0 by omega, dictShiftDown,
    List.set_eq_take_append_cons_drop, if_pos (by rw [enc_length h]; omega),
    List.drop_eq_nil_of_le (by rw [enc_length h]; omega)]
  unfold enc
  by_cases hl : L.length = n
  · rw [List.take_append_of_le_length (by simp; omega)]
    simp only [List.map_take, List.length_take]
    congr 1
    rw [show n - min (n - 1) L.length = 1 by omega]; rfl
  · rw [List.take_of_length_le (show L.length ≤ n - 1 by omega), List.take_append,
      List.take_of_length_le (by simp; omega)]
    simp only [List.length_map, List.take_replicate, List.append_assoc]
    congr 1
    rw [show min (n - 1 - L.length) (n - L.length) = n - L.length - 1 by omega,
      show n - L.length = (n - L.length - 1) + 1 by omega, List.replicate_succ']
    simp

theorem dictFetch_enc {n : Nat} {L : List Nat} (random : Nat) :
    dictFetch (enc n L) random =
      if L = [] then -1 else ((L.getD (random % L.length) 0 : Nat) : Int) := by
  unfold dictFetch
  simp only
  rw [dictCount_enc]
  by_cases hL : L = []
  · subst hL; simp
  · have hpos : 0 < L.length := List.length_pos_of_ne_nil hL
    rw [if_pos hpos, if_neg hL]
    have hlt := Nat.mod_lt random hpos
    unfold enc
    rw [List.getD_eq_getElem?_getD, List.getElem?_append_left (by simpa using hlt),
      List.getD_eq_getElem?_getD, List.getElem?_map, List.getElem?_eq_getElem hlt]
    rfl

/-- The owners recorded after one message. -/
def ownersStep (n : Nat) (L : List Nat) : DictOp → List Nat
  | .add e => (e :: L).take n
  | .delete e => if e ∈ L then L.erase e else L.take (n - 1)

theorem dictStep_enc {n : Nat} {L : List Nat} (hn : 0 < n) (h : L.length ≤ n) (o : DictOp) :
    dictStep (enc n L) o = enc n (ownersStep n L o) := by
  cases o with
  | add e => exact dictAdd_enc hn h e
  | delete e =>
    by_cases he : e ∈ L
    · simp only [dictStep, ownersStep, if_pos he]; exact dictDelete_mem h he
    · simp only [dictStep, ownersStep, if_neg he]; exact dictDelete_not hn h he

theorem ownersStep_length {n : Nat} {L : List Nat} (h : L.length ≤ n) (o : DictOp) :
    (ownersStep n L o).length ≤ n := by
  cases o with
  | add e => simp [ownersStep]; omega
  | delete e =>
    unfold ownersStep
    simp only
    split
    · have := List.length_erase_le (a := e) (l := L); omega
    · simp; omega

theorem dictRun_enc {n : Nat} (hn : 0 < n) (ops : List DictOp) :
    dictRun n ops = enc n (ops.foldl (ownersStep n) []) ∧
    (ops.foldl (ownersStep n) []).length ≤ n := by
  unfold dictRun
  rw [dictInit_eq]
  have key : ∀ (ops : List DictOp) (L : List Nat), L.length ≤ n →
      ops.foldl dictStep (enc n L) = enc n (ops.foldl (ownersStep n) L) ∧
      (ops.foldl (ownersStep n) L).length ≤ n := by
    intro ops
    induction ops with
    | nil => intro L h; exact ⟨rfl, h⟩
    | cons o os ih =>
      intro L h
      rw [List.foldl_cons, List.foldl_cons, dictStep_enc hn h]
      exact ih _ (ownersStep_length h o)
  exact key ops [] (by simp)

end Asagi
