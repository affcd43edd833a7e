import Verif.Model.CacheDist
import Verif.Spec.SharedCache
/-
Steps of the shared caches do not depend on slots that they do not read.
-/
namespace Asagi
open Spec
variable {β : Type} {P : DistParams β} {st st' : DistState β} {d s k : Nat} {v : β}

theorem poke_goto {t b off s1 : Nat} {ph : Phase β} :
    (st.goto t b off s1 ph).poke d s k v = (st.poke d s k v).goto t b off s1 ph := rfl

theorem sendOp_poke {r b : Nat} {op : DictOp} :
    (st.poke d s k v).sendOp P r b op = (st.sendOp P r b op).poke d s k v := by
  unfold DistState.sendOp
  split <;> rfl

theorem poke_other {d1 s1 k1 : Nat} (h : ¬ (d1 = d ∧ s1 = s)) :
    (st.poke d s k v).data d1 s1 k1 = st.data d1 s1 k1 :=
  if_neg fun e => h ⟨e.1, e.2.1⟩

theorem poke_set {d1 s1 k1 : Nat} {v1 : β} (h : ¬ (d1 = d ∧ s1 = s)) :
    setCell (st.poke d s k v).data d1 s1 k1 v1 = setCell (setCell st.data d1 s1 k1 v1) d s k v := by
  funext x y z
  show (if x = d1 ∧ y = s1 ∧ z = k1 then v1 else if x = d ∧ y = s ∧ z = k then v else st.data x y z) =
    (if x = d ∧ y = s ∧ z = k then v else if x = d1 ∧ y = s1 ∧ z = k1 then v1 else st.data x y z)
  by_cases h1 : x = d1 ∧ y = s1 ∧ z = k1
  · have h2 : ¬ (x = d ∧ y = s ∧ z = k) := fun h2 => h ⟨h1.1.symm.trans h2.1, h1.2.1.symm.trans h2.2.1⟩
    rw [if_pos h1, if_neg h2, if_pos h1]
  · rw [if_neg h1, if_neg h1]

theorem step_poke {a : Agent} (hs : StepOf P a st st') (hr : ∀ b, ¬ Reads P a (st.pc a) d s b)
    (hw : ¬ Writes P a (st.pc a) d s) : StepOf P a (st.poke d s k v) (st'.poke d s k v) := by
  cases a with
  | user t =>
    cases hs with
    | call _ _ b off h1 h2 => exact .call (st.poke d s k v) t b off h1 h2
    | lookup _ _ b off s1 c' old h1 h2 h3 => exact .lookup (st.poke d s k v) t b off s1 c' old h1 h2 h3
    | lockSlot _ _ b off s1 old h1 h2 => exact .lockSlot (st.poke d s k v) t b off s1 old h1 h2
    | delSkip _ _ b off s1 old h1 h2 => exact .delSkip (st.poke d s k v) t b off s1 old h1 h2
    | delWin _ _ b off s1 o h1 h2 h3 => exact .delWin (st.poke d s k v) t b off s1 o h1 h2 h3
    | delWinEnd _ _ b off s1 o h1 => exact .delWinEnd (st.poke d s k v) t b off s1 o h1
    | delThread _ _ b off s1 o h1 h2 => rw [poke_goto, ← sendOp_poke]; exact .delThread (st.poke d s k v) t b off s1 o h1 h2
    | numaEnd _ _ b off s1 i h1 h2 => exact .numaEnd (st.poke d s k v) t b off s1 i h1 h2
    | numaOwn _ _ b off s1 i h1 h2 h3 h4 => exact .numaOwn (st.poke d s k v) t b off s1 i h1 h2 h3 h4
    | numaBusy _ _ b off s1 i h1 h2 h3 h4 h5 => exact .numaBusy (st.poke d s k v) t b off s1 i h1 h2 h3 h4 h5
    | numaTry _ _ b off s1 i h1 h2 h3 h4 h5 h6 => exact .numaTry (st.poke d s k v) t b off s1 i h1 h2 h3 h4 h5 h6
    | numaMiss _ _ b off s1 i h1 h2 => exact .numaMiss (st.poke d s k v) t b off s1 i h1 h2
    | numaHit _ _ b off s1 i s' h1 h2 h3 => exact .numaHit (st.poke d s k v) t b off s1 i s' h1 h2 h3
    | numaCell _ _ b off s1 i s' k1 h1 h2 =>
      have n1 : ¬ (P.dom t = d ∧ s1 = s) := fun ⟨e1, e2⟩ => hw (by rw [h1, ← e1, ← e2]; exact .numa ..)
      have n2 := hr b; rw [h1] at n2
      have := UserStep.numaCell (st.poke d s k v) t b off s1 i s' k1 h1 h2
      rw [poke_other (fun ⟨e1, e2⟩ => n2 (by rw [← e1, ← e2]; exact .numa ..)), poke_set n1] at this
      exact this
    | numaDone _ _ b off s1 i s' k1 h1 h2 => exact .numaDone (st.poke d s k v) t b off s1 i s' k1 h1 h2
    | addNone _ _ b off s1 h1 h2 => exact .addNone (st.poke d s k v) t b off s1 h1 h2
    | addWin _ _ b off s1 h1 h2 h3 => exact .addWin (st.poke d s k v) t b off s1 h1 h2 h3
    | addWinEnd _ _ b off s1 h1 => exact .addWinEnd (st.poke d s k v) t b off s1 h1
    | addThread _ _ b off s1 h1 h2 => rw [poke_goto, ← sendOp_poke]; exact .addThread (st.poke d s k v) t b off s1 h1 h2
    | startNone _ _ b off s1 h1 h2 => exact .startNone (st.poke d s k v) t b off s1 h1 h2
    | startWin _ _ b off s1 rnd h1 h2 h3 => exact .startWin (st.poke d s k v) t b off s1 rnd h1 h2 h3
    | startThread _ _ b off s1 rnd h1 h2 h3 => exact .startThread (st.poke d s k v) t b off s1 rnd h1 h2 h3
    | xferNone _ _ b off s1 e h1 h2 => exact .xferNone (st.poke d s k v) t b off s1 e h1 h2
    | xferWin _ _ b off s1 e h1 h2 => exact .xferWin (st.poke d s k v) t b off s1 e h1 h2
    | copyCell _ _ b off s1 e k1 h1 h2 =>
      have n1 : ¬ (P.dom t = d ∧ s1 = s) := fun ⟨e1, e2⟩ => hw (by rw [h1, ← e1, ← e2]; exact .window ..)
      have n2 := hr b; rw [h1] at n2
      have := UserStep.copyCell (st.poke d s k v) t b off s1 e k1 h1 h2
      rw [poke_other (fun ⟨e1, e2⟩ => n2 (by rw [← e1, ← e2]; exact .window ..)), poke_set n1] at this
      exact this
    | copyDone _ _ b off s1 e k1 h1 h2 => exact .copyDone (st.poke d s k v) t b off s1 e k1 h1 h2
    | xferThread _ _ b off s1 e h1 h2 h3 => exact .xferThread (st.poke d s k v) t b off s1 e h1 h2 h3
    | askFail _ _ b off s1 r h1 h2 => exact .askFail (st.poke d s k v) t b off s1 r h1 h2
    | askDone _ _ b off s1 r buf h1 h2 => exact .askDone (st.poke d s k v) t b off s1 r buf h1 h2
    | recvCell _ _ b off s1 k1 buf h1 h2 =>
      have n1 : ¬ (P.dom t = d ∧ s1 = s) := fun ⟨e1, e2⟩ => hw (by rw [h1, ← e1, ← e2]; exact .recv ..)
      have := UserStep.recvCell (st.poke d s k v) t b off s1 k1 buf h1 h2
      rw [poke_set n1] at this
      exact this
    | recvDone _ _ b off s1 k1 buf h1 h2 => exact .recvDone (st.poke d s k v) t b off s1 k1 buf h1 h2
    | loadCell _ _ b off s1 k1 v1 h1 h2 h3 =>
      have n1 : ¬ (P.dom t = d ∧ s1 = s) := fun ⟨e1, e2⟩ => hw (by rw [h1, ← e1, ← e2]; exact .load ..)
      have := UserStep.loadCell (st.poke d s k v) t b off s1 k1 v1 h1 h2 h3
      rw [poke_set n1] at this
      exact this
    | loadDone _ _ b off s1 k1 h1 h2 => exact .loadDone (st.poke d s k v) t b off s1 k1 h1 h2
    | finNone _ _ b off s1 h1 h2 => exact .finNone (st.poke d s k v) t b off s1 h1 h2
    | finWin _ _ b off s1 h1 h2 => exact .finWin (st.poke d s k v) t b off s1 h1 h2
    | finThread _ _ b off s1 h1 h2 => rw [poke_goto, ← sendOp_poke]; exact .finThread (st.poke d s k v) t b off s1 h1 h2
    | convert _ _ b off s1 h1 =>
      have n2 := hr b; rw [h1] at n2
      have := UserStep.convert (P := P) (st.poke d s k v) t b off s1 h1
      rw [poke_other (fun ⟨e1, e2⟩ => n2 (by rw [← e1, ← e2]; exact .use ..))] at this
      exact this
    | unlock _ _ b off s1 v1 h1 => exact .unlock (st.poke d s k v) t b off s1 v1 h1
  | comm r =>
    cases hs with
    | deliver _ _ src b op rest h1 h2 => exact .deliver (st.poke d s k v) r src b op rest h1 h2
    | accept _ _ t b off s1 h1 h2 h3 => exact .accept (st.poke d s k v) r t b off s1 h1 h2 h3
    | fail _ _ t b i h1 h2 => exact .fail (st.poke d s k v) r t b i h1 h2
    | busy _ _ t b i h1 h2 h3 => exact .busy (st.poke d s k v) r t b i h1 h2 h3
    | «try» _ _ t b i h1 h2 h3 h4 => exact .«try» (st.poke d s k v) r t b i h1 h2 h3 h4
    | miss _ _ t b i h1 h2 => exact .miss (st.poke d s k v) r t b i h1 h2
    | hit _ _ t b i s1 h1 h2 h3 => exact .hit (st.poke d s k v) r t b i s1 h1 h2 h3
    | cell _ _ t b i s1 k1 buf h1 h2 =>
      have n2 := hr b; rw [h1] at n2
      have := CommStep.cell (P := P) (st.poke d s k v) r t b i s1 k1 buf h1 h2
      rw [poke_other (fun ⟨e1, e2⟩ => n2 (by rw [← e1, ← e2]; exact .send ..))] at this
      exact this
    | reply _ _ t b i s1 k1 buf h1 h2 => exact .reply (st.poke d s k v) r t b i s1 k1 buf h1 h2
    | release _ _ i s1 h1 => exact .release (st.poke d s k v) r i s1 h1

end Asagi
