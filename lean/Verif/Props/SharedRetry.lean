import Verif.Proofs.CacheDistSolo
import Verif.Props.SharedLive
/-
C49, positive part, and C63: block requests between processes, and what the directory says.
-/
namespace Asagi.Props
open Asagi Asagi.Spec
variable {β : Type} {P : DistParams β} {st st' : DistState β}

/-! ### C49 -/

/-- **C49**, the part that holds (with the communication thread): only refused requests can prolong
an execution without new calls. There is a bound on the number of steps that grows by a constant for
each refusal, and the constant depends on the configuration only; when the execution cannot be
continued, all calls have returned. So every call returns unless infinitely many requests are
refused. Missing: the refusals are not bounded (`C49_livelock_violated`). -/
theorem C49_only_refusals_partial (P : DistParams β) (hl : Legal P) (hm : P.mode = .thread) :
    ∃ K, ∀ st, DistReach P st → ∃ N, ∀ n f st', QuietRunF P n f st st' → n ≤ N + f * K ∧
      ((∀ st'', ¬ Quiet P st' st'') → ∀ t, st'.pc (.user t) = .idle) := by
  refine ⟨refusalCost P, fun st h => ?_⟩
  obtain ⟨m, hw⟩ := work_exists hl h
  refine ⟨m, fun n f st' hq => ?_⟩
  obtain ⟨h1, m', -, hle⟩ := quietRunF_le hl hm h hw hq
  refine ⟨by omega, fun hend t => ?_⟩
  by_contra hn
  obtain ⟨st'', hq'⟩ := C18_no_deadlock hl h1 t hn
  exact hend st'' hq'

/-- Every execution without new calls is one with some number of refusals. -/
theorem quietRun_refusals {n : Nat} (hq : QuietRun P n st st') : ∃ f, QuietRunF P n f st st' := by
  induction hq with
  | zero => exact ⟨0, .zero _⟩
  | @succ n s s1 s2 _ hs ih =>
    obtain ⟨f, ih⟩ := ih
    by_cases hr : Refused s1 s2
    · exact ⟨_, .refused ih hs hr⟩
    · exact ⟨_, .served ih hs hr⟩

/-- **C49**, the part that holds: a getter that is not disturbed returns. If thread `t` calls a
getter for a value in block `b` (with the communication thread and real locks), while no other
thread is inside of a getter, no communication thread is at work and no update of the directory of
the block is on the way, then none of its requests is refused, and it returns after a bounded number
of steps, whatever the caches and the directory contain. Missing: accesses with concurrent accesses
(`C49_livelock_violated`) and builds without thread support (`C49_noop_violated`). -/
theorem C49_undisturbed_partial (hl : Legal P) (hm : P.mode = .thread) (hno : P.noop = false)
    (h : DistReach P st) {t b off : Nat} (hp : st.pc (.user t) = .wantCm b off)
    (halone : ∀ u, u ≠ t → st.pc (.user u) = .idle) (hcomm : ∀ r, st.pc (.comm r) = .idle)
    (hmail : ∀ r r' op, (b, op) ∉ st.net r r') :
    ∃ N, ∀ n st', QuietRun P n st st' → n ≤ N ∧ QuietRunF P n 0 st st' ∧
      ((∀ st'', ¬ Quiet P st' st'') → st'.pc (.user t) = .idle) := by
  have hs : Solo P st t b := ⟨fun u hu => .inl (halone u hu), by rw [hp]; exact ⟨rfl, hmail, hcomm⟩⟩
  obtain ⟨m, hw⟩ := work_exists hl h
  refine ⟨m, fun n st' hq => ?_⟩
  obtain ⟨h1, -, -, h3⟩ := hs.run hl hm hno h halone hq
  obtain ⟨-, m', -, hle⟩ := quietRunF_le hl hm h hw h3
  refine ⟨by omega, h3, fun hend => ?_⟩
  by_contra hn
  obtain ⟨st'', hq'⟩ := C18_no_deadlock hl h1 t hn
  exact hend st'' hq'

/-- The hypotheses of `C49_undisturbed_partial`: thread 0 of process 0 has loaded block 4, its
directory entry (stored in process 0) names the slot, and thread 1 of process 1 calls a getter for a
value of this block. -/
example : ∃ st, Legal (exPair false) ∧ DistReach (exPair false) st ∧
    st.pc (.user 1) = .wantCm 4 1 ∧ (∀ u, u ≠ 1 → st.pc (.user u) = .idle) ∧
    (∀ r, st.pc (.comm r) = .idle) ∧ (∀ r r' op, (4, op) ∉ st.net r r') ∧
    st.dir 4 = [0, -1, -1, -1] := by
  obtain ⟨st, hr, hcm, -, hidle, hc⟩ := exPair_state (noop := false)
    ([.call 0 4 0] ++ steps 0 12 ++ [.call 1 4 1])
    (fun st => match st.pc (.user 0), st.pc (.user 1), st.pc (.user 2), st.pc (.user 3) with
      | .idle, .wantCm 4 1, .idle, .idle =>
        decide (st.dir 4 = [0, -1, -1, -1] ∧
          (st.net 0 0).length = 0 ∧ (st.net 0 1).length = 0 ∧
          (st.net 1 0).length = 0 ∧ (st.net 1 1).length = 0)
      | _, _, _, _ => false) (by decide +kernel) (by decide +kernel) (by decide +kernel)
  refine ⟨st, exPair_legal _, hr, ?_⟩
  revert hc
  split
  · next p0 p1 p2 p3 =>
    intro hc
    obtain ⟨d4, n0, n1, n2, n3⟩ := of_decide_eq_true hc
    refine ⟨p1, fun u hu => ?_, hcm, fun r r' op hm => ?_, d4⟩
    · by_cases h4 : 4 ≤ u
      · exact hidle u h4
      · have : u = 0 ∨ u = 2 ∨ u = 3 := by omega
        rcases this with rfl | rfl | rfl
        · exact p0
        · exact p2
        · exact p3
    · rw [exPair_net hr n0 n1 n2 n3] at hm; cases hm
  · intro hc; cases hc

/-! ### C63 -/

/-- The entries of a directory entry that are in use. -/
def Names (dir : List Int) (e : Nat) : Prop := (e : Int) ∈ dir

theorem announced_good (h : DistInv P st) {d s b : Nat} (ha : Announced P st d s b) :
    Holds P st d s b := by
  rcases ha with ⟨hf, ha⟩ | ⟨t, b', off, ph, hp, rfl, hc⟩
  · exact h.good d s b ha (fun ⟨t, b', off, ph, hp, hd, _⟩ => hf t b' off ph hp hd)
  · have hown := (h.own t b' off s ph hp).2.2
    have hnf : fills ph = false → ¬ Filling P st (P.dom t) s := by
      rintro hf ⟨u, b2, off2, ph2, hu, hd, hf2⟩
      have := h.own_unique hu hp hd
      subst this
      rw [hp] at hu
      injection hu with _ _ _ e
      rw [← e, hf] at hf2; cases hf2
    cases ph with
    | del old => exact (h.phase t b' off s _ hp).2 b hc
    | use => cases hc; exact h.good _ _ _ hown (hnf rfl)
    | out v => cases hc; exact h.good _ _ _ hown (hnf rfl)
    | _ => cases hc

/-- **C63**, with the communication thread: in every reachable state, the entries in the directory
for a block are pairwise different, followed by unused ones; and if no update of the directory for
this block is on the way, then every slot that it names contains the complete block. -/
theorem C63_directory_thread (hl : Legal P) (hm : P.mode = .thread) (h : DistReach P st) (b : Nat) :
    (∃ L : List Nat, L.Nodup ∧ L.length ≤ 4 ∧
      st.dir b = L.map Int.ofNat ++ List.replicate (4 - L.length) (-1)) ∧
    ((∀ r r' op, (b, op) ∉ st.net r r') → ∀ e, Names (st.dir b) e →
      P.entrySlot e < P.size ∧ Holds P st (P.entryDom e) (P.entrySlot e) b) := by
  have hT := ThrInv.reach hl hm h
  constructor
  · obtain ⟨L, h1, h2, h3, -⟩ := hT.dir b
    exact ⟨L, h2, h3, h1⟩
  · intro hn e he
    obtain ⟨d, s, hs, rfl, ha⟩ := hT.owner hn he
    obtain ⟨e1, e2⟩ := entry_dom (d := d) hl.domains hs
    rw [e1, e2]
    exact ⟨hs, announced_good (hl.inv h) ha⟩

/-- **C63**, with MPI windows: in every reachable state, the entries in the directory for a block
are pairwise different, followed by unused ones; and while nobody has locked the directory entry,
every slot that it names contains the complete block. -/
theorem C63_directory_window (hl : Legal P) (hm : P.mode = .window) (h : DistReach P st) (b : Nat) :
    (∃ L : List Nat, L.Nodup ∧ L.length ≤ 4 ∧
      st.dir b = L.map Int.ofNat ++ List.replicate (4 - L.length) (-1)) ∧
    (st.dl b = none → ∀ e, Names (st.dir b) e →
      P.entrySlot e < P.size ∧ Holds P st (P.entryDom e) (P.entrySlot e) b) := by
  have hI := hl.inv h
  have hW := hI.win hm
  obtain ⟨L, h1, h2, h3, h4⟩ := hW.dir b
  refine ⟨⟨L, h2, h3, h1⟩, fun hd e he => ?_⟩
  have hL : e ∈ L := by unfold Names at he; rw [h1] at he; exact enc_mem.1 he
  rcases h4 e hL with hsrc | ⟨t, off, s, ph, hp, -, -, hf⟩
  · obtain ⟨d, s, hs, rfl, hg⟩ := hI.src_good hsrc
    obtain ⟨e1, e2⟩ := entry_dom (d := d) hl.domains hs
    rw [e1, e2]
    exact ⟨hs, hg⟩
  · exfalso
    have : st.dl b = some (.user t) := by
      refine (hI.dl b (.user t)).2 ?_
      rw [hp]
      refine ⟨hm, ?_⟩
      cases ph with
      | xfer | copy | load => rfl
      | _ => cases hf
    rw [hd] at this; cases this

/-- A reachable state with the communication thread, whose directory names two slots of two
processes, and no update is on the way. -/
example : ∃ st, Legal (exPair false) ∧ DistReach (exPair false) st ∧
    Names (st.dir 4) 0 ∧ Names (st.dir 6) 3 ∧ (∀ r r' op, (4, op) ∉ st.net r r') := by
  obtain ⟨st, hr, -, -, -, hc⟩ := exPair_state (noop := false)
    ([.call 0 4 0] ++ steps 0 12 ++ [.call 1 7 0] ++ steps 1 12 ++ [.call 1 6 0] ++ steps 1 11 ++
      [.deliver 0 1])
    (fun st => decide (st.dir 4 = [0, -1, -1, -1] ∧ st.dir 6 = [3, -1, -1, -1] ∧
          (st.net 0 0).length = 0 ∧ (st.net 0 1).length = 0 ∧
          (st.net 1 0).length = 0 ∧ (st.net 1 1).length = 0))
    (by decide +kernel) (by decide +kernel) (by decide +kernel)
  obtain ⟨d4, d6, n0, n1, n2, n3⟩ := of_decide_eq_true hc
  refine ⟨st, exPair_legal _, hr, ?_, ?_, fun r r' op hm => ?_⟩
  · rw [d4]; exact .head _
  · rw [d6]; exact .head _
  · rw [exPair_net hr n0 n1 n2 n3] at hm; cases hm

/-- A reachable state with MPI windows, whose directory names slots of two processes for the same
block, and nobody has locked the entry. -/
example : ∃ st, Legal (exShared .window false false) ∧ DistReach (exShared .window false false) st ∧
    st.dl 5 = none ∧ (st.dir 5).length = 4 ∧ Names (st.dir 5) 0 ∧
    ∃ e, e ≠ 0 ∧ (exShared .window false false).entryDom e ≠ 0 ∧ Names (st.dir 5) e := by
  obtain ⟨st, hr, hc⟩ := ex_state (mode := .window) (numa := false) (noop := false)
    ([.call 0 5 0] ++ steps 0 12 ++ [.call 2 5 1] ++ steps 2 12)
    (fun st => decide (st.dl 5 = none ∧ st.dir 5 = [4, 0, -1, -1])) (by decide +kernel)
  obtain ⟨h1, h2⟩ := of_decide_eq_true hc
  refine ⟨st, exShared_legal _ _ _, hr, h1, by rw [h2]; rfl, ?_, 4, by decide, by decide, ?_⟩
  · rw [h2]; exact .tail _ (.head _)
  · rw [h2]; exact .head _

end Asagi.Props
