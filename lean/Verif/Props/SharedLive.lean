import Verif.Proofs.CacheDistLive
import Verif.Proofs.CacheDistFrozen
import Verif.Props.SharedCache
/-
C18 and C49: accesses to shared caches make progress.
-/
namespace Asagi.Props
open Asagi Asagi.Spec
variable {β : Type} {P : DistParams β} {st st' : DistState β}

/-- **C18.** In every reachable state (any number of threads, domains and processes, every kind of
communication): if some thread is inside of a getter, then some thread that is inside of a getter,
or a communication thread, can perform its next step. There is no deadlock. -/
theorem C18_no_deadlock (hl : Legal P) (h : DistReach P st) (t : Nat)
    (hn : st.pc (.user t) ≠ .idle) : ∃ st', Quiet P st st' :=
  (hl.inv h).progress hn

/-- **C18**, stronger without the communication thread (one process, NUMA, MPI windows): from every
reachable state, every execution without new calls has at most `N` steps, and when it cannot be
continued, all calls have returned. So every call returns in every fair schedule, if not infinitely
many new calls are made. -/
theorem C18_every_access_returns (hl : Legal P) (hm : P.mode ≠ .thread) (h : DistReach P st) :
    ∃ N, ∀ n st', QuietRun P n st st' → n ≤ N ∧
      ((∀ st'', ¬ Quiet P st' st'') → ∀ t, st'.pc (.user t) = .idle) := by
  obtain ⟨L, hL⟩ := busy_finite h
  refine ⟨totalLeft P L st, fun n st' hq => ?_⟩
  obtain ⟨h1, h2, h3⟩ := quietRun_le hl hm h hL hq
  refine ⟨by omega, fun hend t => ?_⟩
  by_contra hn
  obtain ⟨st'', hq'⟩ := C18_no_deadlock hl h1 t hn
  exact hend st'' hq'

/-- A state with a chain of waiting threads (window mode): thread 2 copies block 5 from process 0
and has the lock of the directory entry; thread 0 has evicted the block and waits for this lock, with
its slot locked; thread 4 waits for the slot, with the mutex of the cache; thread 8 waits for the
mutex. -/
example : ∃ st, DistReach (exShared .window false false) st ∧
    st.pc (.user 2) = .own 5 1 0 (.copy 0 1) ∧ st.pc (.user 0) = .own 7 0 0 (.del (some 5)) ∧
    st.dl 5 = some (.user 2) ∧ st.pc (.user 4) = .wantSlot 7 0 0 (some 7) ∧
    st.lk (0, 0) = some (.user 0) ∧ st.pc (.user 8) = .wantCm 7 0 ∧ st.cm 0 = some (.user 4) := by
  obtain ⟨st, hr, hc⟩ := ex_state (mode := .window) (numa := false) (noop := false)
    ([.call 0 5 0] ++ steps 0 12 ++ [.call 0 6 0] ++ steps 0 12 ++ [.call 2 5 1] ++ steps 2 7 ++
      [.call 0 7 0] ++ steps 0 2 ++ [.call 4 7 0] ++ steps 4 1 ++ [.call 8 7 0])
    (fun st => match st.pc (.user 2), st.pc (.user 0), st.pc (.user 4), st.pc (.user 8) with
      | .own 5 1 0 (.copy 0 1), .own 7 0 0 (.del (some 5)), .wantSlot 7 0 0 (some 7), .wantCm 7 0 =>
        decide (st.dl 5 = some (.user 2) ∧ st.lk (0, 0) = some (.user 0) ∧ st.cm 0 = some (.user 4))
      | _, _, _, _ => false) (by decide +kernel)
  refine ⟨st, hr, ?_⟩
  revert hc
  split
  · next h1 h2 h3 h4 =>
    intro hc
    have := of_decide_eq_true hc
    exact ⟨h1, h2, this.1, h3, this.2.1, h4, this.2.2⟩
  · intro hc; cases hc

/-! ### C49 -/

/-- Two processes with one domain each, two slots, blocks with two values, communication thread;
even threads belong to process 0, odd threads to process 1; the directory entries of even blocks are
stored in process 0, those of odd blocks in process 1. -/
def exPair (noop : Bool) : DistParams Nat :=
  { domains := 1, size := 2, handDiff := -1, cells := 2, file := fun b k => 10 * b + k,
    inside := fun _ _ => True, zero := 0, dom := fun t => t % 2, home := fun b => b % 2,
    mode := .thread, numa := fun _ _ => false, noop }

theorem exPair_legal (noop : Bool) : Legal (exPair noop) :=
  ⟨by show 0 < 1; decide, by show 0 < 2; decide, by show (-1 : Int) < (2 : Nat); decide⟩

theorem exPair_net {st : DistState Nat} {noop : Bool} (h : DistReach (exPair noop) st)
    (h0 : (st.net 0 0).length = 0) (h1 : (st.net 0 1).length = 0)
    (h2 : (st.net 1 0).length = 0) (h3 : (st.net 1 1).length = 0) (r r' : Nat) : st.net r r' = [] := by
  by_contra hne
  obtain ⟨⟨t, ht⟩, ⟨b, hb⟩⟩ := net_support h r r' hne
  have hr1 : r < 2 := by
    have : (exPair noop).rankOf ((exPair noop).dom t) = t % 2 / 1 := rfl
    omega
  have hr2 : r' < 2 := by
    have : (exPair noop).home b = b % 2 := rfl
    omega
  have h4 : r = 0 ∨ r = 1 := by omega
  have h5 : r' = 0 ∨ r' = 1 := by omega
  rcases h4 with rfl | rfl <;> rcases h5 with rfl | rfl
  · exact hne (List.eq_nil_of_length_eq_zero h0)
  · exact hne (List.eq_nil_of_length_eq_zero h1)
  · exact hne (List.eq_nil_of_length_eq_zero h2)
  · exact hne (List.eq_nil_of_length_eq_zero h3)

/-- A state that a schedule without requests reaches. -/
theorem exPair_state {noop : Bool} (cmds : List DistCmd) (chk : DistState Nat → Bool)
    (ha : ∀ c ∈ cmds, c.isAccept = false) (hc : ∀ c ∈ cmds, ∀ t, c.callOf = some t → t < 4)
    (h : (distRun (exPair noop) cmds).any chk = true) :
    ∃ st, DistReach (exPair noop) st ∧ (∀ r, st.pc (.comm r) = .idle) ∧ (∀ t, st.box t = none) ∧
      (∀ t, 4 ≤ t → st.pc (.user t) = .idle) ∧ chk st = true := by
  cases hr : distRun (exPair noop) cmds with
  | none => rw [hr] at h; cases h
  | some st =>
    rw [hr] at h
    refine ⟨st, distRun_reach (fun _ _ => trivial) hr, ?_⟩
    simp only [distRun, Option.bind_eq_some_iff] at hr
    obtain ⟨c, -, hr⟩ := hr
    obtain ⟨h1, h2⟩ := distExec_no_accept ha hr (fun _ => rfl) (fun _ => rfl)
    refine ⟨h1, h2, fun t ht => distExec_uncalled ?_ hr rfl, h⟩
    intro c hm e
    have := hc c hm t e
    omega

theorem fetch_one {e : Nat} (rnd : Nat) : dictFetch [(e : Int), -1, -1, -1] rnd = e := by
  have : ¬ ((e : Int) < 0) := by omega
  simp [dictFetch, dictCount, this, Nat.mod_one]

/-- **C49 does not hold**: two processes can wait for each other forever. Thread 0 of process 0 needs
block 5, which process 1 has, and thread 1 of process 1 needs block 4, which process 0 has. Thread
2 of process 0 also needs block 5: it waits for the slot that thread 0 fills, and keeps the mutex of
the cache. So does thread 3 of process 1. Both communication threads find the mutex locked, and all
requests fail, forever. In every execution without new calls, thread 0 never returns, although the
directory always names an owner that holds the complete block, in a slot that is not locked. -/
theorem C49_livelock_violated : ∃ (P : DistParams Nat) (st : DistState Nat), Legal P ∧
    P.mode = .thread ∧ P.noop = false ∧ DistReach P st ∧
    ∃ t b off s e, st.pc (.user t) = .own b off s .start ∧
      ∀ n st', QuietRun P n st st' → st'.pc (.user t) ≠ .idle ∧ st'.dir b = [((e : Nat) : Int), -1, -1, -1] ∧
        Holds P st' (P.entryDom e) (P.entrySlot e) b ∧ st'.lk (P.entryDom e, P.entrySlot e) = none := by
  obtain ⟨st, hr, hcm, hbox, hidle, hc⟩ := exPair_state (noop := false)
    ([.call 0 4 0] ++ steps 0 12 ++ [.call 1 5 0] ++ steps 1 12 ++
      [.call 0 5 0] ++ steps 0 4 ++ [.call 2 5 1] ++ steps 2 1 ++
      [.call 1 4 0] ++ steps 1 4 ++ [.call 3 4 1] ++ steps 3 1)
    (fun st => match st.pc (.user 0), st.pc (.user 1), st.pc (.user 2), st.pc (.user 3) with
      | .own 5 0 1 .start, .own 4 0 1 .start, .wantSlot 5 1 1 (some 5), .wantSlot 4 1 1 (some 4) =>
        decide (st.lk (0, 1) ≠ none ∧ st.lk (1, 1) ≠ none ∧ st.cm 0 ≠ none ∧ st.cm 1 ≠ none ∧
          st.dir 4 = [0, -1, -1, -1] ∧ st.dir 5 = [2, -1, -1, -1] ∧
          (st.net 0 0).length = 0 ∧ (st.net 0 1).length = 0 ∧
          (st.net 1 0).length = 0 ∧ (st.net 1 1).length = 0 ∧
          st.data 1 0 0 = 50 ∧ st.data 1 0 1 = 51 ∧ st.lk (1, 0) = none)
      | _, _, _, _ => false) (by decide +kernel) (by decide +kernel) (by decide +kernel)
  refine ⟨exPair false, st, exPair_legal _, rfl, rfl, hr, 0, 5, 0, 1, 2, ?_⟩
  revert hc
  split
  · next p0 p1 p2 p3 =>
    intro hc
    obtain ⟨l0, l1, c0, c1, d4, d5, n0, n1, n2, n3, v0, v1, l2⟩ := of_decide_eq_true hc
    have hf : Frozen (exPair false) st := by
      refine ⟨rfl, fun t => ?_, fun r => .inl (hcm r), fun t => .inl (hbox t),
        exPair_net hr n0 n1 n2 n3⟩
      by_cases ht : 4 ≤ t
      · exact .inl (hidle t ht)
      · have : t = 0 ∨ t = 1 ∨ t = 2 ∨ t = 3 := by omega
        rcases this with rfl | rfl | rfl | rfl
        · refine .inr (.inr ⟨_, _, _, _, p0, .inl rfl, ?_, ?_⟩)
          · intro e he i hi
            have hi : i < 1 := hi
            rw [d5] at he
            have : e = 2 := by simp at he; omega
            subst this
            have : i = 0 := by omega
            subst this
            exact .inr c1
          · intro rnd; exact ⟨2, by rw [d5]; exact .head _, by rw [d5]; exact fetch_one rnd⟩
        · refine .inr (.inr ⟨_, _, _, _, p1, .inl rfl, ?_, ?_⟩)
          · intro e he i hi
            have hi : i < 1 := hi
            rw [d4] at he
            have : e = 0 := by simp at he; omega
            subst this
            have : i = 0 := by omega
            subst this
            exact .inr c0
          · intro rnd; exact ⟨0, by rw [d4]; exact .head _, by rw [d4]; exact fetch_one rnd⟩
        · exact .inr (.inl ⟨_, _, _, _, p2, l0⟩)
        · exact .inr (.inl ⟨_, _, _, _, p3, l1⟩)
    refine ⟨p0, fun n st' hq => ?_⟩
    obtain ⟨-, hp, e1, e2, e3⟩ := hf.run hq
    refine ⟨hp 0 (by rw [p0]; nofun), by rw [e2]; exact d5, ?_, by rw [e1]; exact l2⟩
    intro k hk
    rw [e3]
    have hk : k < 2 := hk.1
    have : k = 0 ∨ k = 1 := by omega
    rcases this with rfl | rfl
    · exact v0
    · exact v1
  · intro hc; cases hc

/-- **C49 does not hold** in builds without thread support: thread 0 of process 0 has loaded block
4 and does nothing any more, the block stays in its cache and no lock is taken there. Thread 1 of
process 1 requests the block and never gets it. -/
theorem C49_noop_violated : ∃ (P : DistParams Nat) (st : DistState Nat), Legal P ∧
    P.mode = .thread ∧ P.noop = true ∧ DistReach P st ∧ (∀ t, t ≠ 1 → st.pc (.user t) = .idle) ∧
    ∃ b off s e, st.pc (.user 1) = .own b off s .start ∧
      ∀ n st', QuietRun P n st st' → st'.pc (.user 1) ≠ .idle ∧ st'.dir b = [((e : Nat) : Int), -1, -1, -1] ∧
        Holds P st' (P.entryDom e) (P.entrySlot e) b ∧ st'.lk (P.entryDom e, P.entrySlot e) = none := by
  obtain ⟨st, hr, hcm, hbox, hidle, hc⟩ := exPair_state (noop := true)
    ([.call 0 4 0] ++ steps 0 12 ++ [.call 1 4 0] ++ steps 1 4)
    (fun st => match st.pc (.user 0), st.pc (.user 1), st.pc (.user 2), st.pc (.user 3) with
      | .idle, .own 4 0 0 .start, .idle, .idle =>
        decide (st.dir 4 = [0, -1, -1, -1] ∧
          (st.net 0 0).length = 0 ∧ (st.net 0 1).length = 0 ∧
          (st.net 1 0).length = 0 ∧ (st.net 1 1).length = 0 ∧
          st.data 0 0 0 = 40 ∧ st.data 0 0 1 = 41 ∧ st.lk (0, 0) = none)
      | _, _, _, _ => false) (by decide +kernel) (by decide +kernel) (by decide +kernel)
  refine ⟨exPair true, st, exPair_legal _, rfl, rfl, hr, ?_⟩
  revert hc
  split
  · next p0 p1 p2 p3 =>
    intro hc
    obtain ⟨d4, n0, n1, n2, n3, v0, v1, l2⟩ := of_decide_eq_true hc
    have hi : ∀ t, t ≠ 1 → st.pc (.user t) = .idle := by
      intro t ht
      by_cases h4 : 4 ≤ t
      · exact hidle t h4
      · have : t = 0 ∨ t = 2 ∨ t = 3 := by omega
        rcases this with rfl | rfl | rfl
        · exact p0
        · exact p2
        · exact p3
    have hf : Frozen (exPair true) st := by
      refine ⟨rfl, fun t => ?_, fun r => .inl (hcm r), fun t => .inl (hbox t),
        exPair_net hr n0 n1 n2 n3⟩
      by_cases ht : t = 1
      · subst ht
        refine .inr (.inr ⟨_, _, _, _, p1, .inl rfl, fun _ _ _ _ => .inl rfl, ?_⟩)
        intro rnd; exact ⟨0, by rw [d4]; exact .head _, by rw [d4]; exact fetch_one rnd⟩
      · exact .inl (hi t ht)
    refine ⟨hi, 4, 0, 0, 0, p1, fun n st' hq => ?_⟩
    obtain ⟨-, hp, e1, e2, e3⟩ := hf.run hq
    refine ⟨hp 1 (by rw [p1]; nofun), by rw [e2]; exact d4, ?_, by rw [e1]; exact l2⟩
    intro k hk
    rw [e3]
    have hk : k < 2 := hk.1
    have : k = 0 ∨ k = 1 := by omega
    rcases this with rfl | rfl
    · exact v0
    · exact v1
  · intro hc; cases hc

end Asagi.Props
