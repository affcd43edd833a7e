import Verif.Proofs.Starve
/-
Without the communication thread no thread starves: every access returns although other threads
make new calls all the time.
-/
namespace Asagi
open Spec
variable {β : Type} {P : DistParams β} {st st' : DistState β}

/-- The block whose directory lock a thread needs before its next step. -/
def dirNeed : Pc β → Option Nat
  | .own _ _ _ (.del (some o)) => some o
  | .own b _ _ .add => some b
  | .own b _ _ .start => some b
  | _ => none

/-- A thread with a slot can continue, or it waits for the lock of a directory entry. -/
theorem own_can_or (h : DistInv P st) (hm : P.mode ≠ .thread) {t b off s : Nat} {ph : Phase β}
    (hp : st.pc (.user t) = .own b off s ph) :
    (∃ st', UserStep P t st st') ∨ ∃ o, dirNeed (st.pc (.user t)) = some o ∧ st.dl o ≠ none := by
  have key : (∃ st', execOwn P st t 0 b off s ph = some st') ∨
      ∃ o, dirNeed (.own b off s ph) = some o ∧ st.dl o ≠ none := by
    have hph := h.phase t b off s ph hp
    have nth : ∀ {Q : Prop}, P.mode = .thread → Q := fun e => absurd e hm
    cases ph with
    | del old =>
      cases old with
      | none => exact .inl ⟨_, rfl⟩
      | some o =>
        cases hd : st.dl o with
        | some a => exact .inr ⟨o, rfl, by rw [hd]; nofun⟩
        | none =>
          left
          cases hmo : P.mode with
          | none => simp only [execOwn, hmo]; exact ⟨_, rfl⟩
          | window => simp only [execOwn, hmo, hd]; exact ⟨_, rfl⟩
          | thread => exact nth hmo
    | delLocked o => exact .inl ⟨_, rfl⟩
    | numa i =>
      left; simp only [execOwn]; repeat' split
      all_goals exact ⟨_, rfl⟩
    | numaCm i =>
      left; simp only [execOwn]; repeat' split
      all_goals exact ⟨_, rfl⟩
    | numaCopy i s' k => left; simp only [execOwn]; split <;> exact ⟨_, rfl⟩
    | add =>
      cases hd : st.dl b with
      | some a => exact .inr ⟨b, rfl, by rw [hd]; nofun⟩
      | none =>
        left
        cases hmo : P.mode with
        | none => simp only [execOwn, hmo]; exact ⟨_, rfl⟩
        | window => simp only [execOwn, hmo, hd]; exact ⟨_, rfl⟩
        | thread => exact nth hmo
    | addLocked => exact .inl ⟨_, rfl⟩
    | start =>
      cases hd : st.dl b with
      | some a => exact .inr ⟨b, rfl, by rw [hd]; nofun⟩
      | none =>
        left
        cases hmo : P.mode with
        | none => simp only [execOwn, hmo]; exact ⟨_, rfl⟩
        | window => simp only [execOwn, hmo, hd]; exact ⟨_, rfl⟩
        | thread => exact nth hmo
    | xfer e =>
      left
      cases e with
      | negSucc n => exact ⟨_, rfl⟩
      | ofNat e =>
        cases hmo : P.mode with
        | none => exact absurd (hph.2 hmo) (by simp)
        | window => simp only [execOwn, hmo]; exact ⟨_, rfl⟩
        | thread => exact nth hmo
    | copy e k => left; simp only [execOwn]; split <;> exact ⟨_, rfl⟩
    | ask r => exact nth hph
    | recv buf k => left; simp only [execOwn]; split <;> exact ⟨_, rfl⟩
    | load k => left; simp only [execOwn]; split <;> exact ⟨_, rfl⟩
    | fin =>
      left
      cases hmo : P.mode <;> simp only [execOwn, hmo] <;> exact ⟨_, rfl⟩
    | use => exact .inl ⟨_, rfl⟩
    | out v => exact .inl ⟨_, rfl⟩
  rcases key with ⟨st', hx⟩ | hx
  · exact .inl ⟨st', execOwn_sound hp hx⟩
  · exact .inr (by rw [hp]; exact hx)

/-- The locks of the caches, of the MPI library and of the directory. -/
inductive CacheLock where
  | cm (d : Nat)
  | lk (k : Nat × Nat)
  | mp (r : Nat)
  | dl (b : Nat)

/-- The order in which threads take them: the mutex of the cache first. -/
def CacheLock.rank : CacheLock → Nat
  | .cm _ => 3
  | .lk _ => 2
  | .mp _ => 1
  | .dl _ => 0

/-- The lock that a thread needs for its next step. -/
def lockNeed (P : DistParams β) : Agent → Pc β → Option CacheLock
  | .user t, .wantCm _ _ => some (.cm (P.dom t))
  | .user t, .wantSlot _ _ s _ => some (.lk (P.dom t, s))
  | .user _, p => (dirNeed p).map .dl
  | .comm _, _ => none

theorem dirNeed_dl {b off s : Nat} {ph : Phase β} {k : Nat} (h : dlPhase b ph = some k) :
    dirNeed (.own b off s ph) = none := by
  cases ph with
  | del old => cases old <;> cases h
  | add | start => cases h
  | _ => rfl

theorem course_reach {σ : Nat → DistState β} (h0 : DistReach P (σ 0)) (hc : Course P σ) (n : Nat) :
    DistReach P (σ n) := by
  induction n with
  | zero => exact h0
  | succ n ih =>
    rcases hc n with h | h
    · exact .step ih h
    · rw [h]; exact ih

/-- The caches without the communication thread, in an execution with fair locks. -/
def distLocks (hl : Legal P) (hm : P.mode ≠ .thread) {σ : Nat → DistState β}
    (h0 : DistReach P (σ 0)) (hc : Course P σ) (hf : FairLocks P σ) :
    LockSys (L := CacheLock) σ (fun st a => st.pc a) (StepOf P) (· = .idle) :=
  have hr := course_reach h0 hc
  have hI := fun n => DistInv.reach hl.domains hl.size hl.hand (hr n)
  have hi := fun n r => comm_idle hl hm (hr n) r
  have hno := fun n r s' (h : CommStep P r (σ n) s') => no_comm_idle (hI n) hm (hi n r) h
  { step := fun n => (hc n).imp (fun h => by
      cases h with
      | user u hu => exact ⟨.user u, hu⟩
      | comm r hr => exact ⟨.comm r, hr⟩) (fun e a => by rw [e])
    fair := fun a n => by
      cases a with
      | user t => exact hf t n
      | comm r => exact ⟨n, Nat.le_refl _, .inl (hi n r)⟩
    other := fun n a h b hb => by
      cases a with
      | user u => exact user_other h hb
      | comm r => exact comm_other h hb
    left := stepsLeft P
    dec := fun n a h hn => by
      cases a with
      | user u => exact stepsLeft_lt (hI n) hm h hn
      | comm r => exact absurd h (hno n r _)
    own := fun st l => match l with
      | .cm d => st.cm d
      | .lk k => st.lk k
      | .dl b => st.dl b
      | .mp _ => none
    Of := fun a p l => match l with
      | .cm d => CmOf P a p d
      | .lk k => LkOf P a p k
      | .dl b => DlOf P a p b
      | .mp _ => False
    hown := fun n l a => by
      cases l with
      | cm d => exact (hI n).cm d a
      | lk k => exact (hI n).lk k a
      | dl b => exact (hI n).dl b a
      | mp r => exact ⟨nofun, False.elim⟩
    busy := fun a p l h e => by subst e; cases a <;> cases l <;> exact h
    need := lockNeed P
    can := fun n a hn => by
      cases a with
      | comm r => exact absurd (hi n r) hn
      | user t =>
        obtain ⟨k1, k2, k3, k4⟩ := (hI n).kind t
        cases hp : (σ n).pc (.user t) with
        | idle => exact absurd hp hn
        | wantCm b off =>
          by_cases hk : (σ n).cm (P.dom t) = none
          · obtain ⟨h0, inv, -⟩ := (hI n).lists (P.dom t)
            obtain ⟨c', s, old, hg, -⟩ := inv.get b
            exact .inl ⟨_, .lookup (σ n) t b off s c' old hp hk hg⟩
          · exact .inr ⟨_, rfl, hk⟩
        | wantSlot b off s old =>
          by_cases hk : (σ n).lk (P.dom t, s) = none
          · exact .inl ⟨_, .lockSlot (σ n) t b off s old hp hk⟩
          · exact .inr ⟨_, rfl, hk⟩
        | own b off s ph =>
          rcases own_can_or (hI n) hm hp with h1 | ⟨o, h1, h2⟩
          · exact .inl h1
          · rw [hp] at h1
            exact .inr ⟨.dl o, by rw [lockNeed, h1]; rfl; all_goals nofun, h2⟩
        | tryDom u b i => exact absurd hp (k1 _ _ _)
        | tryCm u b i => exact absurd hp (k2 _ _ _)
        | send u b i s k buf => exact absurd hp (k3 _ _ _ _ _ _)
        | sent i s => exact absurd hp (k4 _ _)
    rank := CacheLock.rank
    order := fun n a l l' ho hn => by
      revert ho hn
      show _ → lockNeed P a ((σ n).pc a) = some l' → _
      generalize (σ n).pc a = p
      intro ho hn
      cases a with
      | comm r => cases hn
      | user t =>
        cases p with
        | wantCm b off => cases l <;> exact ho.elim
        | wantSlot b off s old =>
          injection hn with hn
          subst hn
          cases l with
          | cm d => exact (by decide : 2 < 3)
          | _ => exact ho.elim
        | own b off s ph =>
          have hn : (dirNeed (.own b off s ph)).map CacheLock.dl = some l' := hn
          cases l with
          | cm d =>
            cases ph with
            | numaCm i => cases hn
            | _ => exact ho.elim
          | lk k =>
            obtain ⟨o, -, rfl⟩ := Option.map_eq_some_iff.1 hn
            exact (by decide : 0 < 2)
          | mp r => exact ho.elim
          | dl b =>
            rw [dirNeed_dl ho.2] at hn
            cases hn
        | _ => cases hn }

/-! ### Such executions exist -/

/-- From every reachable state there is an execution with fair locks in which thread `t` calls
getters again and again. -/
theorem fairLocks_exists (hl : Legal P) (hm : P.mode ≠ .thread) (h : DistReach P st) {t b off : Nat}
    (hv : P.valid b off) : ∃ σ, σ 0 = st ∧ Course P σ ∧ FairLocks P σ ∧
      ∀ n, ∃ m, n ≤ m ∧ (σ m).pc (.user t) = .idle ∧ (σ (m + 1)).pc (.user t) = .wantCm b off := by
  have hidle : ∀ {s}, DistReach P s → (∀ s', ¬ Quiet P s s') → ∀ u, s.pc (.user u) = .idle := by
    intro s hr hq u
    by_contra hn
    obtain ⟨st', h'⟩ := (DistInv.reach hl.domains hl.size hl.hand hr).progress hn
    exact hq st' h'
  refine fairCourse_exists (reach := DistReach P) (quiet := Quiet P)
    (Q := fun s s' => s.pc (.user t) = .idle ∧ s'.pc (.user t) = .wantCm b off) _ _
    (fun h hs => .step h hs) (fun h => h.1) (fun τ h0 hq => ?_) hidle (fun {s} hr hq => ?_) h
  · obtain ⟨L, hL⟩ := busy_finite h0
    have hrun : ∀ j, QuietRun P j (τ 0) (τ j) := by
      intro j
      induction j with
      | zero => exact .zero _
      | succ j ih => exact .succ ih (hq j)
    have := (quietRun_le hl hm h0 hL (hrun (totalLeft P L (τ 0) + 1))).2.2
    omega
  · have hi := hidle hr hq t
    exact ⟨_, .user t (.call s t b off hi hv), hi, upd_self _ _ _⟩

end Asagi
