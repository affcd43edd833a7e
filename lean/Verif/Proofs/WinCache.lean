import Verif.Model.WinCache
import Verif.Proofs.CacheDistLib
import Verif.Proofs.MpiMutex
/-
The shared caches with the implemented directory lock refine the shared caches with an atomic lock.
-/
namespace Asagi
open Spec
variable {β : Type} {C : WinParams β} {ws ws' : WinState β} {st st' : DistState β}
  {P : DistParams β}

/-- The lock of an entry that belongs to a position. -/
def Pc.entryOf : Pc β → Option Nat
  | .own b _ _ ph => dlPhase b ph
  | _ => none

/-- The positions in the lock and in the cache fit. -/
def WinMatch : MtxPc → Pc β → Prop
  | .idle, p => p.entryOf = none
  | .wantProc l, p | .wantWin l, p | .swap l, p | .swapped l _, p | .sending l _ _, p | .reProc l, p
  | .reWin l, p | .update l, p => p.wantsEntry = some l
  | .held l, p => p.entryOf = some l
  | .relProc l, p | .relWin l, p | .cas l, p | .recv l, p | .released l, p =>
    p.entryOf = some l ∧ p.leavesLib = true

structure WinLink (C : WinParams β) (ws : WinState β) : Prop where
  link : ∀ t, WinMatch (ws.mtx.pc (C.thr t)) (ws.st.pc (.user t))
  busy : ∀ T, ws.mtx.pc T ≠ .idle → ∃ t, T = C.thr t
  live : ∀ t, ws.st.pc (.user t) ≠ .idle → C.tid t < C.total
  buf : ∀ t l, ws.mtx.pc (C.thr t) = .swap l ∨ ws.mtx.pc (C.thr t) = .update l →
    ws.buf t = ws.st.dir l

/-- Different threads have different numbers. -/
def WinParams.Distinct (C : WinParams β) : Prop :=
  ∀ t u, C.tid t < C.total → C.thr t = C.thr u → t = u

theorem wants_entry {p : Pc β} {l : Nat} (h : p.wantsEntry = some l) : p.entryOf = none := by
  unfold Pc.wantsEntry at h
  split at h <;> first | rfl | cases h

theorem wants_idle {p : Pc β} {l : Nat} (h : p.wantsEntry = some l) : p ≠ .idle := by
  rintro rfl; cases h

theorem entry_idle {p : Pc β} {l : Nat} (h : p.entryOf = some l) : p ≠ .idle := by
  rintro rfl; cases h

theorem wants_leaves {p : Pc β} {l : Nat} (h : p.wantsEntry = some l) : p.leavesLib = false := by
  unfold Pc.wantsEntry at h
  split at h <;> first | rfl | cases h

theorem leaves_entry {p : Pc β} (h : p.leavesLib = true) : ∃ l, p.entryOf = some l := by
  unfold Pc.leavesLib at h
  split at h <;> first | exact ⟨_, rfl⟩ | cases h

theorem entry_inLib {p : Pc β} {l : Nat} (h : p.entryOf = some l) : p.inLib = true := by
  cases p with
  | own b off s ph => cases ph <;> first | rfl | cases h
  | _ => cases h

/-- The lock and the directory after a step, with MPI windows. -/
theorem plain_step (hm : P.mode = .window) (h : DistInv P st) {t : Nat} (hs : UserStep P t st st')
    (hw : (st.pc (.user t)).wantsEntry = none) :
    st'.dir = st.dir ∧
    ((st.pc (.user t)).leavesLib = false → (st'.pc (.user t)).entryOf = (st.pc (.user t)).entryOf) ∧
    ((st.pc (.user t)).leavesLib = true → (st'.pc (.user t)).entryOf = none) := by
  cases hs with
  | delThread _ _ b off s o hp h1 => rw [hm] at h1; cases h1
  | addThread _ _ b off s hp h1 => rw [hm] at h1; cases h1
  | finThread _ _ b off s hp h1 => rw [hm] at h1; cases h1
  | startThread _ _ b off s rnd hp h1 => rw [hm] at h1; cases h1
  | xferThread _ _ b off s e hp h1 => rw [hm] at h1; cases h1
  | startNone _ _ b off s hp h1 => rw [hm] at h1; cases h1
  | addNone _ _ b off s hp h1 => rw [hm] at h1; cases h1
  | finNone _ _ b off s hp h1 => rw [hm] at h1; cases h1
  | askFail _ _ b off s r hp =>
    have := h.phase t b off s _ hp
    rw [PhInv, hm] at this; cases this
  | askDone _ _ b off s r buf hp =>
    have := h.phase t b off s _ hp
    rw [PhInv, hm] at this; cases this
  | recvCell _ _ b1 off1 s k buf hp =>
    have := (h.phase t b1 off1 s _ hp).1
    rw [hm] at this; cases this
  | recvDone _ _ b1 off1 s k buf hp =>
    have := (h.phase t b1 off1 s _ hp).1
    rw [hm] at this; cases this
  | lockSlot _ _ b off s old hp =>
    rw [hp]; simp only [upd_self]
    split <;> simp [Pc.leavesLib, Pc.entryOf, dlPhase]
  | delWin _ _ b1 off1 s o hp => rw [hp] at hw; cases hw
  | addWin _ _ b1 off1 s hp => rw [hp] at hw; cases hw
  | startWin _ _ b1 off1 s rnd hp => rw [hp] at hw; cases hw
  | delSkip _ _ b1 off1 s o hp
  | call _ _ b1 off1 hp | lookup _ _ b1 off1 s c' old hp | unlock _ _ b1 off1 s v hp
  | delWinEnd _ _ b1 off1 s o hp
  | numaEnd _ _ b1 off1 s o hp | numaOwn _ _ b1 off1 s o hp | numaBusy _ _ b1 off1 s o hp
  | numaTry _ _ b1 off1 s o hp | numaMiss _ _ b1 off1 s o hp | numaHit _ _ b1 off1 s o o2 hp
  | numaCell _ _ b1 off1 s o o2 o3 hp | numaDone _ _ b1 off1 s o o2 o3 hp
  | addWinEnd _ _ b1 off1 s hp
  | xferNone _ _ b1 off1 s e hp | xferWin _ _ b1 off1 s e hp | copyCell _ _ b1 off1 s e k hp
  | copyDone _ _ b1 off1 s e k hp | loadCell _ _ b1 off1 s k v hp | loadDone _ _ b1 off1 s k hp
  | finWin _ _ b1 off1 s hp | convert _ _ b1 off1 s hp =>
    rw [hp]; simp [DistState.goto, upd_self, Pc.leavesLib, Pc.entryOf, dlPhase]

/-- A step that moves a thread out of one of the states `idle`, `update`, `held`, `released` moves no
other thread. -/
theorem mtx_single {M : MtxParams} {m m' : MtxState} (hs : MtxStep M false m m') {T : Thr}
    (hT : (m.pc T).inside = false) (hne : m'.pc T ≠ m.pc T) : ∀ U, U ≠ T → m'.pc U = m.pc U := by
  intro U hU
  cases hs with
  | init l hm => rfl
  | handOver t u l l' dest tag ht hu =>
    exfalso
    apply hne
    have h1 : T ≠ t := by rintro rfl; rw [ht] at hT; cases hT
    have h2 : T ≠ u := by rintro rfl; rw [hu] at hT; cases hT
    show upd (upd m.pc t _) u _ T = _
    rw [upd_ne _ _ h2, upd_ne _ _ h1]
  | call t | proc t | win t | acquire t | enqueue t | wait t | reProc t | reWin t | hold t | delete t
  | endCall t | relProc t | relWin t | free t | contended t | leave t =>
    have h1 : T = t := by
      by_contra h1
      exact hne (upd_ne _ _ h1)
    subst h1
    exact upd_ne _ _ hU

/-- The steps of the lock without calls of other functions keep the lock that a thread asks for. -/
theorem inside_match {M : MtxParams} {m m' : MtxState} (hs : MtxStep M false m m') {T : Thr}
    (hT : (m.pc T).inside = true) {p : Pc β} (h : WinMatch (m.pc T) p) : WinMatch (m'.pc T) p := by
  cases hs with
  | init l hm => exact h
  | handOver t u l l' dest tag ht hu =>
    show WinMatch (upd (upd m.pc t _) u _ T) p
    by_cases hTu : T = u
    · subst hTu; rw [upd_self]; rw [hu] at h; split <;> exact h
    · rw [upd_ne _ _ hTu]
      by_cases hTt : T = t
      · subst hTt; rw [upd_self]; rw [ht] at h; exact h
      · rw [upd_ne _ _ hTt]; exact h
  | call t l _ hp =>
    show WinMatch (upd m.pc t _ T) p
    by_cases hTt : T = t
    · subst hTt; rw [hp] at hT; cases hT
    · rw [upd_ne _ _ hTt]; exact h
  | hold t l hp | delete t l hp | endCall t l hp | leave t l hp =>
    show WinMatch (upd m.pc t _ T) p
    by_cases hTt : T = t
    · subst hTt; rw [hp] at hT; cases hT
    · rw [upd_ne _ _ hTt]; exact h
  | proc t l hp | win t l hp | acquire t l hp | enqueue t l hp | wait t l _ hp | reProc t l hp
  | reWin t l hp | relProc t l hp | relWin t l hp | free t l hp | contended t l hp =>
    show WinMatch (upd m.pc t _ T) p
    by_cases hTt : T = t
    · subst hTt; rw [upd_self]; rw [hp] at h; exact h
    · rw [upd_ne _ _ hTt]; exact h

/-- A step of the lock never comes back to the beginning, except at the end of a call. -/
theorem inside_not_idle {M : MtxParams} {m m' : MtxState} (hs : MtxStep M false m m') {T : Thr}
    (hT : (m.pc T).inside = true) : m'.pc T ≠ .idle := by
  cases hs with
  | init l hm => intro e; rw [show m.pc T = .idle from e] at hT; cases hT
  | handOver t u l l' dest tag ht hu =>
    show upd (upd m.pc t _) u _ T ≠ _
    by_cases hTu : T = u
    · subst hTu; rw [upd_self]; split <;> nofun
    · rw [upd_ne _ _ hTu]
      by_cases hTt : T = t
      · subst hTt; rw [upd_self]; nofun
      · rw [upd_ne _ _ hTt]; intro e; rw [e] at hT; cases hT
  | call t l _ hp | proc t l hp | win t l hp | acquire t l hp | enqueue t l hp | wait t l _ hp | reProc t l hp
  | reWin t l hp | relProc t l hp | relWin t l hp | free t l hp | contended t l hp
  | hold t l hp | delete t l hp | endCall t l hp | leave t l hp =>
    show upd m.pc t _ T ≠ _
    by_cases hTt : T = t
    · subst hTt
      rw [upd_self]
      first | (rw [hp] at hT; cases hT; done) | nofun
    · rw [upd_ne _ _ hTt]; intro e; rw [e] at hT; cases hT

/-- A thread that has the window and looks at the entry got the window in this step or had it. -/
theorem fetch_buf (hL : WinLink C ws) {m' : MtxState} (hs : MtxStep C.M false ws.mtx m')
    (hin : ∀ u, m'.pc u ≠ ws.mtx.pc u → (ws.mtx.pc u).inside = true) (t l : Nat)
    (h : m'.pc (C.thr t) = .swap l ∨ m'.pc (C.thr t) = .update l) :
    C.fetch ws m' t = ws.st.dir l := by
  generalize hT : C.thr t = T at h
  have hbuf := hL.buf t
  rw [hT] at hbuf
  unfold WinParams.fetch
  rw [hT]
  by_cases hne : m'.pc T = ws.mtx.pc T
  · rw [hne] at h ⊢
    have := hbuf l h
    rcases h with h | h <;> rw [h] <;> exact this
  have hi := hin T hne
  clear hin
  revert h hbuf
  generalize ws.buf t = B
  generalize ws.st.dir = D
  intro h hbuf
  cases hs with
  | init l hm => exact absurd rfl hne
  | handOver t u l l' dest tag ht hu =>
    exfalso
    dsimp only at h hne
    revert h hne
    by_cases hTu : T = u
    · subst hTu; rw [upd_self]; split <;> rintro _ (e | e) <;> cases e
    · rw [upd_ne _ _ hTu]
      by_cases hTt : T = t
      · subst hTt; rw [upd_self]; rintro _ (e | e) <;> cases e
      · rw [upd_ne _ _ hTt]; intro h _; exact h rfl
  | call t l _ hp | proc t l hp | win t l hp | acquire t l hp | enqueue t l hp | wait t l _ hp | reProc t l hp
  | reWin t l hp | relProc t l hp | relWin t l hp | free t l hp | contended t l hp
  | hold t l hp | delete t l hp | endCall t l hp | leave t l hp =>
    dsimp only at h hne ⊢
    have hTt : T = t := by
      by_contra h1
      exact hne (upd_ne _ _ h1)
    subst hTt
    rw [upd_self] at h
    rw [upd_self, hp]
    rw [hp] at hbuf hi
    first
      | (cases hi; done)
      | (rcases h with e | e <;> cases e <;> done)
      | (rcases h with e | e <;> cases e <;> rfl)
      | (rcases h with e | e <;> cases e <;> exact hbuf _ (.inl rfl))

/-- At most one thread uses the window of an entry; nobody else has its lock. -/
theorem WinLink.free (hL : WinLink C ws)
    (hI : DistInv C.P ws.st) (hM : MtxReach C.M false ws.mtx) {t l : Nat}
    (ht : ws.mtx.pc (C.thr t) = .update l) : ws.st.dl l = none := by
  obtain ⟨Q, hQ⟩ := MtxInv.reachable hM
  cases hx : ws.st.dl l with
  | none => rfl
  | some a =>
    exfalso
    have h1 := (hI.dl l a).1 hx
    cases a with
    | comm r => cases hp : ws.st.pc (.comm r) <;> rw [hp] at h1 <;> exact h1.elim
    | user u =>
      have hE : (ws.st.pc (.user u)).entryOf = some l := by
        revert h1
        cases ws.st.pc (.user u) <;> intro h1 <;> first | exact h1.2 | exact h1.elim
      have hlk := hL.link u
      have hne : C.thr u ≠ C.thr t → False := by
        intro hne
        have e1 := (hQ.head l (C.thr t)).2 (by rw [ht]; rfl)
        have e2 := (hQ.win (C.M.home l) (C.thr t)).2 ⟨l, by rw [ht]; rfl, rfl⟩
        have own : (ws.mtx.pc (C.thr u)).owns = some l → False := by
          intro ho
          have := (hQ.head l (C.thr u)).2 ho
          rw [e1] at this; exact hne (Option.some.inj this).symm
        revert hlk own
        cases hp : ws.mtx.pc (C.thr u) with
        | idle => intro hlk _; rw [WinMatch, hE] at hlk; cases hlk
        | held l' => intro hlk own; rw [WinMatch, hE] at hlk; cases hlk; exact own rfl
        | relProc l' | relWin l' | cas l' | recv l' =>
          intro hlk own
          have := hlk.1
          rw [hE] at this; cases this; exact own rfl
        | released l' =>
          intro hlk own
          have := hlk.1
          rw [hE] at this; cases this
          have := (hQ.win (C.M.home l) (C.thr u)).2 ⟨l, by rw [hp]; rfl, rfl⟩
          rw [e2] at this; exact hne (Option.some.inj this).symm
        | wantProc | wantWin | swap | swapped | sending | reProc | reWin | update =>
          intro hlk _
          have := wants_entry hlk
          rw [hE] at this; cases this
      by_cases e : C.thr u = C.thr t
      · rw [e, ht] at hlk
        have := wants_entry hlk
        rw [hE] at this; cases this
      · exact hne e

/-- The copy of the entry is the entry. -/
theorem WinLink.entryFor (hL : WinLink C ws) {t l : Nat} (ht : ws.mtx.pc (C.thr t) = .update l) :
    C.entryFor ws t l = ws.st.dir l := by
  unfold WinParams.entryFor
  split
  · rfl
  · exact hL.buf t l (.inr ht)

/-- A change of one entry by a thread with the window and the lock. -/
theorem WinLink.write (hd : C.Distinct) (hL : WinLink C ws) (hM : MtxReach C.M false ws.mtx)
    {t b off s l : Nat} {ph ph' : Phase β} {m' : MtxState} {D : List Int} {dl' : Nat → Option Agent}
    (hp : ws.st.pc (.user t) = .own b off s ph) (hu : ws.mtx.pc (C.thr t) = .update l)
    (hne : m'.pc (C.thr t) = .cas l ∧ (Pc.own b off s ph').leavesLib = true ∨ m'.pc (C.thr t) = .held l)
    (hs : MtxStep C.M false ws.mtx m')
    (he : dlPhase b ph' = some l) :
    WinLink C { ws with
      st := { ws.st with dl := dl', dir := upd ws.st.dir l D }.goto t b off s ph', mtx := m' } := by
  obtain ⟨Q, hQ⟩ := MtxInv.reachable hM
  have hsg := mtx_single hs (T := C.thr t) (by rw [hu]; rfl)
    (by rw [hu]; rcases hne with ⟨e, -⟩ | e <;> rw [e] <;> nofun)
  have hlive : C.tid t < C.total := hL.live t (by rw [hp]; nofun)
  refine ⟨fun u => ?_, fun T hT => ?_, fun u hu' => ?_, fun u l' hu' => ?_⟩
  · by_cases e : u = t
    · subst e
      show WinMatch _ (upd ws.st.pc (.user u) _ (.user u))
      rw [upd_self]
      rcases hne with ⟨e, h1⟩ | e
      · show WinMatch (m'.pc (C.thr u)) _
        rw [e]; exact ⟨he, h1⟩
      · show WinMatch (m'.pc (C.thr u)) _
        rw [e]; exact he
    · show WinMatch (m'.pc (C.thr u)) (upd ws.st.pc (.user t) _ (.user u))
      rw [upd_ne _ _ (user_ne e), hsg _ (fun x => e (hd t u hlive x.symm).symm)]
      exact hL.link u
  · by_cases e : T = C.thr t
    · exact ⟨t, e⟩
    · exact hL.busy T (by rw [← hsg T e]; exact hT)
  · by_cases e : u = t
    · subst e; exact hlive
    · exact hL.live u (by
        have : upd ws.st.pc (.user t) (.own b off s ph') (.user u) ≠ .idle := hu'
        rwa [upd_ne _ _ (user_ne e)] at this)
  · show ws.buf u = upd ws.st.dir l D l'
    have hu'' : m'.pc (C.thr u) = .swap l' ∨ m'.pc (C.thr u) = .update l' := hu'
    have hut : C.thr u ≠ C.thr t := by
      intro e
      rw [e] at hu''
      rcases hne with ⟨h1, -⟩ | h1 <;> rw [h1] at hu'' <;> rcases hu'' with h | h <;> cases h
    rw [hsg _ hut] at hu''
    have hl' : l' ≠ l := by
      rintro rfl
      have e1 := (hQ.win (C.M.home l') (C.thr t)).2 ⟨l', by rw [hu]; rfl, rfl⟩
      have e2 := (hQ.win (C.M.home l') (C.thr u)).2
        ⟨l', by rcases hu'' with h | h <;> rw [h] <;> rfl, rfl⟩
      rw [e1] at e2; exact hut (Option.some.inj e2).symm
    rw [upd_ne _ _ hl']
    exact hL.buf u l' hu''

/-- All invariants are preserved, and the step is a step with an atomic lock or changes nothing in
the cache. -/
theorem WinLink.step (hd : C.Distinct) (hm : C.P.mode = .window) (hI : DistInv C.P ws.st)
    (hM : MtxReach C.M false ws.mtx) (hL : WinLink C ws) (hs : WinStep C ws ws') :
    (ws'.st = ws.st ∨ DistStep C.P ws.st ws'.st) ∧ MtxReach C.M false ws'.mtx ∧ WinLink C ws' := by
  cases hs with
  | plain t st' hlive hw hl hu =>
    obtain ⟨k1, k2, -⟩ := plain_step hm hI hu hw
    refine ⟨.inr (.user t hu), hM, fun u => ?_, hL.busy, fun u hu' => ?_, fun u l h => ?_⟩
    · by_cases e : u = t
      · subst e
        have hk := hL.link u
        show WinMatch (ws.mtx.pc (C.thr u)) (st'.pc (.user u))
        revert hk
        cases ws.mtx.pc (C.thr u) with
        | idle => intro hk; exact (k2 hl).trans hk
        | held l => intro hk; exact (k2 hl).trans hk
        | relProc l' | relWin l' | cas l' | recv l' | released l' =>
          intro hk; have := hk.2; rw [hl] at this; cases this
        | wantProc | wantWin | swap | swapped | sending | reProc | reWin | update =>
          intro hk; rw [WinMatch, hw] at hk; cases hk
      · show WinMatch (ws.mtx.pc (C.thr u)) (st'.pc (.user u))
        rw [user_other hu (user_ne e)]; exact hL.link u
    · by_cases e : u = t
      · subst e; exact hlive
      · exact hL.live u (by rw [← user_other hu (user_ne e)]; exact hu')
    · show ws.buf u = st'.dir l
      rw [k1]; exact hL.buf u l h
  | call t l m' hw hi hn hms =>
    have hsg := mtx_single hms (T := C.thr t) (by rw [hi]; rfl) (by rw [hn, hi]; nofun)
    have hlive : C.tid t < C.total := hL.live t (wants_idle hw)
    refine ⟨.inl rfl, .step hM hms, fun u => ?_, fun T hT => ?_, hL.live, fun u l' h => ?_⟩
    · by_cases e : u = t
      · subst e
        show WinMatch (m'.pc (C.thr u)) _
        rw [hn]; exact hw
      · show WinMatch (m'.pc (C.thr u)) _
        rw [hsg _ (fun x => e (hd t u hlive x.symm).symm)]; exact hL.link u
    · by_cases e : T = C.thr t
      · exact ⟨t, e⟩
      · exact hL.busy T (by rw [← hsg T e]; exact hT)
    · have h' : m'.pc (C.thr u) = .swap l' ∨ m'.pc (C.thr u) = .update l' := h
      have hut : C.thr u ≠ C.thr t := by
        intro e; rw [e, hn] at h'; rcases h' with h | h <;> cases h
      rw [hsg _ hut] at h'
      exact hL.buf u l' h'
  | inside m' hms hch hin =>
    refine ⟨.inl rfl, .step hM hms, fun u => ?_, fun T hT => ?_, hL.live, fun u l h => ?_⟩
    · show WinMatch (m'.pc (C.thr u)) _
      by_cases e : m'.pc (C.thr u) = ws.mtx.pc (C.thr u)
      · rw [e]; exact hL.link u
      · exact inside_match hms (hin _ e) (hL.link u)
    · by_cases e : m'.pc T = ws.mtx.pc T
      · exact hL.busy T (by rw [← e]; exact hT)
      · exact hL.busy T (by intro h; have := hin _ e; rw [h] at this; cases this)
    · exact fetch_buf hL hms hin u l h
  | delete t b off s o m' hp hu hn hms =>
    refine ⟨.inr ?_, .step hM hms, hL.write hd hM hp hu (.inl ⟨hn, rfl⟩) hms rfl⟩
    have := UserStep.delWin (P := C.P) ws.st t b off s o hp hm (hL.free hI hM hu)
    rw [← hL.entryFor hu] at this
    exact .user t this
  | add t b off s m' hp hu hn hms =>
    refine ⟨.inr ?_, .step hM hms, hL.write hd hM hp hu (.inr hn) hms rfl⟩
    have := UserStep.addWin (P := C.P) ws.st t b off s hp hm (hL.free hI hM hu)
    rw [← hL.entryFor hu] at this
    exact .user t this
  | start t b off s rnd m' hp hu hn hms =>
    refine ⟨.inr ?_, .step hM hms, hL.write hd hM hp hu (.inr hn) hms rfl⟩
    have := UserStep.startWin (P := C.P) ws.st t b off s rnd hp hm (hL.free hI hM hu)
    rw [← hL.entryFor hu] at this
    exact .user t this
  | endCall t l m' hl hh hn hms =>
    have hsg := mtx_single hms (T := C.thr t) (by rw [hh]; rfl) (by rw [hh]; exact hn)
    have hk := hL.link t
    rw [hh] at hk
    have hlive : C.tid t < C.total := hL.live t (entry_idle hk)
    have hnew : m'.pc (C.thr t) = .relWin l ∨ m'.pc (C.thr t) = .relProc l := by
      revert hn
      cases hms with
      | init l' hm => intro h; exact absurd hh h
      | handOver t' u' l l' dest tag ht' hu' =>
        intro h
        refine absurd ?_ h
        have h1 : C.thr t ≠ t' := by intro e; rw [← e, hh] at ht'; cases ht'
        have h2 : C.thr t ≠ u' := by intro e; rw [← e, hh] at hu'; cases hu'
        show upd (upd ws.mtx.pc t' _) u' _ _ = _
        rw [upd_ne _ _ h2, upd_ne _ _ h1]; exact hh
      | endCall t' l' hp' =>
        show upd ws.mtx.pc t' _ _ ≠ _ → upd ws.mtx.pc t' _ _ = _ ∨ upd ws.mtx.pc t' _ _ = _
        by_cases e : C.thr t = t'
        · subst e
          rw [hh] at hp'; cases hp'
          intro _
          rw [upd_self]
          split
          · exact .inl rfl
          · exact .inr rfl
        · rw [upd_ne _ _ e]; intro h; exact absurd hh h
      | call t' _ _ hp' | proc t' _ hp' | win t' _ hp' | acquire t' _ hp' | enqueue t' _ hp'
      | wait t' _ _ hp' | reProc t' _ hp' | reWin t' _ hp' | hold t' _ hp' | delete t' _ hp'
      | relProc t' _ hp' | relWin t' _ hp' | free t' _ hp' | contended t' _ hp' | leave t' _ hp' =>
        intro h
        refine absurd ?_ h
        have h1 : C.thr t ≠ t' := by intro e; rw [← e, hh] at hp'; cases hp'
        exact (upd_ne _ _ h1).trans hh
    refine ⟨.inl rfl, .step hM hms, fun u => ?_, fun T hT => ?_, hL.live, fun u l' h => ?_⟩
    · by_cases e : u = t
      · subst e
        show WinMatch (m'.pc (C.thr u)) _
        rcases hnew with e | e <;> rw [e] <;> exact ⟨hk, hl⟩
      · show WinMatch (m'.pc (C.thr u)) _
        rw [hsg _ (fun x => e (hd t u hlive x.symm).symm)]; exact hL.link u
    · by_cases e : T = C.thr t
      · exact ⟨t, e⟩
      · exact hL.busy T (by rw [← hsg T e]; exact hT)
    · have h' : m'.pc (C.thr u) = .swap l' ∨ m'.pc (C.thr u) = .update l' := h
      have hut : C.thr u ≠ C.thr t := by
        intro e; rw [e] at h'
        rcases hnew with h1 | h1 <;> rw [h1] at h' <;> rcases h' with h | h <;> cases h
      rw [hsg _ hut] at h'
      exact hL.buf u l' h'
  | leave t l m' st' hl hr hn hms hu =>
    have hsg := mtx_single hms (T := C.thr t) (by rw [hr]; rfl) (by rw [hr, hn]; nofun)
    have hk := hL.link t
    rw [hr] at hk
    have hlive : C.tid t < C.total := hL.live t (entry_idle hk.1)
    have hw : (ws.st.pc (.user t)).wantsEntry = none := by
      cases hx : (ws.st.pc (.user t)).wantsEntry with
      | none => rfl
      | some l => rw [wants_leaves hx] at hl; cases hl
    obtain ⟨k1, -, k3⟩ := plain_step hm hI hu hw
    refine ⟨.inr (.user t hu), .step hM hms, fun u => ?_, fun T hT => ?_, fun u hu' => ?_, fun u l' h => ?_⟩
    · by_cases e : u = t
      · subst e
        show WinMatch (m'.pc (C.thr u)) (st'.pc (.user u))
        rw [hn]; exact k3 hl
      · show WinMatch (m'.pc (C.thr u)) (st'.pc (.user u))
        rw [user_other hu (user_ne e), hsg _ (fun x => e (hd t u hlive x.symm).symm)]; exact hL.link u
    · by_cases e : T = C.thr t
      · exact ⟨t, e⟩
      · exact hL.busy T (by rw [← hsg T e]; exact hT)
    · by_cases e : u = t
      · subst e; exact hlive
      · exact hL.live u (by rw [← user_other hu (user_ne e)]; exact hu')
    · show ws.buf u = st'.dir l'
      rw [k1]
      have h' : m'.pc (C.thr u) = .swap l' ∨ m'.pc (C.thr u) = .update l' := h
      have hut : C.thr u ≠ C.thr t := by
        intro e; rw [e, hn] at h'; rcases h' with h | h <;> cases h
      rw [hsg _ hut] at h'
      exact hL.buf u l' h'

theorem WinReach.all (hd : C.Distinct) (hl : Legal C.P) (hm : C.P.mode = .window)
    (h : WinReach C ws) : DistReach C.P ws.st ∧ MtxReach C.M false ws.mtx ∧ WinLink C ws := by
  induction h with
  | init h =>
    obtain ⟨c, hc, rfl⟩ := h
    refine ⟨.init ⟨c, hc, rfl⟩, .init rfl, fun t => rfl, fun T hT => absurd rfl hT,
      fun t ht => absurd rfl ht, fun t l ht => ?_⟩
    rcases ht with h | h <;> cases h
  | @step s1 s2 _ hs ih =>
    obtain ⟨h1, h2, h3⟩ := ih
    obtain ⟨k1, k2, k3⟩ := h3.step hd hm (DistInv.reach hl.domains hl.size hl.hand h1) h2 hs
    refine ⟨?_, k2, k3⟩
    rcases k1 with k1 | k1
    · rw [k1]; exact h1
    · exact .step h1 k1

end Asagi
