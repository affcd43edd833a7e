import Verif.Proofs.OpenWhile
import Verif.Props.ManyLevels
/-
C90: grids are opened and closed by some threads while other threads use other grids.
-/
namespace Asagi.Props
open Asagi Asagi.Spec
variable {α : Type} {G : Many α} {P : MixParams} {prog : Nat → List Nat} {f : Nat → OpenedFile α} {s : MixState G}

/-- **C90** The opening and closing of other grids does not disturb the levels that are used: their states are those that
they reach without it (C85). -/
theorem C90_levels (h : MixReach G P prog s) : ManyReach G s.lv := open_many h

/-- **C90** A getter returns the value of the file of its level at the index of the position, whatever grids
are opened and closed meanwhile. -/
theorem C90_value (hG : ∀ i, i < G.n → ProperLevel G.rank (f i) (G.L i)) {s1 s2 : MixState G}
    (h : MixReach G P prog s) (i t : Nat) (hi : i < G.n) (pos : List Dbl) (idx : List Nat)
    (hp : pos2index (f i).fp (openAxes (f i).fp (f i).cc (f i).nc) pos = some idx)
    (hs : MixStep G P s s1) (hc : (G.L i).called t pos (s.lv i) (s1.lv i)) (hd : MixDuring G P i t s1 s2) (v : α)
    (hv : (G.L i).returns t (s2.lv i) v) : v = (f i).val idx := by
  have same : s1.lv = s.lv → False := fun e => C85_value.not_called (hG i hi) (e ▸ hc)
  cases hs with
  | level x h1 => exact C85_value hG (open_many h) i t hi pos idx hp h1 hc (open_during hd) v hv
  | _ => exact (same rfl).elim

/-- **C90** While a thread is inside of a getter of a level, the level is open in all processes. Opening: every
thread that takes part has called the last collective operation. Closing: nobody has begun anything that
comes after the barrier, so nobody has freed a window or memory. -/
theorem C90_in_use (hG : ∀ i, i < G.n → ProperLevel G.rank (f i) (G.L i)) (hP : OrderlyProgram G P prog)
    (h : MixReach G P prog s) (i t : Nat) (hi : i < G.n) (ht : (G.L i).busy (s.lv i) t) :
    (0 < (P.kind (P.opens i)).rounds → ∀ u ∈ P.members (P.opens i), G.rank u = G.rank t →
      ∀ w ∈ P.members (P.opens i), CalledLast P s (P.opens i) w) ∧
    ∀ u ∈ P.members (P.closes i), G.rank u = G.rank t → NotBegun s (P.closes i) u ∧
      ∀ c w, P.closes i < c → w ∈ P.members c → w ∈ P.members (P.closes i) → NotBegun s c w := by
  have hu := open_usable (fun i hi => (good_proper (hG i hi)).toSafe) h i t hi ht
  have hsync := open_sync hP h
  refine ⟨fun h0 u hm hr w hw hn => ?_, fun u hm hr => ⟨?_, fun c w hc hw hwm => ?_⟩⟩
  · have := hsync (P.opens i) ((P.kind (P.opens i)).rounds - 1) u (by omega) hm (.inl (hu.1 u hr hm)) w hw
    rcases this with h1 | ⟨rest, j, g1, g2, g3⟩
    · exact absurd hn h1
    · exact ⟨rest, j, g1, g2, by omega⟩
  · have := hu.2 u hr hm
    constructor
    · by_contra hn; exact this (.inl hn)
    · intro ha hh
      cases hp : s.prog u with
      | nil => rw [hp] at hh; cases hh
      | cons d rest =>
        rw [hp] at hh
        cases hh
        cases hj : s.at_ u with
        | none => exact ha hj
        | some j => exact this (.inr ⟨rest, j, hp, hj, Nat.zero_le _⟩)
  · refine later_not_begun hP h (b := P.closes i) ?_ hc hw
    by_contra hn
    refine hu.2 u hr hm (hsync (P.closes i) 0 w ?_ hwm (.inl hn) u hm)
    rw [hP.barrier i hi]; decide

/-- **C90** (partial) Of the threads of a process one at most is inside of the MPI library, in a getter or while it
opens or closes a grid. Missing: the barrier of `close` and the creation and deletion of MPI types
(`C90_one_in_mpi_violated`). -/
theorem C90_one_in_mpi_partial (hG : ∀ i, i < G.n → ProperLevel G.rank (f i) (G.L i)) (hlib : P.lib = true)
    (h : MixReach G P prog s) (t u : Nat)
    (ht : InsideMpi G P (fun k => k ≠ .barrier ∧ k ≠ .makeType ∧ k ≠ .freeType) s t)
    (hu : InsideMpi G P (fun k => k ≠ .barrier ∧ k ≠ .makeType ∧ k ≠ .freeType) s u)
    (hr : G.rank t = G.rank u) : t = u := by
  have hm := many_level (open_many h)
  obtain ⟨h1, h2, -⟩ := open_excl h
  have lock : ∀ t c rest, s.prog t = c :: rest → s.at_ t ≠ none →
      (P.kind c ≠ .barrier ∧ P.kind c ≠ .makeType ∧ P.kind c ≠ .freeType) → s.hasLock P t := by
    intro t c rest g1 g2 g3
    cases ha : s.at_ t with
    | none => exact absurd ha g2
    | some j =>
      refine ⟨c, rest, j, g1, ha, hlib, ?_⟩
      revert g3
      cases P.kind c <;> simp [MpiSection.locked]
  cases ht with
  | getter i hi ht =>
    cases hu with
    | getter j hj hu => exact ((C85_one_user hG (open_many h)).2 _ t u i j hi hj ht hu hr).1
    | opening c rest g1 g2 g3 =>
      exact absurd hr.symm (h2 u t i hi (lock u c rest g1 g2 g3) (inLibrary_uses ht (hm i)))
  | opening c rest g1 g2 g3 =>
    cases hu with
    | getter j hj hu => exact absurd hr (h2 t u j hj (lock t c rest g1 g2 g3) (inLibrary_uses hu (hm j)))
    | opening c' rest' g1' g2' g3' => exact h1 t u (lock t c rest g1 g2 g3) (lock u c' rest' g1' g2' g3') hr

/-- **C90** No deadlock: as long as a thread is inside of a getter, or has grids to open or to close, some thread can
continue without a new call of a getter. -/
theorem C90_no_deadlock (hG : ∀ i, i < G.n → ProperLevel G.rank (f i) (G.L i)) (hP : OrderlyProgram G P prog)
    (h : MixReach G P prog s) (t : Nat) (ht : StillBusy G s t) : ∃ s', MixQuiet G P s s' :=
  mix_progress hP (fun i hi => good_proper (hG i hi)) (fun i hi => local_proper (hG i hi)) h ht

/-- **C90** Every call returns: from each state, every execution without new calls of getters has at most `N` steps, and
when it cannot be continued, all getters have returned and all grids are opened and closed. -/
theorem C90_every_call_returns (hG : ∀ i, i < G.n → ProperLevel G.rank (f i) (G.L i)) (hP : OrderlyProgram G P prog)
    (h : MixReach G P prog s) :
    ∃ N, ∀ n s', MixQuietRun G P n s s' → n ≤ N ∧
      ((∀ s'', ¬ MixQuiet G P s' s'') → ∀ t, ¬ StillBusy G s' t) := by
  obtain ⟨N, hN⟩ := open_bound hP (fun i hi => good_proper (hG i hi)) h
  refine ⟨N, fun n s' hr => ⟨hN n s' hr, fun hend t ht => ?_⟩⟩
  obtain ⟨s'', hq⟩ := C90_no_deadlock hG hP (open_quiet_reach h hr) t ht
  exact hend s'' hq

/-- **C90** The calls of any number of grids, in the same order in all processes and with one thread of each process
that makes them, are such a program: `setComm`, `open` of levels of all kinds and on several domains, `close`. -/
theorem C90_history {lib : Bool} {cs : List LifeCall} {op cl : Nat → Option Nat} (h : OrderlyHistory G lib cs op cl) :
    OrderlyProgram G (historyParams lib cs op cl) (historyProg cs) := history_orderly h

/-- **C90** For such calls: while a thread is inside of a getter of a level, all threads that open the level have called its
creation of windows, and, if a thread of the process takes part in the closing of the grid, nobody has begun to free anything. -/
theorem C90_history_in_use (hG : ∀ i, i < G.n → ProperLevel G.rank (f i) (G.L i)) {lib : Bool} {cs : List LifeCall}
    {op cl : Nat → Option Nat} (hh : OrderlyHistory G lib cs op cl)
    (h : MixReach G (historyParams lib cs op cl) (historyProg cs) s) (i t : Nat) (hi : i < G.n)
    (ht : (G.L i).busy (s.lv i) t) :
    (∀ k ts hs l, op i = some k → cs[k]? = some (.open_ ts hs l) → l ≠ .other → ∀ u ∈ ts, G.rank u = G.rank t →
      ∀ w ∈ ts, CalledLast (historyParams lib cs op cl) s ((historySections (cs.take (k + 1))).length - 1) w) ∧
    ∀ k ts ls, cl i = some k → cs[k]? = some (.close ts ls) → ∀ u ∈ ts, G.rank u = G.rank t →
      ∀ j w, 0 < j → j < (LifeCall.close ts ls).sections.length → w ∈ ts →
        NotBegun s ((historySections (cs.take k)).length + j) w := by
  have hP := history_orderly hh
  obtain ⟨h1, h2⟩ := C90_in_use hG hP h i t hi ht
  constructor
  · intro k ts hs l ho hk hl u hu hr w hw
    obtain ⟨e1, e2⟩ := history_opens (lib := lib) (cl := cl) ho hk
    have e3 : (historyParams lib cs op cl).opens i = (historySections (cs.take (k + 1))).length - 1 := by
      simp only [historyParams, ho]
    rw [e2] at h1
    have := h1 (by
      rw [e1]
      cases l with
      | full d => exact Nat.zero_lt_succ _
      | cache => exact Nat.zero_lt_succ _
      | other => exact absurd rfl hl) u hu hr w hw
    rwa [e3] at this
  · intro k ts ls hc hk u hu hr j w hj hj' hw
    have e : (historyParams lib cs op cl).closes i = (historySections (cs.take k)).length := by simp only [historyParams, hc]
    have mem : ∀ j, j < (LifeCall.close ts ls).sections.length →
        (historyParams lib cs op cl).members ((historySections (cs.take k)).length + j) = ts := by
      intro j hj
      simp only [historyParams, history_at cs hk j hj]
      obtain ⟨p, hp⟩ : ∃ p, (LifeCall.close ts ls).sections[j]? = some p := ⟨_, List.getElem?_eq_getElem hj⟩
      rw [hp]
      exact close_threads _ _ _ (List.mem_of_getElem? hp)
    have m0 := mem 0 (by omega)
    rw [Nat.add_zero] at m0
    rw [e, m0] at h2
    exact (h2 u hu hr).2 _ w (by omega) (by rw [mem j hj']; exact hw) hw
where
  close_threads (ts : List Nat) (ls : List LevelComm) (p : MpiSection × List Nat)
      (h : p ∈ (LifeCall.close ts ls).sections) : p.2 = ts := by
    simp only [LifeCall.sections, List.mem_cons, List.mem_append, List.not_mem_nil, or_false] at h
    rcases h with rfl | rfl | h | rfl
    · rfl
    · rfl
    · obtain ⟨l, -, h⟩ := List.mem_flatMap.1 h
      cases l with
      | full d =>
        simp only [LevelComm.destroy, List.mem_append, List.mem_replicate, List.mem_cons, List.not_mem_nil, or_false] at h
        rcases h with (rfl | rfl | rfl) | ⟨-, rfl⟩ <;> rfl
      | cache =>
        simp only [LevelComm.destroy, List.mem_cons, List.not_mem_nil, or_false] at h
        rcases h with rfl | rfl | rfl <;> rfl
      | other => cases h
    · rfl

/-- Two CACHE grids are opened on two processes; the second one is closed, then the first one. -/
def exHistory : List LifeCall :=
  [.setComm [1, 2], .open_ [1, 2] [] .cache, .setComm [1, 2], .open_ [1, 2] [] .cache, .close [1, 2] [.cache],
    .setComm [1, 2], .open_ [1, 2] [5, 6] (.full 2), .close [1, 2] [.cache]]

example : OrderlyHistory exMany true exHistory (fun i => if i = 0 then some 1 else if i = 1 then some 3 else none)
    (fun i => if i = 0 then some 7 else if i = 1 then some 4 else none) ∧
    historyProg exHistory 1 = List.range 27 ∧ historyProg exHistory 5 = [19] ∧
    (historySections exHistory)[19]? = some (.alloc, [1, 2, 5, 6]) ∧
    (historyParams true exHistory (fun _ => some 1) (fun _ => some 7)).opens 0 = 4 ∧
    (historyParams true exHistory (fun _ => some 1) (fun _ => some 7)).closes 0 = 21 ∧
    (historySections exHistory)[4]? = some (.createCache, [1, 2]) := by
  refine ⟨⟨fun _ c hc d hd t ht u hu hr => ?_, fun i k hi h => ?_, fun i k hi h => ?_⟩, by decide +kernel, by decide +kernel,
    by decide +kernel, by decide +kernel, by decide +kernel, by decide +kernel⟩
  · have all : ∀ c ∈ exHistory, c.threads = [1, 2] := by decide +kernel
    rw [all c hc] at ht
    rw [all d hd] at hu
    have hr : t % 4 / 2 = u % 4 / 2 := hr
    rcases List.mem_pair.1 ht with rfl | rfl <;> rcases List.mem_pair.1 hu with rfl | rfl <;> omega
  · rcases exMany_cases hi with rfl | rfl | rfl <;> cases h <;> exact ⟨_, _, _, rfl⟩
  · rcases exMany_cases hi with rfl | rfl | rfl <;> cases h <;> exact ⟨_, _, rfl⟩

/-! ### The example

The three levels of C85. Thread 1 of process 0 and thread 2 of process 1 open the two CACHE grids, close the second one
and then the first one. -/

def exOpen (k : MpiSection) : MixParams :=
  { lib := true
    kind := fun c => if c < 2 then .createCache else if c = 2 then k else if c = 3 then .freeCache else .barrier
    members := fun c => if c < 5 then [1, 2] else []
    opens := fun i => if i < 2 then i else 7
    closes := fun i => if i = 0 then 4 else if i = 1 ∧ k = .barrier then 2 else 8 }

def exOpenProg (t : Nat) : List Nat := if t = 1 ∨ t = 2 then [0, 1, 2, 3, 4] else []

theorem exOpen_orderly (k : MpiSection) : OrderlyProgram exMany (exOpen k) exOpenProg := by
  constructor
  · exact ⟨3, fun t ht => if_neg (by omega)⟩
  · intro t
    unfold exOpenProg
    split <;> decide
  · intro c t
    have e1 : (exOpen k).members c = if c < 5 then [1, 2] else [] := rfl
    rw [e1]
    unfold exOpenProg
    by_cases h1 : c < 5 <;> by_cases h2 : t = 1 ∨ t = 2 <;> simp only [h1, h2, if_true, if_false] <;>
      simp [h2] <;> omega
  · rintro - t u ⟨c, ht, -⟩ ⟨d, hu, -⟩ hr
    unfold exOpenProg at ht hu
    have h1 : t = 1 ∨ t = 2 := by by_contra h; rw [if_neg h] at ht; cases ht
    have h2 : u = 1 ∨ u = 2 := by by_contra h; rw [if_neg h] at hu; cases hu
    have hr : t % 4 / 2 = u % 4 / 2 := hr
    omega
  · intro i hi
    rcases exMany_cases hi with rfl | rfl | rfl
    · rfl
    · by_cases e : k = .barrier
      · subst e; rfl
      · simp [exOpen, e]
    · rfl

/-- Two threads complete a section. -/
theorem open_section {P : MixParams} {prog : Nat → List Nat} {s : MixState G} {t u c : Nat} {rt ru : List Nat}
    (htu : G.rank t ≠ G.rank u) (hm : P.members c = [t, u]) (hpt : s.prog t = c :: rt) (hpu : s.prog u = c :: ru)
    (hat : s.at_ = fun _ => none) (hb : ∀ i v, i < G.n → ¬ (G.L i).busy (s.lv i) v)
    (hn : ∀ i v, i < G.n → ¬ (G.L i).uses .mpi (s.lv i) v) (h : MixReach G P prog s) :
    MixReach G P prog { s with prog := upd (upd s.prog t rt) u ru, at_ := fun _ => none } := by
  have hne : u ≠ t := fun e => htu (by rw [e])
  have nl : ∀ v, ¬ s.hasLock P v := fun v hv => lock_inside hv (by rw [hat])
  have h1 := h.step (.enter s t c rt hpt (by rw [hat]) (fun i hi => hb i t hi) (fun i v hi _ _ => hb i v hi)
    fun _ _ v _ => ⟨nl v, fun i hi => hn i v hi⟩)
  have h2 := h1.step (.enter _ u c ru hpu ((upd_ne _ _ hne).trans (by rw [hat])) (fun i hi => hb i u hi)
    (fun i v hi _ _ => hb i v hi) fun _ _ v hv => by
      refine ⟨?_, fun i hi => hn i v hi⟩
      rintro ⟨c', r', j, -, g2, -⟩
      have : v ≠ t := by rintro rfl; exact htu hv
      change upd s.at_ t _ v = _ at g2
      rw [upd_ne _ _ this, hat] at g2; cases g2)
  have loop : ∀ j, j ≤ (P.kind c).rounds →
      MixReach G P prog { s with at_ := upd (upd s.at_ t (some j)) u (some j) } := by
    intro j
    induction j with
    | zero => exact fun _ => h2
    | succ j ih =>
      intro hj
      have at1 : upd (upd s.at_ t (some j)) u (some j) t = some j :=
        (upd_ne _ _ (Ne.symm hne)).trans (upd_self ..)
      have h3 := (ih (by omega)).step (.ret _ t c j rt hpt at1 (by omega) (fun v hv => by
        rw [hm] at hv
        rcases List.mem_pair.1 hv with rfl | rfl
        · exact .inr ⟨rt, j, hpt, at1, le_refl _⟩
        · exact .inr ⟨ru, j, hpu, upd_self .., le_refl _⟩))
      have at2 : upd (upd (upd s.at_ t (some j)) u (some j)) t (some (j + 1)) u = some j :=
        (upd_ne _ _ hne).trans (upd_self ..)
      have h4 := h3.step (.ret _ u c j ru hpu at2 (by omega) (fun v hv => by
        rw [hm] at hv
        rcases List.mem_pair.1 hv with rfl | rfl
        · exact .inr ⟨rt, j + 1, hpt, upd_self .., by omega⟩
        · exact .inr ⟨ru, j, hpu, at2, le_refl _⟩))
      have e : upd (upd (upd (upd s.at_ t (some j)) u (some j)) t (some (j + 1))) u (some (j + 1)) =
          upd (upd s.at_ t (some (j + 1))) u (some (j + 1)) := by
        funext v
        simp only [upd_apply]
        split
        · rfl
        · split <;> rfl
      rw [← e]; exact h4
  have h5 := (loop _ (le_refl _)).step (.leave _ t c rt hpt ((upd_ne _ _ (Ne.symm hne)).trans (upd_self ..)))
  have h6 := h5.step (.leave _ u c ru ((upd_ne _ _ hne).trans hpu) ((upd_ne _ _ hne).trans (upd_self ..)))
  have e : upd (upd (upd (upd s.at_ t (some (P.kind c).rounds)) u (some (P.kind c).rounds)) t none) u none =
      fun _ => none := by
    funext v
    simp only [upd_apply, hat]
    split
    · rfl
    · split <;> rfl
  rw [← e]; exact h6

/-- A step of one thread in a level, while nothing else happens. -/
theorem open_one (hG : ∀ i, i < G.n → ProperLevel G.rank (f i) (G.L i)) {s : MixState G}
    (h : MixReach G P prog s) {i t : Nat} (hi : i < G.n) (hb : ∀ j u, j < G.n → (G.L j).busy (s.lv j) u → j = i ∧ u = t)
    (hat : s.at_ t = none) (hus : s.usable P i (G.rank t)) (hl : ∀ u, G.rank u = G.rank t → ¬ s.hasLock P u)
    {x : (G.L i).S} (hst : (G.L i).step (s.lv i) x) (hx : ∀ u, (G.L i).busy x u → u = t) :
    MixStep G P s { s with lv := Function.update s.lv i x } := by
  have hm := many_level (open_many h)
  have hg := fun j hj => good_proper (hG j hj)
  refine .level s _ (.level _ i x hi hst (fun u hu hn j hj hb' => ?_) fun k u hu hn j v hj hr hv => ?_)
    (fun j u hj hbu hnb => ?_) (fun j u hj hbu hnb w hw => ?_)
  · obtain ⟨rfl, -⟩ := hb j u hj hb'
    exact hn hb'
  · obtain rfl := hx u ((hg i hi).usesBusy _ k u (.step (hm i) hst) hu)
    obtain ⟨rfl, rfl⟩ := hb j v hj ((hg j hj).usesBusy _ k v (hm j) hv)
    exact hn hv
  · by_cases e : j = i
    · subst e
      rw [Function.update_self] at hbu
      obtain rfl := hx u hbu
      exact ⟨hat, hus⟩
    · rw [Function.update_of_ne e] at hbu; exact (hnb hbu).elim
  · by_cases e : j = i
    · subst e
      rw [Function.update_self] at hbu
      obtain rfl := hx u ((hg j hj).usesBusy _ _ u (.step (hm j) hst) hbu)
      exact hl w hw
    · rw [Function.update_of_ne e] at hbu; exact (hnb hbu).elim

theorem busy_update {s : MixState G} {i t : Nat} {x : (G.L i).S} (hx : ∀ u, (G.L i).busy x u → u = t)
    (hb : ∀ j u, j < G.n → (G.L j).busy (s.lv j) u → j = i ∧ u = t) :
    ∀ j u, j < G.n → (G.L j).busy (Function.update s.lv i x j) u → j = i ∧ u = t := by
  intro j u hj hbu
  by_cases e : j = i
  · subst e; rw [Function.update_self] at hbu; exact ⟨rfl, hx u hbu⟩
  · rw [Function.update_of_ne e] at hbu; exact hb j u hj hbu

/-- Steps of one thread in a level, while nothing else happens. -/
theorem open_solo (hG : ∀ i, i < G.n → ProperLevel G.rank (f i) (G.L i)) {s : MixState G}
    (h : MixReach G P prog s) {i t : Nat} (hi : i < G.n) (hb : ∀ j u, j < G.n → (G.L j).busy (s.lv j) u → j = i ∧ u = t)
    (hat : s.at_ t = none) (hus : s.usable P i (G.rank t)) (hl : ∀ u, G.rank u = G.rank t → ¬ s.hasLock P u)
    {free : LibLock → Prop} {x : (G.L i).S} (hr : Solo (G.L i) t free (s.lv i) x) :
    MixReach G P prog { s with lv := Function.update s.lv i x } ∧
    MixDuring G P i t s { s with lv := Function.update s.lv i x } ∧ ∀ u, (G.L i).busy x u → u = t := by
  generalize hs0 : s.lv i = s0 at hr
  induction hr with
  | refl =>
    subst hs0
    rw [Function.update_eq_self]
    exact ⟨h, .refl _, fun u hu => (hb i u hi hu).2⟩
  | @tail y z hr hst h1 h2 h3 ih =>
    obtain ⟨i1, i2, i3⟩ := ih
    have hstep := open_one hG i1 hi (busy_update i3 hb) hat hus hl (x := z)
      (by change (G.L i).step (Function.update s.lv i y i) z; rw [Function.update_self]; exact hst) h1
    change MixStep G P _ { s with lv := Function.update (Function.update s.lv i y) i z } at hstep
    rw [Function.update_idem] at hstep
    refine ⟨.step i1 hstep, .tail i2 hstep ?_, h1⟩
    change (G.L i).busy (Function.update s.lv i z i) t
    rw [Function.update_self]; exact h2

/-- One thread calls a getter of level `i` and continues (`x1`, `x2`); another one enters a section without `mpiLock`; the first
one continues (`x3`). -/
theorem open_run (hG : ∀ i, i < G.n → ProperLevel G.rank (f i) (G.L i)) {s : MixState G}
    (h : MixReach G P prog s) {i t u c : Nat} {rest : List Nat} (hi : i < G.n)
    (hidle : ∀ j v, j < G.n → ¬ (G.L j).busy (s.lv j) v) (hat : s.at_ = fun _ => none) (hut : t ≠ u)
    (hp : s.prog u = c :: rest) (hk : (P.kind c).locked = false) (hc : P.closes i ≠ c)
    (hus : ∀ (lv : G.St), MixState.usable ⟨lv, s.prog, s.at_⟩ P i (G.rank t)) {free : LibLock → Prop} {x1 x2 x3 : (G.L i).S}
    (h1 : (G.L i).step (s.lv i) x1) (hb1 : ∀ v, (G.L i).busy x1 v → v = t) (h2 : Solo (G.L i) t free x1 x2)
    (hb2 : ∀ v, (G.L i).busy x2 v → v = t) (ht2 : (G.L i).busy x2 t) (h3 : Solo (G.L i) t free x2 x3) :
    MixStep G P s { s with lv := Function.update s.lv i x1 } ∧
    MixReach G P prog { s with lv := Function.update s.lv i x2, at_ := upd s.at_ u (some 0) } ∧
    MixDuring G P i t { s with lv := Function.update s.lv i x1 }
      { s with lv := Function.update s.lv i x2, at_ := upd s.at_ u (some 0) } ∧
    MixDuring G P i t { s with lv := Function.update s.lv i x1 }
      { s with lv := Function.update s.lv i x3, at_ := upd s.at_ u (some 0) } := by
  have nl : ∀ (lv : G.St) v, ¬ MixState.hasLock ⟨lv, s.prog, s.at_⟩ P v := fun lv v h => lock_inside h (by rw [hat])
  have hb0 : ∀ j v, j < G.n → (G.L j).busy (s.lv j) v → j = i ∧ v = t := fun j v hj h => (hidle j v hj h).elim
  have st1 := open_one hG h hi hb0 (by rw [hat]) (hus _) (fun v _ => nl _ v) h1 hb1
  have hr1 := h.step st1
  obtain ⟨hr2, hd2, -⟩ := open_solo hG hr1 hi (busy_update hb1 hb0) (by rw [hat]) (hus _) (fun v _ => nl _ v) (x := x2)
    (by change Solo (G.L i) t free (Function.update s.lv i x1 i) x2; rw [Function.update_self]; exact h2)
  dsimp only at hr2 hd2
  rw [Function.update_idem] at hr2 hd2
  have hbx := busy_update hb2 hb0
  have st3 : MixStep G P { s with lv := Function.update s.lv i x2 }
      { s with lv := Function.update s.lv i x2, at_ := upd s.at_ u (some 0) } :=
    .enter { s with lv := Function.update s.lv i x2 } u c rest hp (by rw [hat])
      (fun j hj hb => hut (hbx j u hj hb).2.symm)
      (fun j v hj hcj _ hb => hc (by rw [← (hbx j v hj hb).1]; exact hcj))
      (fun _ h => by rw [hk] at h; cases h)
  have hr3 := hr2.step st3
  have hd3 := MixDuring.tail hd2 st3 (by
    change (G.L i).busy (Function.update s.lv i x2 i) t
    rw [Function.update_self]; exact ht2)
  refine ⟨st1, hr3, hd3, ?_⟩
  have hus3 : MixState.usable { s with lv := Function.update s.lv i x2, at_ := upd s.at_ u (some 0) } P i (G.rank t) :=
    open_usable (fun i hi => (good_proper (hG i hi)).toSafe) hr3 i t hi (by
      change (G.L i).busy (Function.update s.lv i x2 i) t
      rw [Function.update_self]; exact ht2)
  obtain ⟨-, hd4, -⟩ := open_solo hG hr3 hi hbx ((upd_ne _ _ hut).trans (by rw [hat])) hus3 (fun v _ hlk => by
      obtain ⟨c', r, j, g1, g2, -, g4⟩ := hlk
      change upd s.at_ u (some 0) v = _ at g2
      by_cases e : v = u
      · subst e
        change s.prog v = _ at g1
        rw [hp] at g1
        injection g1 with g1 _
        subst g1
        rw [hk] at g4; cases g4
      · rw [upd_ne _ _ e, hat] at g2; cases g2) (x := x3)
    (by change Solo (G.L i) t free (Function.update s.lv i x2 i) x3; rw [Function.update_self]; exact h3)
  dsimp only at hd4
  rw [Function.update_idem] at hd4
  exact during_trans hd3 hd4
where
  during_trans {i t : Nat} {x y z : MixState G} (h1 : MixDuring G P i t x y)
      (h2 : MixDuring G P i t y z) : MixDuring G P i t x z := by
    induction h2 with
    | refl => exact h1
    | tail _ a b ih => exact .tail ih a b

/-- Both grids are open. -/
theorem exOpen_state (k : MpiSection) {w v : WinState (List Nat)} (hw : (exManyWin.sys exLevel).start w)
    (hv : (exManyWin.sys exLevel).start v) :
    MixReach exMany (exOpen k) exOpenProg
      { lv := exManySt w v (PassState.start [[], [], [], []])
        prog := upd (upd (upd (upd exOpenProg 1 [1, 2, 3, 4]) 2 [1, 2, 3, 4]) 1 [2, 3, 4]) 2 [2, 3, 4], at_ := fun _ => none } := by
  have hg := fun i hi => good_proper (exMany_proper i hi)
  have hs : ∀ i, (exMany.L i).start (exManySt w v (PassState.start [[], [], [], []]) i) := fun i => match i with
    | 0 => hw
    | 1 => hv
    | 2 => rfl
    | _ + 3 => rfl
  have hb : ∀ i u, i < exMany.n → ¬ (exMany.L i).busy (exManySt w v (PassState.start [[], [], [], []]) i) u :=
    fun i u hi => (hg i hi).fresh _ u (hs i)
  have hn : ∀ i u, i < exMany.n → ¬ (exMany.L i).uses .mpi (exManySt w v (PassState.start [[], [], [], []]) i) u :=
    fun i u hi hu => hb i u hi ((hg i hi).usesBusy _ _ u (.init (hs i)) hu)
  have h0 : MixReach exMany (exOpen k) exOpenProg ⟨exManySt w v (PassState.start [[], [], [], []]), exOpenProg, fun _ => none⟩ :=
    .init ⟨hs, rfl, rfl⟩
  have h1 := open_section (t := 1) (u := 2) (c := 0) (rt := [1, 2, 3, 4]) (ru := [1, 2, 3, 4]) (by decide) rfl rfl rfl
    rfl hb hn h0
  exact open_section (t := 1) (u := 2) (c := 1) (rt := [2, 3, 4]) (ru := [2, 3, 4]) (by decide) rfl rfl rfl rfl hb hn h1

/-- The first call of a getter of a CACHE level. -/
theorem exCall {l : CacheList} {w1 : WinState (List Nat)}
    (h1 : (WinCmd.call 0 2 2).exec exManyWin (WinState.start exManyWin l) = some w1) :
    (exManyWin.sys exLevel).step (WinState.start exManyWin l) w1 ∧
    (exManyWin.sys exLevel).called 0 exManyPos (WinState.start exManyWin l) w1 ∧
    (∀ u, (exManyWin.sys exLevel).busy w1 u → u = 0) ∧ (exManyWin.sys exLevel).busy w1 0 ∧
    ∀ k, ¬ (exManyWin.sys exLevel).uses k w1 0 := by
  simp only [WinCmd.exec] at h1
  split at h1
  next ht =>
    split at h1
    next hp =>
      split at h1
      next ho =>
        cases h1
        refine ⟨.plain _ 0 _ ht (by rw [hp]; rfl) (by rw [hp]; rfl) (.call _ 0 2 2 hp ⟨ho, exMany_inside⟩),
          ⟨[1, 4], exMany_index, hp, rfl⟩, fun u hu => ?_, ?_, fun k hk => ?_⟩
        · by_contra e
          exact hu (upd_ne (WinState.start exManyWin l).st.pc _ (user_ne e))
        · change upd (WinState.start exManyWin l).st.pc (.user 0) (.wantCm 2 2) (.user 0) ≠ _
          rw [upd_self]; nofun
        · cases k with
          | mpi => cases hk.2
          | netcdf =>
            change Pc.reading (upd (WinState.start exManyWin l).st.pc (.user 0) (.wantCm 2 2) (.user 0)) at hk
            rw [upd_self] at hk; exact hk.elim
      next => cases h1
    next => cases h1
  next => cases h1

/-- Both grids are opened. Thread 0 calls a getter of the first one and enters the MPI library. Thread 1 enters its next
section, which does not lock `mpiLock`. Thread 0 continues, and returns the value. -/
theorem exOpen_run (k : MpiSection) (hk : k.locked = false) :
    ∃ s s1 s2 s3 : MixState exMany, MixReach exMany (exOpen k) exOpenProg s ∧ MixStep exMany (exOpen k) s s1 ∧
      (exMany.L 0).called 0 exManyPos (s.lv 0) (s1.lv 0) ∧ MixDuring exMany (exOpen k) 0 0 s1 s2 ∧
      MixReach exMany (exOpen k) exOpenProg s2 ∧
      InLibrary .mpi (exMany.L 0) (s2.lv 0) 0 ∧ (exMany.L 0).busy (s2.lv 0) 0 ∧
      s2.prog 1 = [2, 3, 4] ∧ s2.prog 2 = [2, 3, 4] ∧ s2.at_ 1 = some 0 ∧ s2.at_ 2 = none ∧
      MixDuring exMany (exOpen k) 0 0 s1 s3 ∧ (exMany.L 0).returns 0 (s3.lv 0) [1, 4] := by
  have hA : ((CacheList.init 2 1).bind fun l => ((WinCmd.call 0 2 2).exec exManyWin (WinState.start exManyWin l)).bind
      fun w1 => (soloExec exManyWin false 0 12 w1).bind fun w => (soloExec exManyWin false 0 10 w).map fun w' =>
        (l, w1, w, w')).any (fun p => decide (p.2.2.1.mtx.pc (exManyWin.thr 0) = .held 2) &&
        winCheck exManyWin false 0 p.2.2.1 &&
        (match p.2.2.2.st.pc (.user 0) with
        | .own _ _ _ (.out v) => decide (v = [1, 4])
        | _ => false)) = true := by decide +kernel
  obtain ⟨⟨p1, p2, p3, p4⟩, hx, hA⟩ := Option.any_eq_true _ _ |>.mp hA
  simp only [Option.bind_eq_some_iff, Option.map_eq_some_iff, Prod.mk.injEq] at hx
  obtain ⟨l, hl, w1, hw1, w, hw, w', hw', e1, e2, e3, e4⟩ := hx
  subst e1 e2 e3 e4
  rw [Bool.and_eq_true, Bool.and_eq_true] at hA
  obtain ⟨⟨hA1, hA2⟩, hA3⟩ := hA
  replace hA1 := of_decide_eq_true hA1
  obtain ⟨c1, c2, c3, c4, c5⟩ := exCall hw1
  obtain ⟨hs1, hb1⟩ := soloExec_sound (c := exLevel) c3 hw
  obtain ⟨hs2, hb2⟩ := soloExec_sound (c := exLevel) hb1 hw'
  have hw0 : (exManyWin.sys exLevel).start (WinState.start exManyWin l) := ⟨l, hl, rfl⟩
  have hr0 := exOpen_state k hw0 hw0
  generalize hs : (MixState.mk _ _ _ : MixState exMany) = s at hr0
  have lv0 : s.lv 0 = WinState.start exManyWin l := by rw [← hs]; rfl
  have hp1 : s.prog 1 = [2, 3, 4] := by rw [← hs]; rfl
  have hp2 : s.prog 2 = [2, 3, 4] := by rw [← hs]; rfl
  have hat : s.at_ = fun _ => none := by rw [← hs]
  have idle : ∀ j u, j < exMany.n → ¬ (exMany.L j).busy (s.lv j) u := by
    intro j u hj
    rw [← hs]
    refine (good_proper (exMany_proper j hj)).fresh _ u ?_
    rcases exMany_cases hj with rfl | rfl | rfl
    · exact hw0
    · exact hw0
    · rfl
  have hmem : ∀ u, exMany.rank u = exMany.rank 0 → u ∈ [1, 2] → u = 1 := by
    intro u h1 h2
    have h1 : u % 4 / 2 = 0 := h1
    rcases List.mem_pair.1 h2 with rfl | rfl
    · rfl
    · cases h1
  have hu : ∀ lv : exMany.St, MixState.usable ⟨lv, s.prog, s.at_⟩ (exOpen k) 0 (exMany.rank 0) := by
    intro lv
    refine ⟨fun u h1 h2 => ?_, fun u h1 h2 => ?_⟩
    · obtain rfl := hmem u h1 h2
      change 0 ∉ s.prog 1
      rw [hp1]; decide
    · obtain rfl := hmem u h1 h2
      rintro (h | ⟨r, i, g1, -⟩)
      · change 4 ∉ s.prog 1 at h
        rw [hp1] at h; exact h (by decide)
      · change s.prog 1 = _ at g1
        rw [hp1] at g1; cases g1
  have hbw : (exMany.L 0).busy w 0 := (winCheck_sound (c := exLevel) hA2).1
  obtain ⟨r1, r2, r3, r4⟩ := open_run (t := 0) (u := 1) (f := fun _ => exManyFile) exMany_proper hr0 (i := 0) (by decide) idle hat
    (by decide) hp1 hk (by change 4 ≠ 2; decide) hu (x1 := w1) (x2 := w) (x3 := w') (by rw [lv0]; exact c1) c3 hs1 hb1 hbw hs2
  have self : ∀ (x : (exMany.L 0).S) (Q : (exMany.L 0).S → Prop), Q x → Q (Function.update s.lv 0 x 0) :=
    fun x Q h => by rw [Function.update_self]; exact h
  refine ⟨_, _, _, _, hr0, r1, self w1 (fun y => (exMany.L 0).called 0 exManyPos (s.lv 0) y) (by rw [lv0]; exact c2), r3, r2,
    self w (fun y => InLibrary .mpi (exMany.L 0) y 0)
      (.window exLevel exManyWin w 0 rfl (by rw [hA1]; nofun) (by rw [hA1]; nofun)),
    self w (fun y => (exMany.L 0).busy y 0) hbw, hp1, hp2, upd_self s.at_ 1 (some 0), ?_, r4,
    self w' (fun y => (exMany.L 0).returns 0 y [1, 4]) ?_⟩
  · change upd s.at_ 1 (some 0) 2 = none
    rw [hat]; rfl
  · revert hA3
    split
    · next h => intro hv; rw [of_decide_eq_true hv] at h; exact ⟨_, _, _, h⟩
    · intro hv; cases hv

/-- The hypotheses of `C90_value` and of `C90_in_use` are met: thread 0 is inside of a getter of the first grid while thread 1
closes the second one. Nobody has begun to close the first one. -/
example : ∃ s : MixState exMany, MixReach exMany (exOpen .barrier) exOpenProg s ∧ (exMany.L 0).busy (s.lv 0) 0 ∧
    s.prog 1 = [2, 3, 4] ∧ s.at_ 1 = some 0 ∧ NotBegun s 4 1 ∧ StillBusy exMany s 0 := by
  obtain ⟨-, -, s, -, -, -, -, -, h1, -, h2, h3, -, h5, -⟩ := exOpen_run .barrier rfl
  have := (C90_in_use (f := fun _ => exManyFile) exMany_proper (exOpen_orderly .barrier) h1 0 0 (by decide) h2).2 1
    (by decide) rfl
  exact ⟨s, h1, h2, h3, h5, this.1, .inl ⟨0, by decide, h2⟩⟩

/-- **C90** violated without the restriction to some kinds of sections (deviation 32): with THREADSAFE_MPI, and with one
thread per process that calls the collective operations, a thread can be inside of the MPI library in a getter while another
thread of its process is in the barrier of `close`, or creates or deletes an MPI type. -/
theorem C90_one_in_mpi_violated (k : MpiSection) (hk : k = .barrier ∨ k = .makeType ∨ k = .freeType) :
    ∃ (G : Many (List Nat)) (P : MixParams) (prog : Nat → List Nat) (s : MixState G),
      (∀ i, i < G.n → ProperLevel G.rank exManyFile (G.L i)) ∧ OrderlyProgram G P prog ∧ P.lib = true ∧
      MixReach G P prog s ∧ InsideMpi G P (· = k) s 0 ∧ InsideMpi G P (· = k) s 1 ∧ G.rank 0 = G.rank 1 ∧
      ∃ i, i < G.n ∧ InLibrary .mpi (G.L i) (s.lv i) 0 := by
  obtain ⟨-, -, s, -, -, -, -, -, h1, h2, -, h3, -, h4, -⟩ := exOpen_run k (by rcases hk with rfl | rfl | rfl <;> rfl)
  exact ⟨exMany, exOpen k, exOpenProg, s, exMany_proper, exOpen_orderly k, rfl, h1, .getter 0 (by decide) h2,
    .opening 2 [3, 4] h3 (by rw [h4]; nofun) rfl, rfl, 0, by decide, h2⟩

/-! ### Two threads of a process open grids -/

def exTwo : MixParams :=
  { lib := true, kind := fun c => if c < 2 then .createFull else .barrier
    members := fun c => if c = 0 then [1, 2] else if c = 1 then [5, 6] else []
    opens := fun _ => 7, closes := fun _ => 8 }

def exTwoProg (t : Nat) : List Nat := if t = 1 ∨ t = 2 then [0] else if t = 5 ∨ t = 6 then [1] else []

/-- **C90** violated if two threads of a process open grids at the same time, with THREADSAFE_MPI (deviation 47): in each process
one thread is in the collective creation of the windows, with `mpiLock`, of another grid than in the other process.
Whatever happens then, none of the four calls ever returns. -/
theorem C90_two_openers_violated : ∃ (G : Many (List Nat)) (P : MixParams) (prog : Nat → List Nat) (s : MixState G),
    (∀ i, i < G.n → ProperLevel G.rank exManyFile (G.L i)) ∧ P.lib = true ∧
    ((∃ M, ∀ t, M ≤ t → prog t = []) ∧ (∀ t, (prog t).Pairwise (· < ·)) ∧ (∀ c t, t ∈ P.members c ↔ c ∈ prog t) ∧
      ∀ i, i < G.n → P.kind (P.closes i) = .barrier) ∧
    MixReach G P prog s ∧ ∀ s', _root_.Asagi.Reachable (· = s) (MixStep G P) s' →
      s'.prog 1 = [0] ∧ s'.prog 2 = [0] ∧ s'.prog 5 = [1] ∧ s'.prog 6 = [1] := by
  have hall : ∀ t, exTwoProg t ≠ [] → t = 1 ∨ t = 2 ∨ t = 5 ∨ t = 6 := by
    intro t ht
    by_contra hn
    refine ht ?_
    unfold exTwoProg
    rw [if_neg (by omega), if_neg (by omega)]
  obtain ⟨l, hl⟩ : ∃ l, CacheList.init 2 1 = some l := Option.isSome_iff_exists.1 (by decide +kernel)
  have hw0 : (exManyWin.sys exLevel).start (WinState.start exManyWin l) := ⟨l, hl, rfl⟩
  let lv : exMany.St := exManySt (WinState.start exManyWin l) (WinState.start exManyWin l) (PassState.start [[], [], [], []])
  have hs : ∀ i, (exMany.L i).start (lv i) := fun i => match i with
    | 0 => hw0
    | 1 => hw0
    | 2 => rfl
    | _ + 3 => rfl
  have hb : ∀ i, i < exMany.n → ∀ u, ¬ (exMany.L i).busy (lv i) u :=
    fun i hi u => (good_proper (exMany_proper i hi)).fresh _ u (hs i)
  have hn : ∀ i, i < exMany.n → ∀ u, ¬ (exMany.L i).uses .mpi (lv i) u :=
    fun i hi u hu => hb i hi u ((good_proper (exMany_proper i hi)).usesBusy _ _ u (.init (hs i)) hu)
  let s0 : MixState exMany := ⟨lv, exTwoProg, fun _ => none⟩
  have h0 : MixReach exMany exTwo exTwoProg s0 := .init ⟨hs, rfl, rfl⟩
  have h1 := h0.step (.enter s0 1 0 [] rfl rfl (fun i hi => hb i hi 1) (fun i u hi _ _ => hb i hi u)
    fun _ _ u _ => ⟨fun h => lock_inside h rfl, fun i hi => hn i hi u⟩)
  have h2 := h1.step (.enter _ 6 1 [] rfl rfl (fun i hi => hb i hi 6) (fun i u hi _ _ => hb i hi u)
    fun _ _ u hu => by
      refine ⟨?_, fun i hi => hn i hi u⟩
      rintro ⟨c, r, j, -, g2, -⟩
      have e : u ≠ 1 := by rintro rfl; cases hu
      change upd (fun _ => none) 1 (some 0) u = _ at g2
      rw [upd_ne _ _ e] at g2; cases g2)
  refine ⟨exMany, exTwo, exTwoProg, _, exMany_proper, rfl, ⟨⟨7, fun t ht => ?_⟩, fun t => ?_, fun c t => ?_, fun i hi => rfl⟩,
    h2, fun s' hr => ?_⟩
  · by_contra hn
    have := hall t hn
    omega
  · unfold exTwoProg
    split
    · decide
    · split <;> decide
  · have e1 : exTwo.members c = if c = 0 then [1, 2] else if c = 1 then [5, 6] else [] := rfl
    rw [e1]
    unfold exTwoProg
    by_cases hc0 : c = 0
    · subst hc0
      by_cases ht : t = 1 ∨ t = 2
      · rw [if_pos rfl, if_pos ht]; simp [ht]
      · rw [if_pos rfl, if_neg ht]
        have : t ∉ [1, 2] := fun h => ht (List.mem_pair.1 h)
        refine ⟨fun h => absurd h this, fun h => ?_⟩
        split at h
        · simp at h
        · cases h
    · rw [if_neg hc0]
      by_cases hc1 : c = 1
      · subst hc1
        by_cases ht : t = 1 ∨ t = 2
        · rw [if_pos rfl, if_pos ht]
          refine ⟨fun h => ?_, fun h => by simp at h⟩
          have := List.mem_pair.1 h
          omega
        · rw [if_pos rfl, if_neg ht]
          by_cases ht' : t = 5 ∨ t = 6
          · rw [if_pos ht']; simp [ht']
          · rw [if_neg ht']
            exact ⟨fun h => absurd (List.mem_pair.1 h) ht', nofun⟩
      · rw [if_neg hc1]
        refine ⟨nofun, fun h => ?_⟩
        split at h
        · simp at h; omega
        · split at h
          · simp at h; omega
          · cases h
  · have key : s'.prog = exTwoProg ∧ s'.at_ = upd (upd (fun _ => none) 1 (some 0)) 6 (some 0) := by
      induction hr with
      | init h => subst h; exact ⟨rfl, rfl⟩
      | @step x y _ hst ih =>
        obtain ⟨i1, i2⟩ := ih
        have two : ∀ t j, x.at_ t = some j → (t = 1 ∨ t = 6) ∧ j = 0 := by
          intro t j h
          rw [i2, upd_apply, upd_apply] at h
          split at h
          · injection h with h; exact ⟨.inr ‹_›, h.symm⟩
          · split at h
            · injection h with h; exact ⟨.inl ‹_›, h.symm⟩
            · cases h
        cases hst with
        | level z => exact ⟨i1, i2⟩
        | enter t c rest g1 g2 g3 g4 g5 =>
          have ht := hall t (by rw [← i1, g1]; nofun)
          have l1 : x.hasLock exTwo 1 := ⟨0, [], 0, by rw [i1]; rfl, by rw [i2]; rfl, rfl, rfl⟩
          have l6 : x.hasLock exTwo 6 := ⟨1, [], 0, by rw [i1]; rfl, by rw [i2]; rfl, rfl, rfl⟩
          have hc : (exTwo.kind c).locked = true := by
            rw [i1] at g1
            rcases ht with rfl | rfl | rfl | rfl <;> cases g1 <;> rfl
          rcases ht with rfl | rfl | rfl | rfl
          · rw [i2] at g2; cases g2
          · exact absurd l6 (g5 rfl hc 6 rfl).1
          · exact absurd l1 (g5 rfl hc 1 rfl).1
          · rw [i2] at g2; cases g2
        | ret t c j rest g1 g2 g3 g4 =>
          rw [i1] at g1
          rcases two t j g2 with ⟨rfl | rfl, rfl⟩
          · cases g1
            rcases g4 2 (by decide) with h | ⟨r, i, -, h, -⟩
            · rw [i1] at h; exact absurd (by decide) h
            · rw [i2] at h; cases h
          · cases g1
            rcases g4 5 (by decide) with h | ⟨r, i, -, h, -⟩
            · rw [i1] at h; exact absurd (by decide) h
            · rw [i2] at h; cases h
        | leave t c rest g1 g2 =>
          rw [i1] at g1
          rcases two t _ g2 with ⟨rfl | rfl, h⟩
          · cases g1; cases h
          · cases g1; cases h
    rw [key.1]; exact ⟨rfl, rfl, rfl, rfl⟩

end Asagi.Props
