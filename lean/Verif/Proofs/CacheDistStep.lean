import Verif.Proofs.CacheDist
/-
The invariant of the shared caches holds in all reachable states.
-/
namespace Asagi
variable {β : Type} {P : DistParams β} {st st' : DistState β}

namespace DistInv

/-- A step that neither changes the contents nor which block belongs in which slot. -/
theorem frame (h : DistInv P st)
    (hass : ∀ d s b, Assigned P st' d s b ↔ Assigned P st d s b)
    (ho1 : ∀ t b off s ph, st'.pc (.user t) = .own b off s ph → st.pc (.user t) = .own b off s ph)
    (ho2 : ∀ t b off s ph, st.pc (.user t) = .own b off s ph →
      st'.pc (.user t) = .own b off s ph ∨ ∃ v, ph = .out v)
    (edata : st'.data = st.data) (edir : P.mode = .window → st'.dir = st.dir)
    (enet : P.mode ≠ .thread → st'.net = st.net)
    (lists : ∀ d, ∃ h, CLInv (st'.cl d) h ∧ (st'.cl d).lru.size = P.size)
    (cm : ∀ d a, st'.cm d = some a ↔ CmOf P a (st'.pc a) d)
    (lk : ∀ k a, st'.lk k = some a ↔ LkOf P a (st'.pc a) k)
    (dl : ∀ b a, st'.dl b = some a ↔ DlOf P a (st'.pc a) b)
    (blk : ∀ r a, st'.blk r = some a ↔ BlkOf P a (st'.pc a) r)
    (kind : ∀ t, (∀ u b i, st'.pc (.user t) ≠ .tryDom u b i) ∧
      (∀ u b i, st'.pc (.user t) ≠ .tryCm u b i) ∧
      (∀ u b i s k buf, st'.pc (.user t) ≠ .send u b i s k buf) ∧
      (∀ i s, st'.pc (.user t) ≠ .sent i s))
    (kindC : ∀ r, (∀ b off, st'.pc (.comm r) ≠ .wantCm b off) ∧
      (∀ b off s old, st'.pc (.comm r) ≠ .wantSlot b off s old) ∧
      (∀ b off s ph, st'.pc (.comm r) ≠ .own b off s ph))
    (wantc : ∀ t b off, st'.pc (.user t) = .wantCm b off → P.valid b off)
    (want : ∀ t b off s old, st'.pc (.user t) = .wantSlot b off s old →
      P.valid b off ∧ s < P.size ∧ Idx st' (P.dom t) s b)
    (send : ∀ r t b i s k buf, st'.pc (.comm r) = .send t b i s k buf →
      i < P.domains ∧ s < P.size ∧ Assigned P st (r * P.domains + i) s b ∧
        ∀ j, j < k → P.valid b j → buf j = P.file b j)
    (tryc : ∀ r t b i, st'.pc (.comm r) = .tryCm t b i → i < P.domains)
    (req : ∀ r t b, (∃ i, st'.pc (.comm r) = .tryDom t b i) ∨ (∃ i, st'.pc (.comm r) = .tryCm t b i) ∨
      (∃ i s k buf, st'.pc (.comm r) = .send t b i s k buf) →
      (∃ off s, st'.pc (.user t) = .own b off s (.ask r)) ∧ st'.box t = none)
    (box : ∀ t m, st'.box t = some m → ∃ b off s r, st'.pc (.user t) = .own b off s (.ask r) ∧
      ∀ buf, m = some buf → ∀ j, P.valid b j → buf j = P.file b j) : DistInv P st' := by
  have hfil : ∀ d s, Filling P st' d s ↔ Filling P st d s := by
    intro d s
    constructor
    · rintro ⟨t, b, off, ph, hp, hd, hf⟩; exact ⟨t, b, off, ph, ho1 _ _ _ _ _ hp, hd, hf⟩
    · rintro ⟨t, b, off, ph, hp, hd, hf⟩
      rcases ho2 _ _ _ _ _ hp with h1 | ⟨v, h1⟩
      · exact ⟨t, b, off, ph, h1, hd, hf⟩
      · subst h1; cases hf
  have hsrc : ∀ b e, Src P st b e → Src P st' b e := by
    rintro b e ⟨d, s, hlt, he, h1 | ⟨u, b', off', hp, hd⟩⟩
    · exact ⟨d, s, hlt, he, .inl ⟨(hass _ _ _).2 h1.1, fun hf => h1.2 ((hfil _ _).1 hf)⟩⟩
    · refine ⟨d, s, hlt, he, .inr ⟨u, b', off', ?_, hd⟩⟩
      rcases ho2 _ _ _ _ _ hp with h1 | ⟨v, h1⟩
      · exact h1
      · cases h1
  have hpub : ∀ b e, Pub P st b e → Pub P st' b e := by
    rintro b e (h1 | ⟨u, off, s, ph, hp, hlt, he, hlf⟩)
    · exact .inl (hsrc b e h1)
    · refine .inr ⟨u, off, s, ph, ?_, hlt, he, hlf⟩
      rcases ho2 _ _ _ _ _ hp with h1 | ⟨v, h1⟩
      · exact h1
      · subst h1; cases hlf
  have hgd : ∀ d s b, Good P st d s b → Good P st' d s b := by
    intro d s b hg k hk; rw [edata]; exact hg k hk
  have hpre : ∀ d s b n, Prefix P st d s b n → Prefix P st' d s b n := by
    intro d s b n hg k hk hk'; rw [edata]; exact hg k hk hk'
  refine ⟨lists, cm, lk, dl, blk, kind, kindC, wantc, want, ?_, ?_, ?_, ?_, tryc, req, box, ?_, ?_⟩
  · intro t b off s ph hp
    rw [hass]; exact h.own t b off s ph (ho1 _ _ _ _ _ hp)
  · intro t b off s ph hp
    have hI := h.phase t b off s ph (ho1 _ _ _ _ _ hp)
    cases ph with
    | del old => exact ⟨hI.1, fun o ho => hgd _ _ _ (hI.2 o ho)⟩
    | numaCopy i s' k =>
      obtain ⟨a1, a2, a3, a4, a5⟩ := hI
      exact ⟨a1, a2, a3, (hass _ _ _).2 a4, hpre _ _ _ _ a5⟩
    | xfer e => exact ⟨fun hm e' he => hsrc _ _ (hI.1 hm e' he), hI.2⟩
    | copy e k => exact ⟨hI.1, hsrc _ _ hI.2.1, hpre _ _ _ _ hI.2.2⟩
    | recv buf k => exact ⟨hI.1, hI.2.1, hpre _ _ _ _ hI.2.2⟩
    | load k => exact hpre _ _ _ _ hI
    | _ => exact hI
  · intro d s b ha hf
    exact hgd _ _ _ (h.good d s b ((hass _ _ _).1 ha) (fun hx => hf ((hfil _ _).2 hx)))
  · intro r t b i s k buf hp
    rw [hass]; exact send r t b i s k buf hp
  · intro hm; rw [enet hm]; exact h.net hm
  · intro hm
    constructor
    · intro b
      obtain ⟨L, h1, h2, h3, h4⟩ := (h.win hm).dir b
      exact ⟨L, by rw [edir hm]; exact h1, h2, h3, fun e he => hpub _ _ (h4 e he)⟩
    · intro t b off s ph hp hu
      rw [edir hm]; exact (h.win hm).fresh t b off s ph (ho1 _ _ _ _ _ hp) hu

/-- The first state. -/
theorem start (hS : 0 < P.size) (hd : P.handDiff < P.size) {c : CacheList}
    (hc : CacheList.init P.size P.handDiff = some c) : DistInv P (DistState.start P c) := by
  obtain ⟨c0, h0, e0, hinv, hsz, _, hidx, _⟩ := CacheList.init_inv hS hd
  rw [hc] at e0; injection e0 with e0; subst e0
  have hno : ∀ d s b, ¬ Assigned P (DistState.start P c) d s b := by
    rintro d s b (⟨t, b', off, hp, _⟩ | ⟨_, hi⟩)
    · cases hp
    · simp [Idx, DistState.start, hidx, List.getElem?_replicate] at hi
  refine ⟨fun d => ⟨h0, hinv, hsz⟩, ?_, ?_, ?_, ?_, ?_, ?_, nofun, nofun, nofun, nofun,
    fun d s b ha => absurd ha (hno d s b), nofun, nofun, ?_, nofun, fun _ _ _ => rfl, ?_⟩
  · intro d a; cases a <;> exact ⟨nofun, nofun⟩
  · intro d a; cases a <;> exact ⟨nofun, nofun⟩
  · intro d a; cases a <;> exact ⟨nofun, nofun⟩
  · intro d a; cases a <;> exact ⟨nofun, nofun⟩
  · intro t; exact ⟨nofun, nofun, nofun, nofun⟩
  · intro t; exact ⟨nofun, nofun, nofun⟩
  · rintro r t b (⟨i, hi⟩ | ⟨i, hi⟩ | ⟨i, s, k, buf, hi⟩) <;> cases hi
  · intro _
    constructor
    · intro b
      exact ⟨[], by simp [DistState.start, dictInit_eq], List.nodup_nil, Nat.zero_le _, nofun⟩
    · nofun

end DistInv

section Upd
variable {pc : Agent → Pc β} {p : Pc β}

theorem upd_uu {t u : Nat} (h : u ≠ t) : upd pc (.user t) p (.user u) = pc (.user u) :=
  upd_ne _ _ (by intro e; injection e with e; exact h e)
theorem upd_uc {t r : Nat} : upd pc (.user t) p (.comm r) = pc (.comm r) := upd_ne _ _ nofun
theorem upd_cu {t r : Nat} : upd pc (.comm r) p (.user t) = pc (.user t) := upd_ne _ _ nofun
theorem upd_cc {r q : Nat} (h : q ≠ r) : upd pc (.comm r) p (.comm q) = pc (.comm q) :=
  upd_ne _ _ (by intro e; injection e with e; exact h e)

end Upd

namespace DistInv

theorem call_inv (h : DistInv P st) {t b off : Nat} (hp : st.pc (.user t) = .idle)
    (hoff : P.valid b off) :
    DistInv P { st with pc := upd st.pc (.user t) (.wantCm b off) } := by
  have hu : ∀ u, u ≠ t → upd st.pc (.user t) (.wantCm b off) (.user u) = st.pc (.user u) :=
    fun u hu => upd_uu hu
  refine h.frame ?_ ?_ ?_ rfl (fun _ => rfl) (fun _ => rfl) h.lists ?_ ?_ ?_ ?_ ?_ ?_ ?_ ?_ ?_ ?_ ?_ ?_
  · refine assigned_frame (by rfl) ?_
    intro u b1 off1 s1 old
    show upd st.pc _ _ _ = _ ↔ _
    by_cases e : u = t
    · subst e; rw [upd_self, hp]; simp
    · rw [hu u e]
  · intro u b1 off1 s1 ph hx
    replace hx : upd st.pc (.user t) _ (.user u) = _ := hx
    by_cases e : u = t
    · subst e; rw [upd_self] at hx; cases hx
    · rw [hu u e] at hx; exact hx
  · intro u b1 off1 s1 ph hx
    refine .inl ?_
    by_cases e : u = t
    · subst e; rw [hp] at hx; cases hx
    · exact (hu u e).trans hx
  · lk_auto h hp
  · lk_auto h hp
  · lk_auto h hp
  · lk_auto h hp
  · intro u
    show (∀ _ _ _, upd st.pc _ _ _ ≠ _) ∧ (∀ _ _ _, upd st.pc _ _ _ ≠ _) ∧
      (∀ _ _ _ _ _ _, upd st.pc _ _ _ ≠ _) ∧ (∀ _ _, upd st.pc _ _ _ ≠ _)
    by_cases e : u = t
    · subst e; rw [upd_self]; simp
    · rw [hu u e]; exact h.kind u
  · intro r
    simp only [upd_uc]; exact h.kindC r
  · intro u b1 off1 hx
    replace hx : upd st.pc (.user t) _ (.user u) = _ := hx
    by_cases e : u = t
    · subst e; rw [upd_self] at hx; injection hx with e1 e2; subst e1 e2; exact hoff
    · rw [hu u e] at hx; exact h.wantc u b1 off1 hx
  · intro u b1 off1 s1 old hx
    replace hx : upd st.pc (.user t) _ (.user u) = _ := hx
    by_cases e : u = t
    · subst e; rw [upd_self] at hx; cases hx
    · rw [hu u e] at hx; exact h.want u b1 off1 s1 old hx
  · intro r u b1 i s1 k buf hx
    simp only [upd_uc] at hx
    exact h.send r u b1 i s1 k buf hx
  · intro r u b1 i hx
    simp only [upd_uc] at hx
    exact h.tryc r u b1 i hx
  · intro r u b1 hx
    have hx' : (∃ i, st.pc (.comm r) = .tryDom u b1 i) ∨ (∃ i, st.pc (.comm r) = .tryCm u b1 i) ∨
      (∃ i s k buf, st.pc (.comm r) = .send u b1 i s k buf) := by
      simp only [upd_uc] at hx; exact hx
    obtain ⟨⟨off1, s1, h1⟩, h2⟩ := h.req r u b1 hx'
    refine ⟨⟨off1, s1, ?_⟩, h2⟩
    by_cases e : u = t
    · subst e; rw [hp] at h1; cases h1
    · exact (hu u e).trans h1
  · intro u m hx
    obtain ⟨b1, off1, s1, r, h1, h2⟩ := h.box u m hx
    refine ⟨b1, off1, s1, r, ?_, h2⟩
    by_cases e : u = t
    · subst e; rw [hp] at h1; cases h1
    · exact (hu u e).trans h1

/-- `CacheManager::get` does not change which block belongs in which slot. -/
theorem lookup_assigned (h : DistInv P st) {t b off s : Nat} {c' : CacheList} {old : Option Nat}
    (hp : st.pc (.user t) = .wantCm b off) (hc : st.cm (P.dom t) = none)
    (hg : (st.cl (P.dom t)).get b = .ok (c', s, old)) :
    ∀ d1 j b1, Assigned P { st with
        cl := upd st.cl (P.dom t) c'
        cm := upd st.cm (P.dom t) (some (.user t))
        pc := upd st.pc (.user t) (.wantSlot b off s old) } d1 j b1 ↔
      Assigned P st d1 j b1 := by
  have hu : ∀ u, u ≠ t → upd st.pc (.user t) (.wantSlot b off s old) (.user u) = st.pc (.user u) :=
    fun u hu => upd_uu hu
  obtain ⟨h0, inv, hsz⟩ := h.lists (P.dom t)
  obtain ⟨c1, s1, old1, e1, inv', hsz', hs, hbi, hcase⟩ := inv.get b
  rw [hg] at e1
  injection e1 with e1
  obtain ⟨rfl, rfl, rfl⟩ : c' = c1 ∧ s = s1 ∧ old = old1 := by
    injection e1 with e1 e2; injection e2 with e2 e3; exact ⟨e1, e2, e3⟩
  -- nobody waits in this domain
  have hnw : ∀ u b1 off1 s1 old1, st.pc (.user u) = .wantSlot b1 off1 s1 old1 → P.dom u ≠ P.dom t := by
    intro u b1 off1 s1 old1 hx hd
    have := (h.cm (P.dom u) (.user u)).2 (by rw [hx]; rfl)
    rw [hd, hc] at this; cases this
  -- the index before and after
  have hold : ∀ b1, old = some b1 ↔ (st.cl (P.dom t)).indexToBlock[s]? = some (some b1) := by
    intro b1
    rcases hcase with ⟨g1, g2, _⟩ | ⟨_, _, g3, _⟩
    · rw [(inv.bij b s).1 g1, g2]
      constructor
      · intro e; rw [e]
      · intro e; exact Option.some.inj e
    · rw [g3]
      constructor
      · intro e; rw [e]
      · intro e; exact Option.some.inj e
  have hidx : ∀ j, j ≠ s → c'.indexToBlock[j]? = (st.cl (P.dom t)).indexToBlock[j]? := by
    intro j hj
    rcases hcase with ⟨_, _, g3, _⟩ | ⟨_, _, _, g4, _⟩
    · rw [g3]
    · rw [g4, List.getElem?_set_ne (Ne.symm hj)]
  intro d1 j b1
  unfold Assigned Idx
  simp only
  constructor
  · rintro (⟨u, b2, off2, hx, hd⟩ | ⟨hn, hi⟩)
    · by_cases e : u = t
      · subst e
        rw [upd_self] at hx
        injection hx with e1 e2 e3 e4
        subst hd e3
        exact .inr ⟨fun u b2 off2 old2 hx => hnw u b2 off2 _ old2 hx, (hold b1).1 e4⟩
      · rw [hu u e] at hx
        exact .inl ⟨u, b2, off2, hx, hd⟩
    · have hn' : ∀ u b2 off2 old2, st.pc (.user u) = .wantSlot b2 off2 j old2 → P.dom u ≠ d1 := by
        intro u b2 off2 old2 hx
        have e : u ≠ t := by intro e; subst e; rw [hp] at hx; cases hx
        exact hn u b2 off2 old2 ((hu u e).trans hx)
      refine .inr ⟨hn', ?_⟩
      by_cases hd : d1 = P.dom t
      · subst hd
        rw [upd_self] at hi
        have hj : j ≠ s := by
          intro e; subst e
          exact hn t b off old (upd_self _ _ _) rfl
        rw [← hidx j hj]; exact hi
      · rw [upd_ne _ _ hd] at hi; exact hi
  · rintro (⟨u, b2, off2, hx, hd⟩ | ⟨hn, hi⟩)
    · have e : u ≠ t := by intro e; subst e; rw [hp] at hx; cases hx
      exact .inl ⟨u, b2, off2, (hu u e).trans hx, hd⟩
    · by_cases hd : d1 = P.dom t
      · subst hd
        by_cases hj : j = s
        · subst hj
          exact .inl ⟨t, b, off, by rw [upd_self, (hold b1).2 hi], rfl⟩
        · refine .inr ⟨?_, by rw [upd_self, hidx j hj]; exact hi⟩
          intro u b2 off2 old2 hx
          by_cases e : u = t
          · subst e
            rw [upd_self] at hx
            injection hx with _ _ e3
            exact absurd e3.symm hj
          · rw [hu u e] at hx; exact hn u b2 off2 old2 hx
      · refine .inr ⟨?_, by rw [upd_ne _ _ hd]; exact hi⟩
        intro u b2 off2 old2 hx
        by_cases e : u = t
        · subst e; exact fun e => hd e.symm
        · rw [hu u e] at hx; exact hn u b2 off2 old2 hx

theorem lookup_inv (h : DistInv P st) {t b off s : Nat} {c' : CacheList} {old : Option Nat}
    (hp : st.pc (.user t) = .wantCm b off) (hc : st.cm (P.dom t) = none)
    (hg : (st.cl (P.dom t)).get b = .ok (c', s, old)) :
    DistInv P { st with
        cl := upd st.cl (P.dom t) c'
        cm := upd st.cm (P.dom t) (some (.user t))
        pc := upd st.pc (.user t) (.wantSlot b off s old) } := by
  have hu : ∀ u, u ≠ t → upd st.pc (.user t) (.wantSlot b off s old) (.user u) = st.pc (.user u) :=
    fun u hu => upd_uu hu
  obtain ⟨h0, inv, hsz⟩ := h.lists (P.dom t)
  obtain ⟨c1, s1, old1, e1, inv', hsz', hs, hbi, hcase⟩ := inv.get b
  rw [hg] at e1
  injection e1 with e1
  obtain ⟨rfl, rfl, rfl⟩ : c' = c1 ∧ s = s1 ∧ old = old1 := by
    injection e1 with e1 e2; injection e2 with e2 e3; exact ⟨e1, e2, e3⟩
  -- nobody waits in this domain
  have hnw : ∀ u b1 off1 s1 old1, st.pc (.user u) = .wantSlot b1 off1 s1 old1 → P.dom u ≠ P.dom t := by
    intro u b1 off1 s1 old1 hx hd
    have := (h.cm (P.dom u) (.user u)).2 (by rw [hx]; rfl)
    rw [hd, hc] at this; cases this
  -- the index before and after
  have hold : ∀ b1, old = some b1 ↔ (st.cl (P.dom t)).indexToBlock[s]? = some (some b1) := by
    intro b1
    rcases hcase with ⟨g1, g2, _⟩ | ⟨_, _, g3, _⟩
    · rw [(inv.bij b s).1 g1, g2]
      constructor
      · intro e; rw [e]
      · intro e; exact Option.some.inj e
    · rw [g3]
      constructor
      · intro e; rw [e]
      · intro e; exact Option.some.inj e
  have hidx : ∀ j, j ≠ s → c'.indexToBlock[j]? = (st.cl (P.dom t)).indexToBlock[j]? := by
    intro j hj
    rcases hcase with ⟨_, _, g3, _⟩ | ⟨_, _, _, g4, _⟩
    · rw [g3]
    · rw [g4, List.getElem?_set_ne (Ne.symm hj)]
  refine h.frame ?_ ?_ ?_ rfl (fun _ => rfl) (fun _ => rfl) ?_
    (lock_take h.cm _ _ _ hc (by intro k; rw [hp]; simp [CmOf])) ?_ ?_ ?_ ?_ ?_ ?_ ?_ ?_ ?_ ?_ ?_
  · exact h.lookup_assigned hp hc hg
  · intro u b1 off1 s1 ph hx
    replace hx : upd st.pc (.user t) _ (.user u) = _ := hx
    by_cases e : u = t
    · subst e; rw [upd_self] at hx; cases hx
    · rw [hu u e] at hx; exact hx
  · intro u b1 off1 s1 ph hx
    refine .inl ?_
    by_cases e : u = t
    · subst e; rw [hp] at hx; cases hx
    · exact (hu u e).trans hx
  · intro d1
    show ∃ h, CLInv (upd st.cl _ _ d1) h ∧ (upd st.cl _ _ d1).lru.size = _
    by_cases hd : d1 = P.dom t
    · subst hd; rw [upd_self]; exact ⟨h0, inv', hsz'.trans hsz⟩
    · rw [upd_ne _ _ hd]; exact h.lists d1
  · lk_auto h hp
  · lk_auto h hp
  · lk_auto h hp
  · intro u
    show (∀ _ _ _, upd st.pc _ _ _ ≠ _) ∧ (∀ _ _ _, upd st.pc _ _ _ ≠ _) ∧
      (∀ _ _ _ _ _ _, upd st.pc _ _ _ ≠ _) ∧ (∀ _ _, upd st.pc _ _ _ ≠ _)
    by_cases e : u = t
    · subst e; rw [upd_self]; simp
    · rw [hu u e]; exact h.kind u
  · intro r
    simp only [upd_uc]; exact h.kindC r
  · intro u b1 off1 hx
    replace hx : upd st.pc (.user t) _ (.user u) = _ := hx
    by_cases e : u = t
    · subst e; rw [upd_self] at hx; cases hx
    · rw [hu u e] at hx; exact h.wantc u b1 off1 hx
  · intro u b1 off1 s1 old1 hx
    replace hx : upd st.pc (.user t) _ (.user u) = _ := hx
    show _ ∧ _ ∧ (upd st.cl _ _ _).indexToBlock[s1]? = _
    by_cases e : u = t
    · subst e
      rw [upd_self] at hx
      injection hx with e1 e2 e3 e4
      subst e1 e2 e3 e4
      rw [upd_self]
      exact ⟨h.wantc u b off hp, by omega, (inv'.bij b s).1 hbi⟩
    · rw [hu u e] at hx
      have hd := hnw u b1 off1 s1 old1 hx
      rw [upd_ne _ _ hd]
      exact h.want u b1 off1 s1 old1 hx
  · intro r u b1 i s1 k buf hx
    simp only [upd_uc] at hx
    exact h.send r u b1 i s1 k buf hx
  · intro r u b1 i hx
    simp only [upd_uc] at hx
    exact h.tryc r u b1 i hx
  · intro r u b1 hx
    have hx' : (∃ i, st.pc (.comm r) = .tryDom u b1 i) ∨ (∃ i, st.pc (.comm r) = .tryCm u b1 i) ∨
      (∃ i s k buf, st.pc (.comm r) = .send u b1 i s k buf) := by
      simp only [upd_uc] at hx; exact hx
    obtain ⟨⟨off1, s1, h1⟩, h2⟩ := h.req r u b1 hx'
    refine ⟨⟨off1, s1, ?_⟩, h2⟩
    by_cases e : u = t
    · subst e; rw [hp] at h1; cases h1
    · exact (hu u e).trans h1
  · intro u m hx
    obtain ⟨b1, off1, s1, r, h1, h2⟩ := h.box u m hx
    refine ⟨b1, off1, s1, r, ?_, h2⟩
    by_cases e : u = t
    · subst e; rw [hp] at h1; cases h1
    · exact (hu u e).trans h1

theorem unlock_inv (h : DistInv P st) {t b off s : Nat} {v : β}
    (hp : st.pc (.user t) = .own b off s (.out v)) :
    DistInv P { st with
        lk := upd st.lk (P.dom t, s) none
        pc := upd st.pc (.user t) .idle } := by
  have hu : ∀ u, u ≠ t → upd st.pc (.user t) .idle (.user u) = st.pc (.user u) :=
    fun u hu => upd_uu hu
  refine h.frame ?_ ?_ ?_ rfl (fun _ => rfl) (fun _ => rfl) h.lists ?_
    (lock_drop h.lk _ _ _ (by rw [hp]; exact .inl rfl) (by intro k; rw [hp]; simp [LkOf, SrcOf]))
    ?_ ?_ ?_ ?_ ?_ ?_ ?_ ?_ ?_ ?_
  · refine assigned_frame (by rfl) ?_
    intro u b1 off1 s1 old
    show upd st.pc _ _ _ = _ ↔ _
    by_cases e : u = t
    · subst e; rw [upd_self, hp]; simp
    · rw [hu u e]
  · intro u b1 off1 s1 ph hx
    replace hx : upd st.pc (.user t) _ (.user u) = _ := hx
    by_cases e : u = t
    · subst e; rw [upd_self] at hx; cases hx
    · rw [hu u e] at hx; exact hx
  · intro u b1 off1 s1 ph hx
    by_cases e : u = t
    · subst e; rw [hp] at hx; injection hx with _ _ _ e4; exact .inr ⟨v, e4.symm⟩
    · exact .inl ((hu u e).trans hx)
  · lk_auto h hp
  · lk_auto h hp
  · lk_auto h hp
  · intro u
    show (∀ _ _ _, upd st.pc _ _ _ ≠ _) ∧ (∀ _ _ _, upd st.pc _ _ _ ≠ _) ∧
      (∀ _ _ _ _ _ _, upd st.pc _ _ _ ≠ _) ∧ (∀ _ _, upd st.pc _ _ _ ≠ _)
    by_cases e : u = t
    · subst e; rw [upd_self]; simp
    · rw [hu u e]; exact h.kind u
  · intro r
    simp only [upd_uc]; exact h.kindC r
  · intro u b1 off1 hx
    replace hx : upd st.pc (.user t) _ (.user u) = _ := hx
    by_cases e : u = t
    · subst e; rw [upd_self] at hx; cases hx
    · rw [hu u e] at hx; exact h.wantc u b1 off1 hx
  · intro u b1 off1 s1 old hx
    replace hx : upd st.pc (.user t) _ (.user u) = _ := hx
    by_cases e : u = t
    · subst e; rw [upd_self] at hx; cases hx
    · rw [hu u e] at hx; exact h.want u b1 off1 s1 old hx
  · intro r u b1 i s1 k buf hx
    simp only [upd_uc] at hx
    exact h.send r u b1 i s1 k buf hx
  · intro r u b1 i hx
    simp only [upd_uc] at hx
    exact h.tryc r u b1 i hx
  · intro r u b1 hx
    have hx' : (∃ i, st.pc (.comm r) = .tryDom u b1 i) ∨ (∃ i, st.pc (.comm r) = .tryCm u b1 i) ∨
      (∃ i s k buf, st.pc (.comm r) = .send u b1 i s k buf) := by
      simp only [upd_uc] at hx; exact hx
    obtain ⟨⟨off1, s1, h1⟩, h2⟩ := h.req r u b1 hx'
    refine ⟨⟨off1, s1, ?_⟩, h2⟩
    by_cases e : u = t
    · subst e; rw [hp] at h1; cases h1
    · exact (hu u e).trans h1
  · intro u m hx
    obtain ⟨b1, off1, s1, r, h1, h2⟩ := h.box u m hx
    refine ⟨b1, off1, s1, r, ?_, h2⟩
    by_cases e : u = t
    · subst e; rw [hp] at h1; cases h1
    · exact (hu u e).trans h1


theorem lockSlot_inv (h : DistInv P st) (hD : 0 < P.domains) {t b off s : Nat} {old : Option Nat}
    (hp : st.pc (.user t) = .wantSlot b off s old) (hl : st.lk (P.dom t, s) = none) :
    DistInv P { st with
        lk := upd st.lk (P.dom t, s) (some (.user t))
        cm := upd st.cm (P.dom t) none
        pc := upd st.pc (.user t) (.own b off s (if old = some b then .use else .del old)) } := by
  obtain ⟨hoff, hslt, hidx⟩ := h.want t b off s old hp
  have hu : ∀ u, u ≠ t → upd st.pc (.user t)
      (.own b off s (if old = some b then Phase.use else .del old)) (.user u) = st.pc (.user u) :=
    fun u hu => upd_uu hu
  generalize hst' : ({ st with
        lk := upd st.lk (P.dom t, s) (some (.user t))
        cm := upd st.cm (P.dom t) none
        pc := upd st.pc (.user t) (.own b off s (if old = some b then .use else .del old)) } :
        DistState β) = st'
  have epc : st'.pc = upd st.pc (.user t) (.own b off s (if old = some b then .use else .del old)) := by
    rw [← hst']
  have hself : st'.pc (.user t) = .own b off s (if old = some b then .use else .del old) := by
    rw [epc, upd_self]
  have hoth : ∀ u, u ≠ t → st'.pc (.user u) = st.pc (.user u) := fun u hx => by rw [epc, hu u hx]
  have hcom : ∀ r, st'.pc (.comm r) = st.pc (.comm r) := fun r => by rw [epc, upd_uc]
  have ecl : st'.cl = st.cl := by rw [← hst']
  have edata : st'.data = st.data := by rw [← hst']
  have edir : st'.dir = st.dir := by rw [← hst']
  have enet : st'.net = st.net := by rw [← hst']
  have ebox : st'.box = st.box := by rw [← hst']
  -- nobody owns the slot
  have hno : ∀ u b1 off1 ph1, st.pc (.user u) = .own b1 off1 s ph1 → P.dom u ≠ P.dom t := by
    intro u b1 off1 ph1 hx hd
    have := h.lk_own hx
    rw [hd, hl] at this; cases this
  have hnf : ¬ Filling P st (P.dom t) s := by
    rintro ⟨u, b1, off1, ph1, hx, hd, _⟩; exact hno u b1 off1 ph1 hx hd
  -- the assignment before and after
  have ha1 : ∀ b1, Assigned P st (P.dom t) s b1 ↔ old = some b1 := by
    intro b1
    constructor
    · rintro (⟨u, b2, off2, hx, hd⟩ | ⟨hn, _⟩)
      · have := h.want_unique hx hp hd
        subst this
        rw [hp] at hx; injection hx
      · exact absurd rfl (hn t b off old hp)
    · intro e; exact .inl ⟨t, b, off, by rw [hp, e], rfl⟩
  have ha2 : Assigned P st' (P.dom t) s b := by
    refine .inr ⟨?_, by unfold Idx; rw [ecl]; exact hidx⟩
    intro u b2 off2 old2 hx hd
    by_cases e : u = t
    · subst e; rw [hself] at hx; cases hx
    · rw [hoth u e] at hx; exact e (h.want_unique hx hp hd)
  have ha3 : ∀ d1 s1 b1, ¬ (d1 = P.dom t ∧ s1 = s) →
      (Assigned P st' d1 s1 b1 ↔ Assigned P st d1 s1 b1) := by
    intro d1 s1 b1 hne
    unfold Assigned Idx
    rw [ecl]
    have key : ∀ u b2 off2 old2, P.dom u = d1 →
        (st'.pc (.user u) = .wantSlot b2 off2 s1 old2 ↔ st.pc (.user u) = .wantSlot b2 off2 s1 old2) := by
      intro u b2 off2 old2 hd
      by_cases e : u = t
      · subst e
        rw [hself, hp]
        constructor
        · nofun
        · intro e; injection e with _ _ e3; exact absurd ⟨hd.symm, e3.symm⟩ hne
      · rw [hoth u e]
    constructor
    · rintro (⟨u, b2, off2, hx, hd⟩ | ⟨hn, hi⟩)
      · exact .inl ⟨u, b2, off2, (key u b2 off2 _ hd).1 hx, hd⟩
      · exact .inr ⟨fun u b2 off2 old2 hx hd => hn u b2 off2 old2 ((key u b2 off2 _ hd).2 hx) hd, hi⟩
    · rintro (⟨u, b2, off2, hx, hd⟩ | ⟨hn, hi⟩)
      · exact .inl ⟨u, b2, off2, (key u b2 off2 _ hd).2 hx, hd⟩
      · exact .inr ⟨fun u b2 off2 old2 hx hd => hn u b2 off2 old2 ((key u b2 off2 _ hd).1 hx) hd, hi⟩
  have hf3 : ∀ d1 s1, ¬ (d1 = P.dom t ∧ s1 = s) → (Filling P st' d1 s1 ↔ Filling P st d1 s1) := by
    intro d1 s1 hne
    constructor
    · rintro ⟨u, b1, off1, ph1, hx, hd, hf⟩
      by_cases e : u = t
      · subst e
        rw [hself] at hx; injection hx with _ _ e3
        exact absurd ⟨hd.symm, e3.symm⟩ hne
      · rw [hoth u e] at hx; exact ⟨u, b1, off1, ph1, hx, hd, hf⟩
    · rintro ⟨u, b1, off1, ph1, hx, hd, hf⟩
      have e : u ≠ t := by intro e; subst e; rw [hp] at hx; cases hx
      exact ⟨u, b1, off1, ph1, (hoth u e).trans hx, hd, hf⟩
  have hf2 : old = some b → ¬ Filling P st' (P.dom t) s := by
    rintro ho ⟨u, b1, off1, ph1, hx, hd, hf⟩
    by_cases e : u = t
    · subst e
      rw [hself, if_pos ho] at hx; injection hx with _ _ _ e4
      subst e4; cases hf
    · rw [hoth u e] at hx; exact hno u b1 off1 ph1 hx hd
  have hsrc : ∀ b1 e1, Src P st b1 e1 → Src P st' b1 e1 := by
    rintro b1 e1 ⟨d1, s1, hlt, he, hA⟩
    refine ⟨d1, s1, hlt, he, ?_⟩
    by_cases hne : d1 = P.dom t ∧ s1 = s
    · obtain ⟨rfl, rfl⟩ := hne
      rcases hA with ⟨hA, _⟩ | ⟨u, b2, off2, hx, hd⟩
      · have ho := (ha1 b1).1 hA
        by_cases hob : b1 = b
        · subst hob; exact .inl ⟨ha2, hf2 ho⟩
        · refine .inr ⟨t, b, off, ?_, rfl⟩
          rw [hself, if_neg (by rw [ho]; intro e; injection e with e; exact hob e), ho]
      · exact absurd hd (hno u _ _ _ hx)
    · rcases hA with ⟨hA, hB⟩ | ⟨u, b2, off2, hx, hd⟩
      · exact .inl ⟨(ha3 _ _ _ hne).2 hA, fun hx => hB ((hf3 _ _ hne).1 hx)⟩
      · have e : u ≠ t := by intro e; subst e; rw [hp] at hx; cases hx
        exact .inr ⟨u, b2, off2, (hoth u e).trans hx, hd⟩
  have hlk' : ∀ k a, st'.lk k = some a ↔ LkOf P a (st'.pc a) k := by
    rw [epc, ← hst']
    exact lock_take h.lk _ _ _ hl (by intro k; rw [hp]; split <;> simp [LkOf, SrcOf])
  refine ⟨by rw [ecl]; exact h.lists, ?_, hlk', ?_, ?_, ?_, ?_, ?_, ?_, ?_, ?_, ?_, ?_,
    fun r u b1 i hx => h.tryc r u b1 i (by rw [← hcom]; exact hx), ?_, ?_, ?_, ?_⟩
  · rw [epc, ← hst']
    exact lock_drop h.cm _ _ _ (by rw [hp]; rfl) (by intro k; rw [hp]; split <;> simp [CmOf])
  · rw [epc, ← hst']
    exact lock_keep h.dl _ _ (by intro k; rw [hp]; split <;> simp [DlOf, dlPhase])
  · rw [epc, ← hst']
    exact lock_keep h.blk _ _ (by intro k; rw [hp]; split <;> simp [BlkOf])
  · intro u
    by_cases e : u = t
    · subst e; rw [hself]; simp
    · rw [hoth u e]; exact h.kind u
  · intro r; rw [hcom]; exact h.kindC r
  · intro u b1 off1 hx
    by_cases e : u = t
    · subst e; rw [hself] at hx; cases hx
    · rw [hoth u e] at hx; exact h.wantc u b1 off1 hx
  · intro u b1 off1 s1 old1 hx
    unfold Idx; rw [ecl]
    by_cases e : u = t
    · subst e; rw [hself] at hx; cases hx
    · rw [hoth u e] at hx; exact h.want u b1 off1 s1 old1 hx
  · intro u b1 off1 s1 ph1 hx
    by_cases e : u = t
    · subst e
      rw [hself] at hx
      injection hx with e1 e2 e3 _
      subst e1 e2 e3
      exact ⟨hoff, hslt, ha2⟩
    · rw [hoth u e] at hx
      obtain ⟨g1, g2, g3⟩ := h.own u b1 off1 s1 ph1 hx
      refine ⟨g1, g2, (ha3 _ _ _ ?_).2 g3⟩
      rintro ⟨e1, e2⟩
      subst e2
      exact hno u b1 off1 ph1 hx e1
  · intro u b1 off1 s1 ph1 hx
    by_cases e : u = t
    · subst e
      rw [hself] at hx
      injection hx with e1 e2 e3 e4
      subst e1 e2 e3 e4
      by_cases ho : old = some b
      · rw [if_pos ho]; trivial
      · rw [if_neg ho]
        refine ⟨ho, fun o hoo k hk => ?_⟩
        rw [edata]
        exact h.good _ _ _ ((ha1 o).2 hoo) hnf k hk
    · rw [hoth u e] at hx
      have hI := h.phase u b1 off1 s1 ph1 hx
      cases ph1 with
      | del old =>
        refine ⟨hI.1, fun x hx k hk => ?_⟩
        rw [edata]; exact hI.2 x hx k hk
      | numaCopy i s' k =>
        obtain ⟨a1, a2, a3, a4, a5⟩ := hI
        refine ⟨a1, a2, a3, (ha3 _ _ _ ?_).2 a4, by unfold Prefix; rw [edata]; exact a5⟩
        rintro ⟨e1, e2⟩
        have := (h.lk (P.dom t, s) (.user u)).2 (by rw [hx, ← e1, ← e2]; exact .inr rfl)
        rw [hl] at this; cases this
      | xfer e => exact ⟨fun hm e' he => hsrc _ _ (hI.1 hm e' he), hI.2⟩
      | copy e k => exact ⟨hI.1, hsrc _ _ hI.2.1, by unfold Prefix; rw [edata]; exact hI.2.2⟩
      | recv buf k => exact ⟨hI.1, hI.2.1, by unfold Prefix; rw [edata]; exact hI.2.2⟩
      | load k => unfold PhInv Prefix; rw [edata]; exact hI
      | _ => exact hI
  · intro d1 s1 b1 hA hF k hk
    rw [edata]
    by_cases hne : d1 = P.dom t ∧ s1 = s
    · obtain ⟨rfl, rfl⟩ := hne
      by_cases ho : old = some b
      · have : b1 = b := by
          rcases hA with ⟨u, b2, off2, hx, hd⟩ | ⟨_, hi⟩
          · by_cases e : u = t
            · subst e; rw [hself] at hx; cases hx
            · rw [hoth u e] at hx; exact absurd (h.want_unique hx hp hd) e
          · unfold Idx at hi hidx; rw [ecl, hidx] at hi
            exact (Option.some.inj (Option.some.inj hi)).symm
        subst this
        exact h.good _ _ _ ((ha1 b1).2 ho) hnf k hk
      · exact absurd ⟨t, b, off, _, hself, rfl, by rw [if_neg ho]; rfl⟩ hF
    · exact h.good _ _ _ ((ha3 _ _ _ hne).1 hA) (fun hx => hF ((hf3 _ _ hne).2 hx)) k hk
  · intro r u b1 i s1 k buf hx
    rw [hcom] at hx
    obtain ⟨g1, g2, g3, g4⟩ := h.send r u b1 i s1 k buf hx
    refine ⟨g1, g2, (ha3 _ _ _ ?_).2 g3, g4⟩
    rintro ⟨e1, e2⟩
    have := (h.lk (P.dom t, s) (.comm r)).2 (by rw [hx, ← e1, ← e2]; rfl)
    rw [hl] at this; cases this
  · intro r u b1 hx
    rw [hcom] at hx
    obtain ⟨⟨off1, s1, h1⟩, h2⟩ := h.req r u b1 hx
    have e : u ≠ t := by intro e; subst e; rw [hp] at h1; cases h1
    exact ⟨⟨off1, s1, (hoth u e).trans h1⟩, by rw [ebox]; exact h2⟩
  · intro u m hx
    rw [ebox] at hx
    obtain ⟨b1, off1, s1, r, h1, h2⟩ := h.box u m hx
    have e : u ≠ t := by intro e; subst e; rw [hp] at h1; cases h1
    exact ⟨b1, off1, s1, r, (hoth u e).trans h1, h2⟩
  · rw [enet]; exact h.net
  · intro hm
    have hw := h.win hm
    constructor
    · intro b1
      obtain ⟨L, h1, h2, h3, h4⟩ := hw.dir b1
      refine ⟨L, by rw [edir]; exact h1, h2, h3, fun e1 he1 => ?_⟩
      rcases h4 e1 he1 with g | ⟨u, off1, s1, ph1, hx, hlt, he, hlf⟩
      · exact .inl (hsrc _ _ g)
      · have e : u ≠ t := by intro e; subst e; rw [hp] at hx; cases hx
        exact .inr ⟨u, off1, s1, ph1, (hoth u e).trans hx, hlt, he, hlf⟩
    · intro u b1 off1 s1 ph1 hx hun
      rw [edir]
      by_cases e : u = t
      · subst e
        rw [hself] at hx
        injection hx with e1 e2 e3 e4
        subst e1 e2 e3 e4
        have ho : old ≠ some b := by intro ho; rw [if_pos ho] at hun; cases hun
        obtain ⟨L, h1, h2, h3, h4⟩ := hw.dir b
        rw [h1, enc_mem]
        intro hin
        rcases h4 _ hin with ⟨d2, s2, hlt, he, hA⟩ | ⟨v, off2, s2, ph2, hy, hlt, he, _⟩
        · obtain ⟨e1, e2⟩ := entry_inj hD hslt hlt he
          subst e1 e2
          rcases hA with ⟨hA, _⟩ | ⟨v, b2, off2, hy, hd⟩
          · exact ho ((ha1 b).1 hA)
          · exact hno v _ _ _ hy hd
        · obtain ⟨e1, e2⟩ := entry_inj hD hslt hlt he
          subst e2
          exact hno v _ _ _ hy e1.symm
      · rw [hoth u e] at hx
        exact hw.fresh u b1 off1 s1 ph1 hx hun

/-- A step of a communication thread. -/
theorem comm_frame (h : DistInv P st) {r : Nat} {p : Pc β} (epc : st'.pc = upd st.pc (.comm r) p)
    (ecl : st'.cl = st.cl) (edata : st'.data = st.data) (edir : P.mode = .window → st'.dir = st.dir)
    (enet : P.mode ≠ .thread → st'.net = st.net) (edl : st'.dl = st.dl) (eblk : st'.blk = st.blk)
    (cm : ∀ d a, st'.cm d = some a ↔ CmOf P a (upd st.pc (.comm r) p a) d)
    (lk : ∀ k a, st'.lk k = some a ↔ LkOf P a (upd st.pc (.comm r) p a) k)
    (hk1 : ∀ b off, p ≠ .wantCm b off) (hk2 : ∀ b off s old, p ≠ .wantSlot b off s old)
    (hk3 : ∀ b off s ph, p ≠ .own b off s ph)
    (send : ∀ t b i s k buf, p = .send t b i s k buf →
      i < P.domains ∧ s < P.size ∧ Assigned P st (r * P.domains + i) s b ∧
        ∀ j, j < k → P.valid b j → buf j = P.file b j)
    (tryc : ∀ t b i, p = .tryCm t b i → i < P.domains)
    (req : ∀ r' t b, (∃ i, st'.pc (.comm r') = .tryDom t b i) ∨ (∃ i, st'.pc (.comm r') = .tryCm t b i) ∨
      (∃ i s k buf, st'.pc (.comm r') = .send t b i s k buf) →
      (∃ off s, st.pc (.user t) = .own b off s (.ask r')) ∧ st'.box t = none)
    (box : ∀ t m, st'.box t = some m → ∃ b off s r, st.pc (.user t) = .own b off s (.ask r) ∧
      ∀ buf, m = some buf → ∀ j, P.valid b j → buf j = P.file b j) : DistInv P st' := by
  have hus : ∀ u, st'.pc (.user u) = st.pc (.user u) := fun u => by rw [epc, upd_cu]
  rw [← epc] at cm lk
  refine h.frame (assigned_frame ecl (fun u b1 off1 s1 old => by rw [hus])) ?_ ?_ edata edir enet
    (by rw [ecl]; exact h.lists) cm lk ?_ ?_ ?_ ?_ ?_ ?_ ?_ ?_ ?_ ?_
  · intro u b1 off1 s1 ph hx; rw [hus] at hx; exact hx
  · intro u b1 off1 s1 ph hx; rw [hus]; exact .inl hx
  · intro b1 a
    rw [edl, h.dl, epc]
    cases a with
    | user u => rw [upd_cu]
    | comm q => simp [DlOf]
  · intro b1 a
    rw [eblk, h.blk, epc]
    cases a with
    | user u => rw [upd_cu]
    | comm q => simp [BlkOf]
  · intro u; rw [hus]; exact h.kind u
  · intro q
    by_cases e : q = r
    · subst e; rw [epc, upd_self]; exact ⟨hk1, hk2, hk3⟩
    · rw [epc, upd_cc e]; exact h.kindC q
  · intro u b1 off1 hx; rw [hus] at hx; exact h.wantc u b1 off1 hx
  · intro u b1 off1 s1 old hx
    rw [hus] at hx; unfold Idx; rw [ecl]; exact h.want u b1 off1 s1 old hx
  · intro q u b1 i s1 k buf hx
    by_cases e : q = r
    · subst e; rw [epc, upd_self] at hx; exact send u b1 i s1 k buf hx
    · rw [epc, upd_cc e] at hx; exact h.send q u b1 i s1 k buf hx
  · intro q u b1 i hx
    by_cases e : q = r
    · subst e; rw [epc, upd_self] at hx; exact tryc u b1 i hx
    · rw [epc, upd_cc e] at hx; exact h.tryc q u b1 i hx
  · intro q u b1 hx
    obtain ⟨⟨off1, s1, h1⟩, h2⟩ := req q u b1 hx
    exact ⟨⟨off1, s1, by rw [hus]; exact h1⟩, h2⟩
  · intro u m hx
    obtain ⟨b1, off1, s1, q, h1, h2⟩ := box u m hx
    exact ⟨b1, off1, s1, q, by rw [hus]; exact h1, h2⟩

/-- The thread and block of the request that is answered. -/
def commReq : Pc β → Option (Nat × Nat)
  | .tryDom t b _ | .tryCm t b _ | .send t b _ _ _ _ => some (t, b)
  | _ => none

theorem commReq_iff {p : Pc β} {t b : Nat} : commReq p = some (t, b) ↔
    (∃ i, p = .tryDom t b i) ∨ (∃ i, p = .tryCm t b i) ∨ (∃ i s k buf, p = .send t b i s k buf) := by
  cases p <;> simp [commReq]

/-- A step of a communication thread for the same request. -/
theorem comm_same (h : DistInv P st) {r : Nat} {p : Pc β} (epc : st'.pc = upd st.pc (.comm r) p)
    (ecl : st'.cl = st.cl) (edata : st'.data = st.data) (edir : st'.dir = st.dir)
    (enet : st'.net = st.net) (edl : st'.dl = st.dl) (eblk : st'.blk = st.blk)
    (ebox : st'.box = st.box)
    (cm : ∀ d a, st'.cm d = some a ↔ CmOf P a (upd st.pc (.comm r) p a) d)
    (lk : ∀ k a, st'.lk k = some a ↔ LkOf P a (upd st.pc (.comm r) p a) k)
    (hk1 : ∀ b off, p ≠ .wantCm b off) (hk2 : ∀ b off s old, p ≠ .wantSlot b off s old)
    (hk3 : ∀ b off s ph, p ≠ .own b off s ph)
    (send : ∀ t b i s k buf, p = .send t b i s k buf →
      i < P.domains ∧ s < P.size ∧ Assigned P st (r * P.domains + i) s b ∧
        ∀ j, j < k → P.valid b j → buf j = P.file b j)
    (tryc : ∀ t b i, p = .tryCm t b i → i < P.domains)
    (req : ∀ t b, commReq p = some (t, b) → commReq (st.pc (.comm r)) = some (t, b)) :
    DistInv P st' := by
  refine h.comm_frame epc ecl edata (fun _ => edir) (fun _ => enet) edl eblk cm lk hk1 hk2 hk3 send tryc
    ?_ (by rw [ebox]; exact h.box)
  intro q u b1 hx
  rw [← commReq_iff] at hx
  rw [ebox]
  refine h.req q u b1 (commReq_iff.1 ?_)
  by_cases e : q = r
  · subst e; rw [epc, upd_self] at hx; exact req u b1 hx
  · rw [epc, upd_cc e] at hx; exact hx

/-- A communication thread answers. -/
theorem comm_reply (h : DistInv P st) {r t b : Nat} {p : Pc β} {m : Option (Nat → β)}
    (epc : st'.pc = upd st.pc (.comm r) p)
    (ecl : st'.cl = st.cl) (edata : st'.data = st.data) (edir : st'.dir = st.dir)
    (enet : st'.net = st.net) (edl : st'.dl = st.dl) (eblk : st'.blk = st.blk)
    (ebox : st'.box = upd st.box t (some m))
    (cm : ∀ d a, st'.cm d = some a ↔ CmOf P a (upd st.pc (.comm r) p a) d)
    (lk : ∀ k a, st'.lk k = some a ↔ LkOf P a (upd st.pc (.comm r) p a) k)
    (hk1 : ∀ b off, p ≠ .wantCm b off) (hk2 : ∀ b off s old, p ≠ .wantSlot b off s old)
    (hk3 : ∀ b off s ph, p ≠ .own b off s ph) (hk4 : commReq p = none)
    (hreq : commReq (st.pc (.comm r)) = some (t, b))
    (hm : ∀ buf, m = some buf → ∀ j, P.valid b j → buf j = P.file b j) :
    DistInv P st' := by
  obtain ⟨⟨off, s, hpt⟩, hbt⟩ := h.req r t b (commReq_iff.1 hreq)
  refine h.comm_frame epc ecl edata (fun _ => edir) (fun _ => enet) edl eblk cm lk hk1 hk2 hk3
    (fun t' b' i s' k buf e => by rw [e] at hk4; cases hk4)
    (fun t' b' i e => by rw [e] at hk4; cases hk4) ?_ ?_
  · intro q u b1 hx
    rw [← commReq_iff] at hx
    by_cases e : q = r
    · subst e; rw [epc, upd_self, hk4] at hx; cases hx
    · rw [epc, upd_cc e] at hx
      obtain ⟨⟨off1, s1, h1⟩, h2⟩ := h.req q u b1 (commReq_iff.1 hx)
      have hut : u ≠ t := by
        intro e1; subst e1
        rw [hpt] at h1; injection h1 with _ _ _ e4; injection e4 with e4; exact e e4.symm
      exact ⟨⟨off1, s1, h1⟩, by rw [ebox, upd_ne _ _ hut]; exact h2⟩
  · intro u m1 hx
    rw [ebox] at hx
    by_cases e : u = t
    · subst e
      rw [upd_self] at hx; injection hx with hx; subst hx
      exact ⟨b, off, s, r, hpt, hm⟩
    · rw [upd_ne _ _ e] at hx; exact h.box u m1 hx

/-- The slot from which a communication thread sends is complete. -/
theorem send_src (h : DistInv P st) {r t b i s k : Nat} {buf : Nat → β}
    (hp : st.pc (.comm r) = .send t b i s k buf) : Good P st (r * P.domains + i) s b := by
  refine h.good _ _ _ (h.send r t b i s k buf hp).2.2.1 (h.not_filling_of_lk ?_)
  intro u b1 off1 ph1 hx hd hf hl
  have := (h.lk (r * P.domains + i, s) (.comm r)).2 (by rw [hp]; rfl)
  rw [hl] at this; cases this

theorem comm_inv (h : DistInv P st) {r : Nat} (hs : CommStep P r st st') : DistInv P st' := by
  cases hs with
  | deliver _ _ src b op rest hp hn =>
    have ht : ¬ P.mode ≠ .thread := by intro hm; rw [h.net hm src r] at hn; cases hn
    have hw : P.mode ≠ .window := fun e => ht (by rw [e]; nofun)
    have e : st.pc = upd st.pc (.comm r) (.idle : Pc β) := by
      funext a
      by_cases ha : a = .comm r
      · subst ha; rw [upd_self]; exact hp
      · rw [upd_ne _ _ ha]
    refine h.comm_frame (r := r) (p := .idle) e rfl rfl (fun hm => absurd hm hw)
      (fun hm => absurd hm ht) rfl rfl (by rw [← e]; exact h.cm) (by rw [← e]; exact h.lk)
      nofun nofun nofun nofun nofun h.req h.box
  | accept _ _ t b off s hp hu hb =>
    refine h.comm_frame (r := r) (p := .tryDom t b 0) rfl rfl rfl (fun _ => rfl) (fun _ => rfl) rfl rfl
      ?_ ?_ nofun nofun nofun nofun nofun ?_ h.box
    · lk_auto h hp
    · lk_auto h hp
    · intro q u b1 hx
      rw [← commReq_iff] at hx
      replace hx : commReq (upd st.pc (.comm r) (.tryDom t b 0) (.comm q)) = _ := hx
      by_cases e : q = r
      · subst e
        rw [upd_self] at hx
        injection hx with hx; injection hx with e1 e2; subst e1 e2
        exact ⟨⟨off, s, hu⟩, hb⟩
      · rw [upd_cc e] at hx
        exact h.req q u b1 (commReq_iff.1 hx)
  | fail _ _ t b i hp hi =>
    refine h.comm_reply (t := t) (b := b) (m := none) (p := .idle) rfl rfl rfl rfl rfl rfl rfl rfl
      ?_ ?_ nofun nofun nofun rfl (by rw [hp]; rfl) nofun <;> lk_auto h hp
  | busy _ _ t b i hp hi hc =>
    refine h.comm_same (r := r) (p := .tryDom t b (i + 1)) rfl rfl rfl rfl rfl rfl rfl rfl
      ?_ ?_ nofun nofun nofun nofun nofun (fun t' b' e => by rw [hp]; exact e) <;> lk_auto h hp
  | «try» _ _ t b i hp hi hno hc =>
    refine h.comm_same (r := r) (p := .tryCm t b i) rfl rfl rfl rfl rfl rfl rfl rfl
      (lock_take h.cm _ _ _ hc (by intro k; rw [hp]; simp [CmOf])) ?_
      nofun nofun nofun nofun (fun _ _ _ e => by injection e with _ _ e; omega) (fun t' b' e => by rw [hp]; exact e)
    lk_auto h hp
  | miss _ _ t b i hp hc =>
    refine h.comm_same (r := r) (p := .tryDom t b (i + 1)) rfl rfl rfl rfl rfl rfl rfl rfl
      (lock_drop h.cm _ _ _ (by rw [hp]; rfl) (by intro k; rw [hp]; simp [CmOf])) ?_
      nofun nofun nofun nofun nofun (fun t' b' e => by rw [hp]; exact e)
    lk_auto h hp
  | hit _ _ t b i s hp hk hl =>
    obtain ⟨g1, g2⟩ := h.peek_idx hk
    have hcm := (h.cm (r * P.domains + i) (.comm r)).2 (by rw [hp]; rfl)
    refine h.comm_same (r := r) (p := .send t b i s 0 _) rfl rfl rfl rfl rfl rfl rfl rfl
      (lock_drop h.cm _ _ _ (by rw [hp]; rfl) (by intro k; rw [hp]; simp [CmOf]))
      (lock_take h.lk _ _ _ hl (by intro k; rw [hp]; simp [LkOf]))
      nofun nofun nofun ?_ nofun (fun t' b' e => by rw [hp]; exact e)
    intro t' b' i' s' k buf e
    injection e with e1 e2 e3 e4 e5 e6
    subst e1 e2 e3 e4 e5
    refine ⟨h.tryc r t b i hp, g1, .inr ⟨?_, g2⟩, fun j hj => by omega⟩
    intro u b2 off2 old2 hx hd
    have := (h.cm (P.dom u) (.user u)).2 (by rw [hx]; rfl)
    rw [hd, hcm] at this; cases this
  | cell _ _ t b i s k buf hp hk =>
    obtain ⟨g1, g2, g3, g4⟩ := h.send r t b i s k buf hp
    have hg := h.send_src hp k
    refine h.comm_same (r := r) (p := .send t b i s (k + 1) _) rfl rfl rfl rfl rfl rfl rfl rfl
      ?_ ?_ nofun nofun nofun ?_ nofun (fun t' b' e => by rw [hp]; exact e)
    · lk_auto h hp
    · lk_auto h hp
    intro t' b' i' s' k' buf' e
    injection e with e1 e2 e3 e4 e5 e6
    subst e1 e2 e3 e4 e5 e6
    refine ⟨g1, g2, g3, fun j hj hjc => ?_⟩
    by_cases hjk : j = k
    · subst hjk; rw [upd_self]; exact hg hjc
    · rw [upd_ne _ _ hjk]; exact g4 j (by omega) hjc
  | reply _ _ t b i s k buf hp hk =>
    obtain ⟨g1, g2, g3, g4⟩ := h.send r t b i s k buf hp
    refine h.comm_reply (t := t) (b := b) (m := some buf) (p := .sent i s) rfl rfl rfl rfl rfl rfl rfl rfl
      ?_ ?_ nofun nofun nofun rfl (by rw [hp]; rfl) ?_
    · lk_auto h hp
    · lk_auto h hp
    · intro buf' e j hj
      injection e with e; subst e
      exact g4 j (by have := hj.1; omega) hj
  | release _ _ i s hp =>
    refine h.comm_same (r := r) (p := .idle) rfl rfl rfl rfl rfl rfl rfl rfl ?_
      (lock_drop h.lk _ _ _ (by rw [hp]; rfl) (by intro k; rw [hp]; simp [LkOf]))
      nofun nofun nofun nofun nofun nofun
    lk_auto h hp

/-- Steps of users keep the invariant. -/
theorem user_inv (h : DistInv P st) (hD : 0 < P.domains) {t : Nat} (hs : UserStep P t st st') :
    DistInv P st' := by
  have hs' := hs
  cases hs with
  | call _ _ b off hp ho => exact h.call_inv hp ho
  | lookup _ _ b off s c' old hp hc hg => exact h.lookup_inv hp hc hg
  | lockSlot _ _ b off s old hp hl => exact h.lockSlot_inv hD hp hl
  | unlock _ _ b off s v hp => exact h.unlock_inv hp
  | _ =>
    refine h.own_inv hD (by assumption) hs' ?_
    simp [DistState.goto]

theorem step (h : DistInv P st) (hD : 0 < P.domains) (hs : DistStep P st st') : DistInv P st' := by
  cases hs with
  | user t hs => exact h.user_inv hD hs
  | comm r hs => exact h.comm_inv hs

/-- The invariant holds in all reachable states. -/
theorem reach (hD : 0 < P.domains) (hS : 0 < P.size) (hd : P.handDiff < P.size)
    (h : DistReach P st) : DistInv P st := by
  refine Reachable.invariant (I := fun s : DistState β => DistInv P s) ?_ ?_ h
  · rintro s ⟨c, hc, rfl⟩; exact DistInv.start hS hd hc
  · intro s t hI hst; exact hI.step hD hst

end DistInv
end Asagi
