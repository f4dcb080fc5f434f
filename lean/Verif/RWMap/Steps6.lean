import Verif.RWMap.Steps5
/-!
# Preservation of the invariant: steps that make entries unreachable
-/
namespace Verif.RWMap
variable {K V : Type} [DecidableEq K] [Inhabited V]
variable {eqv : V → V → Option Bool} {prog : Nat → Op K V}
variable {i : Nat} {s : State K V} {g : Ghost K V}

theorem Inv.inv_mem (I : Inv eqv prog s g) {j : Nat} (h : s.pc j ≠ .idle) : .inv j ∈ g.L := by
  have hp := I.tl.tl j
  have : TE.inv j ∈ proj j g.L := by
    unfold OpTL at hp
    split at hp
    · unfold RngTL at hp
      split at hp
      next hc => exact absurd hc h
      next => rw [hp]; simp
      next => rw [hp]; simp
      next => obtain ⟨rest, h1, _⟩ := hp; rw [h1]; simp
      next => obtain ⟨rest, _, _, _, _, h1, _⟩ := hp; rw [h1]; simp
      next => obtain ⟨rest, _, _, _, _, h1, _⟩ := hp; rw [h1]; simp
      next => exact hp.elim
      next => rw [hp]; simp
    · split at hp
      next hc => exact absurd hc h
      next => rw [hp]; simp
      next => rw [hp]; simp
    · rw [hp]
      have hpend : ∀ t, TE.inv j ∈ pend prog s.sh g j t := by
        intro t
        unfold pend
        split
        · split <;> simp
        · simp
      unfold evs
      split
      next hc => exact absurd hc h
      all_goals first | simp; done | exact hpend _
  exact (mem_proj.1 this).1

theorem Inv.lin_mem (I : Inv eqv prog s g) {e j : Nat} (h : g.orph e = some (.lin j)) :
    ∃ r, TE.lin j r ∈ proj j g.L := by
  obtain ⟨k, L1, y, L2, _, hL, ⟨r, rfl⟩, _⟩ := I.tl.pos e _ h
  exact ⟨r, mem_proj.2 ⟨by rw [hL]; simp, rfl⟩⟩

theorem touches_idle {c : PC K V} {e : Nat} (h : c.touches e) : c ≠ .idle := by
  rintro rfl
  cases h

open Classical in
/-- A step of the holder of the mutex after which the entries in `N` are unreachable. -/
theorem Inv.orphan (I : Inv eqv prog s g) {h' : Sh K} {c c' : PC K V} {x : TE K V} {p : Pos}
    {N : Nat → Prop} {pub' : Nat → Prop} {cuts' : Nat} {s' : State K V} {g' : Ghost K V}
    (hc : s.pc i = c) (hl : c.locked = true) (hl' : c'.locked = true)
    (hs' : s' = { s with sh := h' }.goto i c')
    (hg' : g' = { g with L := g.L ++ [x], pub := pub', cuts := cuts'
                         orph := fun e => if N e then some p else g.orph e })
    (hx : IsPos x p) (hp : p = .lin i ∨ ∃ n, p = .cut n)
    (hpf : ∀ e, g.orph e ≠ some p)
    (hN : ∀ e, N e → ∃ k, cur s.sh k = some e)
    (hpub : ∀ e, g.pub e → pub' e) (hpub' : ∀ e q, g.orph e = some q → pub' e → g.pub e)
    (hcore : Core h' c'.remaining g')
    (hcur : ∀ k e, cur s.sh k = some e → cur h' k = some e ∨ N e)
    (hent : h'.ent = s.sh.ent) (hfr : h'.fresh = s.sh.fresh) (hmu : h'.mu = s.sh.mu)
    (hok : okE eqv prog x (curv prog s.sh)) (happ : app eqv prog x (curv prog s.sh) = curv prog h')
    (holin : ∀ e, N e → ∀ j, p = .lin j → prog j = .clear ∨
      ∃ k, prog j = .loadAndDelete k ∧ g.key e = some k ∧ ¬ pub' e ∧ (s'.pc j).target = some e)
    (htgt : ∀ e, g.orph e = some (.lin i) → prog i = .clear ∨ c'.target = some e)
    (hxr : ∀ e, N e → ∀ j r, x = .lin j r → prog j ≠ .clear → r = .opt (vl prog s.sh e))
    (htouch : ∀ e q, g.orph e = some q → c'.touches e → c.touches e)
    (hop : Ext i s s' g g' → OpOk eqv prog s' g' i)
    (hi : OpTL prog h' g' i c' (proj i g.L ++ proj i [x])) : Inv eqv prog s' g' := by
  have hmi := I.str.holder hc hl
  have hNo : ∀ e, N e → g.orph e = none := by
    intro e he
    obtain ⟨k, hk⟩ := hN e he
    exact (I.str.core.cur_key hk).2.2
  have horph : ∀ e, g'.orph e = if N e then some p else g.orph e := by intro e; rw [hg']
  have horo : ∀ e q, g.orph e = some q → g'.orph e = some q := by
    intro e q he
    rw [horph, if_neg, he]
    intro h; rw [hNo e h] at he; cases he
  have hkey : g'.key = g.key := by rw [hg']
  have hpubs : g'.pub = pub' := by rw [hg']
  have hsh : s'.sh = h' := by rw [hs']; rfl
  have hpc : ∀ j, j ≠ i → s'.pc j = s.pc j := by
    intro j hj; rw [hs', goto_pc_ne _ _ hj]
  have hpci : s'.pc i = c' := by rw [hs', goto_pc_self]
  have hvl : vl prog h' = vl prog s.sh := vl_congr hent
  have ext : Ext i s s' g g' := by
    refine { key := by rw [hkey]; exact fun _ _ h => h
             fresh := by rw [hsh, hfr]; exact Nat.le_refl _
             pub := by rw [hpubs]; exact hpub
             orph := fun e q he => ⟨q, horo e q he⟩
             olin := fun e j _ he => horo e _ he
             cur := ?_, pc := hpc, lock := Or.inl (I.str.unlocked hmi) }
    intro k e he
    rw [hsh]
    rcases hcur k e he with h | h
    · exact Or.inl h
    · exact Or.inr ⟨p, by rw [horph, if_pos h]⟩
  refine I.of_step ext ⟨?_, ?_, ?_, ?_⟩ (hop ext) ?_
  · have : remaining s' = c'.remaining := by
      simp only [remaining, hsh, hmu, hmi, hpci]
    rw [this, hsh]
    exact hcore
  · rw [hsh, hs']; exact mu_same I.str hc (by rw [hl, hl']) hmu
  · intro e j he
    rw [hkey, hpubs]
    rw [horph] at he
    split at he
    next hNe => cases he; exact holin e hNe j rfl
    next hNe =>
      by_cases hj : j = i
      · subst hj
        rcases I.str.olin e j he with h | ⟨k, h1, h2, h3, h4⟩
        · exact Or.inl h
        · rcases htgt e he with h | h
          · exact Or.inl h
          · exact Or.inr ⟨k, h1, h2, fun h => h3 (hpub' e _ he h), by rw [hpci]; exact h⟩
      · rw [hpc j hj]
        rcases I.str.olin e j he with h | ⟨k, h1, h2, h3, h4⟩
        · exact Or.inl h
        · exact Or.inr ⟨k, h1, h2, fun h => h3 (hpub' e _ he h), h4⟩
  · intro e e' q h1 h2 h3
    rw [hkey] at h3
    rw [horph] at h1 h2
    split at h1
    next hNe =>
      split at h2
      next hNe' =>
        obtain ⟨k, hk⟩ := hN e hNe
        obtain ⟨k', hk'⟩ := hN e' hNe'
        have a1 := (I.str.core.cur_key hk).1
        have a2 := (I.str.core.cur_key hk').1
        rw [a1, a2] at h3
        cases h3
        exact Option.some.inj (hk.symm.trans hk')
      next => cases h1; exact absurd h2 (hpf e')
    next =>
      split at h2
      next => cases h2; exact absurd h1 (hpf e)
      next => exact I.str.oinj e e' q h1 h2 h3
  · refine I.tl.append (xs := [x]) (by rw [hg']) ?_ ⟨hok, trivial⟩ ?_ hpc ?_ ?_ ?_ ?_
    · intro y hy
      simp only [List.mem_singleton] at hy
      subst hy
      rcases hp with rfl | ⟨n, rfl⟩
      · exact Or.inl hx.owner
      · exact Or.inr ⟨n, hx⟩
    · intro k
      simp only [run, happ, hsh]
    · intro e q he
      rw [horph] at he
      split at he
      next hNe =>
        cases he
        left
        obtain ⟨k, hk⟩ := hN e hNe
        refine ⟨k, g.L, x, [], by rw [hkey]; exact (I.str.core.cur_key hk).1, by rw [hg'], hx, ?_, ?_, ?_⟩
        · rw [I.tl.st k, hsh, hvl]
          exact curv_of_cur hk
        · intro j hj
          refine I.inv_mem ?_
          by_cases hji : j = i
          · subst hji
            rw [hc]
            rintro rfl
            cases hl
          · rw [hpc j hji] at hj
            exact touches_idle hj
        · intro j r hj hcl
          rw [hsh, hvl]
          exact hxr e hNe j r hj hcl
      next hNe =>
        right
        refine ⟨he, by rw [hkey], by rw [hsh, hvl], ?_⟩
        rw [hpci, hc]
        exact htouch e q he
    · intro e j hj
      rw [horph]
      split
      next hNe =>
        rw [hNo e hNe]
        rcases hp with rfl | ⟨n, rfl⟩
        · simp [Ne.symm hj]
        · simp
      next => rfl
    · intro e j _ _ _
      rw [hsh, hvl]
    · rw [hsh, hpci]
      exact hi

theorem Inv.promoStep (I : Inv eqv prog s g) {nx : Nx K V} (hc : s.pc i = .promo nx) :
    Good eqv prog g ({ s with sh := { s.sh with read := ⟨s.sh.dirty.getD [], false⟩, dirty := none,
                                                misses := 0 } }.goto i (.unl nx)) [] := by
  have ho := I.ops i
  simp only [OpOk, hc] at ho
  obtain ⟨ham, hnx, hrng⟩ := ho
  have hcore : Core s.sh [] g := I.coreOf hc rfl
  obtain ⟨d, hd⟩ := Option.ne_none_iff_exists'.1 (hcore.amd ham)
  simp only [hd, Option.getD_some]
  have hcp := hcore.promote hd
  have hcur' : ∀ k, cur { s.sh with read := ⟨d, false⟩, dirty := none, misses := 0 } k = aget d k :=
    fun k => cur_notAmended rfl k
  have hcur : ∀ k e, cur s.sh k = some e → aget d k = some e ∨
      s.sh.ent e = .exp ∧ ∃ k, aget s.sh.read.m k = some e := by
    intro k e hk
    cases hr : aget s.sh.read.m k with
    | some e' =>
      rw [cur_read hr] at hk
      cases hk
      by_cases hx : s.sh.ent e = .exp
      · exact Or.inr ⟨hx, k, hr⟩
      · left; rw [hcore.con d hd k e hr (by simp), if_neg hx]
    | none =>
      left
      simpa [cur, hr, ham, hd] using hk
  have hcv : curv prog s.sh = curv prog { s.sh with read := ⟨d, false⟩, dirty := none, misses := 0 } := by
    funext k
    simp only [curv, hcur']
    cases hk : cur s.sh k with
    | none =>
      cases hdk : aget d k with
      | none => rfl
      | some e => rw [hcore.dirty_cur hd hdk ham] at hk; cases hk
    | some e =>
      rcases hcur k e hk with h | ⟨h1, h2⟩
      · rw [h]; rfl
      · cases hdk : aget d k with
        | none => simp [vl, h1, deref]
        | some e' =>
          rw [hcore.dirty_cur hd hdk ham] at hk
          cases hk; rfl
  refine ⟨_, I.orphan (x := .cut g.cuts) (p := .cut g.cuts)
    (N := fun e => s.sh.ent e = .exp ∧ ∃ k, aget s.sh.read.m k = some e) hc rfl rfl rfl rfl rfl
    (Or.inr ⟨_, rfl⟩) ?_ ?_ ?_ ?_ (hcp.ghost rfl rfl (by funext x; simp only; congr) rfl) ?_ rfl rfl rfl trivial ?_ ?_ ?_ ?_ ?_ ?_ ?_, ?_⟩
  · intro e he
    exact absurd (hcore.ocut e _ he).1 (Nat.lt_irrefl _)
  · rintro e ⟨_, k, hk⟩
    exact ⟨k, cur_read hk⟩
  · intro e he; exact Or.inl he
  · rintro e q he (h | ⟨k, hk⟩)
    · exact h
    · rw [(hcore.dkey d hd k e hk).2.2.1] at he; cases he
  · intro k e he
    rw [hcur']
    exact hcur k e he
  · exact hcv
  · intro e _ j h; cases h
  · intro e he
    rcases I.str.olin e i he with h | ⟨_, _, _, _, h⟩
    · exact Or.inl h
    · rw [hc] at h; right; cases nx <;> exact h
  · intro e _ j r h; cases h
  · intro e q _ h; cases nx <;> exact h
  · intro x
    simp only [OpOk, goto_pc_self]
    cases nx with
    | ent e =>
      obtain ⟨h1, k, hk⟩ := hnx
      refine ⟨h1, k, { key := hk.key, ekey := hk.ekey, lt := hk.lt, un := ?_
                       loc := fun h => absurd rfl h, lm := fun h => by cases h }⟩
      intro _
      obtain ⟨h2, h3⟩ := hk.un rfl
      refine ⟨x.held h2, ?_⟩
      rcases h3 with h3 | h3 | ⟨h3, h4⟩
      · exact Or.inl (Or.inl h3)
      · exact Or.inr (Or.inl h3)
      · refine Or.inr (Or.inr ⟨h3, ?_⟩)
        simp only
        rw [if_neg, h4]
        rintro ⟨_, k', hk'⟩
        rw [(hcore.rkey k' e hk').2.2.2] at h4; cases h4
    | rng m => exact ⟨hnx.1, x.rngOk hnx.2⟩
    | res r => exact hnx
  · have hp := I.tl.tl i
    rw [hc] at hp
    have hcut : proj i [TE.cut (K := K) (V := V) g.cuts] = [] := rfl
    rw [hcut, List.append_nil]
    have : OpTL prog s.sh g i (.unl nx) (proj i g.L) := by
      unfold OpTL at hp ⊢
      split at hp
      · cases nx <;> exact hp
      · exact hp
      · rw [hp]; cases nx <;> rfl
    refine opTL_congr ?_ (fun _ _ _ => rfl) this
    intro e
    simp only
    split
    next h =>
      obtain ⟨_, k', hk'⟩ := h
      rw [(hcore.rkey k' e hk').2.2.2]
      simp
    next => rfl
  · simp [hist_append, hist, TE.ev?]

theorem Inv.wipeStep (I : Inv eqv prog s g) (hc : s.pc i = .wipe) :
    Good eqv prog g ({ s with sh := { s.sh with read := ⟨[], false⟩
                                                dirty := s.sh.dirty.map (fun _ => []),
                                                misses := 0 } }.goto i .zero) [] := by
  have hop := I.ops i
  simp only [OpOk, hc] at hop
  have hm : (prog i).isMap = true := by rw [hop]; rfl
  have hcore : Core s.sh [] g := I.coreOf hc rfl
  have hcw := hcore.wipe i
  have hev := I.map_evs hc hm
  refine ⟨_, I.orphan (x := .lin i .unit) (p := .lin i)
    (N := fun e => ∃ k, cur s.sh k = some e) (pub' := g.pub) (cuts' := g.cuts) hc rfl rfl rfl rfl
    ⟨_, rfl⟩ (Or.inl rfl) ?_ (fun e h => h) (fun e h => h) (fun e q _ h => h)
    (hcw.ghost rfl rfl rfl rfl) ?_ rfl rfl rfl ?_ ?_ ?_ ?_ ?_ ?_ ?_ ?_, ?_⟩
  · intro e he
    obtain ⟨r, hr⟩ := I.lin_mem he
    rw [hev] at hr
    simp [evs, pend, PC.target] at hr
  · intro k e he
    exact Or.inr ⟨k, he⟩
  · simp [okE, hop, apply]
  · simp only [app, hop, apply]
    funext k
    simp [AMap.empty, curv, cur, aget]
  · intro e _ j h
    cases h
    exact Or.inl hop
  · intro e _; exact Or.inl hop
  · intro e _ j r h hcl
    cases h
    exact absurd hop hcl
  · intro e q _ h; cases h
  · intro x
    simp only [OpOk, goto_pc_self]
    exact hop
  · rw [opTL_map hm, hev]
    simp [evs, pend, PC.target, proj, TE.owner]
  · simp [hist_append, hist, TE.ev?]

/-- `LoadAndDelete` removes an entry from `dirty`. -/
theorem Inv.ladDel (I : Inv eqv prog s g) (hc : s.pc i = .crit) {k : K} {e : Nat}
    {d : List (K × Nat)} {h' : Sh K} {c' : PC K V} (hop : prog i = .loadAndDelete k)
    (hd : s.sh.dirty = some d) (ham : s.sh.read.amended = true) (hr : aget s.sh.read.m k = none)
    (hk : aget d k = some e) (h1 : h'.read = s.sh.read) (h2 : h'.dirty = some (adel d k))
    (h3 : h'.ent = s.sh.ent) (h4 : h'.fresh = s.sh.fresh) (h5 : h'.mu = s.sh.mu)
    (hc' : c' = .unl (.ent e) ∨ c' = .promo (.ent e)) :
    Good eqv prog g ({ s with sh := h' }.goto i c') [] := by
  have hm : (prog i).isMap = true := by rw [hop]; rfl
  have hcore : Core s.sh [] g := I.coreOf hc rfl
  have hcd := hcore.del hd ham hr i
  have hev := I.map_evs hc hm
  have hdk := hcore.dkey d hd k e hk
  have hce := hcore.dirty_cur hd hk ham
  have hcur : ∀ k', cur h' k' = if k' = k then none else cur s.sh k' := by
    intro k'
    simp only [cur, h1, h2, hd, ham, if_true, Option.getD_some, aget_adel]
    by_cases hkk : k' = k
    · subst hkk; simp [hr]
    · simp [hkk, Ne.symm hkk]
  have hrem : c'.remaining = [] := by rcases hc' with rfl | rfl <;> rfl
  have htg : c'.target = some e := by rcases hc' with rfl | rfl <;> rfl
  have hNeq : ∀ x, (aget d k = some x) = (x = e) := by
    intro x; rw [hk]; simp only [Option.some.injEq]; exact propext ⟨Eq.symm, Eq.symm⟩
  have hevc : ∀ h g', evs prog h g' i c' = pend prog h g' i (some e) := by
    intro h g'; rcases hc' with rfl | rfl <;> rfl
  refine ⟨_, I.orphan (x := .lin i (.opt (vl prog s.sh e))) (p := .lin i)
    (N := fun x => x = e) (pub' := g.pub) (cuts' := g.cuts) hc rfl ?_ rfl rfl
    ⟨_, rfl⟩ (Or.inl rfl) ?_ ?_ (fun e h => h) (fun e q _ h => h)
    ?_ ?_ h3 h4 h5 ?_ ?_ ?_ ?_ ?_ ?_ ?_ ?_, ?_⟩
  · rcases hc' with rfl | rfl <;> rfl
  · intro e he
    obtain ⟨r, hr⟩ := I.lin_mem he
    rw [hev] at hr
    simp [evs, pend, PC.target] at hr
  · rintro x rfl
    exact ⟨k, hce⟩
  · rw [hrem]
    have := hcd.congr (h' := h') h1 h2 h3 h4
    simp only [hNeq] at this
    refine this.ghost rfl rfl ?_ rfl
    funext x
    simp only
    congr
  · intro k' e' he'
    rw [hcur]
    split
    next h =>
      subst h
      rw [hce] at he'
      cases he'
      exact Or.inr rfl
    next => exact Or.inl he'
  · simp only [okE, hop, apply, curv_of_cur hce]
  · simp only [app, hop, apply]
    funext k'
    simp only [curv, hcur, AMap.set, vl_congr h3]
    split <;> rfl
  · intro x hx j h
    subst hx
    cases h
    refine Or.inr ⟨k, hop, hdk.1, hdk.2.2.2.2 hr, ?_⟩
    rw [goto_pc_self, htg]
  · intro x hx
    obtain ⟨r, hr⟩ := I.lin_mem hx
    rw [hev] at hr
    simp [evs, pend, PC.target] at hr
  · intro x hx j r h _
    subst hx
    cases h; rfl
  · intro x q hq h
    have : x = e := by
      rcases hc' with rfl | rfl
      · exact (Option.some.inj h).symm
      · exact (Option.some.inj h).symm
    subst this
    rw [hdk.2.2.1] at hq; cases hq
  · intro x
    have hE : EntOk prog ({ s with sh := h' }.goto i c')
        { g with L := g.L ++ [.lin i (.opt (vl prog s.sh e))], pub := g.pub, cuts := g.cuts
                 orph := fun x => @ite _ (x = e) (Classical.propDecidable _) (some (.lin i)) (g.orph x) }
        i e .u k :=
      { key := by rw [hop]; rfl, ekey := hdk.1, lt := by simp only [goto_sh]; rw [h4]; exact hdk.2.1
        un := fun _ => ⟨Or.inr ⟨.lin i, by simp⟩, Or.inr (Or.inr ⟨hop, by simp⟩)⟩
        loc := fun h => absurd rfl h, lm := fun h => by cases h }
    rcases hc' with rfl | rfl
    · simp only [OpOk, goto_pc_self]
      exact ⟨Or.inr ⟨k, hop⟩, k, hE⟩
    · simp only [OpOk, goto_pc_self]
      refine ⟨by simp only [goto_sh]; rw [h1]; exact ham, ⟨Or.inr ⟨k, hop⟩, k, hE⟩, fun m h => by cases h⟩
  · rw [opTL_map hm, hev, hevc]
    simp [evs, pend, PC.target, proj, TE.owner, vl_congr h3]
  · simp [hist_append, hist, TE.ev?]
end Verif.RWMap
