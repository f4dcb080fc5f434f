import Verif.RWMap.Steps2
/-!
# Preservation of the invariant: accessing entries
-/
namespace Verif.RWMap
variable {K V : Type} [DecidableEq K] [Inhabited V]
variable {eqv : V → V → Option Bool} {prog : Nat → Op K V}
variable {i : Nat} {s : State K V} {g : Ghost K V}

theorem setEnt_self (h : Sh K) (e : Nat) : h.setEnt e (h.ent e) = h := by
  unfold Sh.setEnt
  have : (fun x => if x = e then h.ent e else h.ent x) = h.ent := by
    funext x; split
    next hx => rw [hx]
    next => rfl
  rw [this]

theorem set_self {A : AMap K V} {k : K} {o : Option V} (h : A k = o) : A.set k o = A := by
  funext x
  simp only [AMap.set]
  split
  next hx => rw [hx, h]
  next => rfl

theorem vl_setEnt_ne (h : Sh K) {e e' : Nat} (q : Ptr) (hne : e' ≠ e) :
    vl prog (h.setEnt e q) e' = vl prog h e' := by simp [vl, Sh.setEnt, hne]

theorem vl_setEnt (h : Sh K) (e : Nat) (q : Ptr) :
    vl prog (h.setEnt e q) e = deref prog q := by simp [vl, Sh.setEnt]

/-- The values after setting a reachable entry. -/
theorem curv_setEnt {rm : List (K × Nat)} {h : Sh K} (c : Core h rm g) {k : K} {e : Nat}
    (hk : cur h k = some e) (q : Ptr) :
    curv prog (h.setEnt e q) = (curv prog h).set k (deref prog q) := by
  funext x
  simp only [AMap.set]
  have hcu : cur (h.setEnt e q) x = cur h x := cur_congr rfl rfl x
  split
  next hx =>
    subst hx
    simp [curv, hcu, hk, vl_setEnt]
  next hx =>
    simp only [curv, hcu]
    cases hcx : cur h x with
    | none => rfl
    | some e' =>
      simp only [Option.bind_some]
      refine vl_setEnt_ne h q ?_
      rintro rfl
      exact hx (c.cur_inj hcx hk)

theorem vl_congr {h h' : Sh K} (h3 : h'.ent = h.ent) : vl prog h' = vl prog h := by
  funext e; simp [vl, h3]

theorem curv_congr {h h' : Sh K} (h1 : h'.read = h.read) (h2 : h'.dirty = h.dirty)
    (h3 : h'.ent = h.ent) : curv prog h' = curv prog h := by
  funext k; simp only [curv, cur_congr h1 h2, vl_congr h3]

/-- The call takes effect on a reachable entry. -/
theorem Inv.linCur (I : Inv eqv prog s g) {h' : Sh K} {c c' : PC K V} {r : Res K V} {k : K}
    {e : Nat} {q : Ptr} (hc : s.pc i = c) (hm : (prog i).isMap = true)
    (hk : cur s.sh k = some e)
    (h1 : h'.read = s.sh.read) (h2 : h'.dirty = s.sh.dirty)
    (h3 : h'.ent = (s.sh.setEnt e q).ent) (h4 : h'.fresh = s.sh.fresh) (h5 : h'.mu = s.sh.mu)
    (hq : q = s.sh.ent e ∨ (s.sh.ent e ≠ .exp ∧ q ≠ .exp))
    (hl : c'.locked = c.locked) (hr : c'.remaining = c.remaining)
    (hno : ∀ e, g.orph e = some (.lin i) → prog i = .clear)
    (hop : ∀ g' : Ghost K V, g'.key = g.key → g'.pub = g.pub → g'.orph = g.orph →
      OpOk eqv prog ({ s with sh := h' }.goto i c') g' i)
    (htouch : ∀ e, ¬ c'.touches e)
    (hev : evs prog s.sh g i c = [.inv i]) (hev' : evs prog h' g i c' = [.inv i, .lin i r])
    (hap : apply eqv (prog i) (curv prog s.sh) = ((curv prog s.sh).set k (deref prog q), r)) :
    Good eqv prog g ({ s with sh := h' }.goto i c') [] := by
  have hoe := (I.str.core.cur_key hk).2.2
  have hexp : ∀ x, s.sh.ent x ≠ .exp → (s.sh.setEnt e q).ent x ≠ .exp := by
    intro x hx
    rcases hq with hq | hq
    · rw [hq, setEnt_self]; exact hx
    · simp only [Sh.setEnt]
      split
      · exact hq.2
      · exact hx
  refine ⟨_, I.plain (xs := [.lin i r]) (key' := g.key) rfl rfl (fun _ _ => rfl) ?_ ?_
    (fun e he => Or.inl (hno e he)) (Nat.le_of_eq h4.symm) ?_ ?_
    (Or.inr ⟨h1, h2, h4, by rw [h3]; exact hexp⟩) (hop _ rfl rfl rfl) ?_ ?_ ?_ ?_ ?_, ?_⟩
  · rw [rem_same hc hr h5]
    have : Core (s.sh.setEnt e q) (remaining s) g := by
      rcases hq with hq | hq
      · rw [hq, setEnt_self]; exact I.str.core
      · exact I.str.core.setEnt hq.1 hq.2 (fun n hn => by rw [hoe] at hn; cases hn)
    exact (this.congr (h' := h') h1 h2 h3 h4).ghost rfl rfl rfl rfl
  · exact mu_same I.str hc hl h5
  · intro k e he; rw [cur_congr h1 h2]; exact he
  · intro e' p he'
    rw [vl_congr h3]
    refine vl_setEnt_ne _ _ ?_
    rintro rfl
    rw [hoe] at he'; cases he'
  · intro x hx
    simp only [List.mem_singleton] at hx
    subst hx
    exact Or.inl rfl
  · simp [Legal, okE, hap]
  · intro k'
    simp only [run, app, hap]
    rw [curv_congr (h := s.sh.setEnt e q) h1 h2 h3, curv_setEnt I.str.core hk]
  · intro e _ _ h; exact absurd h (htouch e)
  · rw [opTL_map hm, hev', I.map_evs hc hm, hev]
    simp [proj, TE.owner]
  · simp [hist_append, hist, TE.ev?]

theorem pend_cur {h : Sh K} {e : Nat} (ho : g.orph e ≠ some (.lin i)) :
    pend prog h g i (some e) = [.inv i] := by simp [pend, ho]

/-- The call takes effect on an entry accessed without the mutex. -/
theorem Inv.linEnt (I : Inv eqv prog s g) {c : PC K V} {r : Res K V} {k : K} {e : Nat} {q : Ptr}
    (hc : s.pc i = c) (hcc : c = .ent e .u ∨ ∃ p, c = .cas e .u p)
    (E : EntOk prog s g i e .u k)
    (hq : q = s.sh.ent e ∨ (s.sh.ent e ≠ .exp ∧ q ≠ .exp))
    (hap : ∀ A : AMap K V, A k = vl prog s.sh e →
      apply eqv (prog i) A = (A.set k (deref prog q), r)) :
    Good eqv prog g ({ s with sh := s.sh.setEnt e q }.goto i (finish (prog i) r)) [] := by
  have hm := isMap_of_key E.key
  have hcl : c.locked = false := by rcases hcc with rfl | ⟨p, rfl⟩ <;> rfl
  have hcr : c.remaining = [] := by rcases hcc with rfl | ⟨p, rfl⟩ <;> rfl
  have hct : c.target = some e := by rcases hcc with rfl | ⟨p, rfl⟩ <;> rfl
  have hcv : ∀ h, evs prog h g i c = pend prog h g i (some e) := by
    intro h; rcases hcc with rfl | ⟨p, rfl⟩ <;> rfl
  have hncl : prog i ≠ .clear := by intro h; have := E.key; rw [h] at this; cases this
  have honly : ∀ e', g.orph e' = some (.lin i) → e' = e := by
    intro e' he'
    rcases I.str.olin e' i he' with h | ⟨_, _, _, _, h⟩
    · exact absurd h hncl
    · rw [hc, hct] at h; exact (Option.some.inj h).symm
  obtain ⟨hheld, hmay⟩ := E.un rfl
  cases ho : g.orph e with
  | none =>
    rcases hheld with ⟨k', hk1, hk2⟩ | ⟨p, hp⟩
    · have hkk : k' = k := Option.some.inj (hk1.symm.trans E.ekey)
      subst hkk
      have hnl : ∀ e', g.orph e' ≠ some (.lin i) := by
        intro e' he'
        rw [honly e' he', ho] at he'; cases he'
      refine I.linCur hc hm hk2 rfl rfl rfl rfl rfl hq ?_ ?_ (fun e he => absurd he (hnl e))
        (fun g' _ _ _ => finish_ok (goto_pc_self _ _ _)) (finish_touches _ _) ?_
        (finish_evs _ _ _ _ _) (hap _ (curv_of_cur hk2))
      · rw [hcl, finish_locked]
      · rw [hcr, finish_remaining]
      · rw [hcv, pend_cur (hnl e)]
    · rw [ho] at hp; cases hp
  | some p =>
    obtain ⟨k', L1, y, L2, hk', hL, hy, hrun, htch, hyr⟩ := I.tl.pos e p ho
    have hkk : k' = k := Option.some.inj (hk'.symm.trans E.ekey)
    subst hkk
    have hA := hap _ hrun
    have hexp : ∀ x, s.sh.ent x ≠ .exp → (s.sh.setEnt e q).ent x ≠ .exp := by
      intro x hx
      rcases hq with hq | hq
      · rw [hq, setEnt_self]; exact hx
      · simp only [Sh.setEnt]
        split
        · exact hq.2
        · exact hx
    by_cases hpi : p = .lin i
    · subst hpi
      rcases I.str.olin e i ho with h | ⟨k2, h1, h2, h3, _⟩
      · exact absurd h hncl
      have hkk : k2 = k' := Option.some.inj (h2.symm.trans hk')
      subst hkk
      have hder : deref prog q = none := by
        have hB := hap (fun _ => vl prog s.sh e) rfl
        rw [h1] at hB
        simp only [apply, Prod.mk.injEq] at hB
        have := congrFun hB.1 k2
        simp only [AMap.set, if_true] at this
        exact this.symm
      have hr : r = .opt (vl prog s.sh e) := by
        have hB := hap (fun _ => vl prog s.sh e) rfl
        rw [h1] at hB
        simp only [apply, Prod.mk.injEq] at hB
        exact hB.2.symm
      have hqn : q = .nil := by
        cases hqq : q with
        | nil => rfl
        | val b => rw [hqq] at hder; cases hder
        | exp =>
          rcases hq with hq | hq
          · exact absurd (I.str.core.expub e (hq ▸ hqq)) h3
          · exact absurd hqq hq.2
      have hcore : Core (s.sh.setEnt e q) (remaining s) g := by
        rcases hq with hq | hq
        · rw [hq, setEnt_self]; exact I.str.core
        · exact I.str.core.setEnt hq.1 hq.2 (fun n hn => by rw [ho] at hn; cases hn)
      refine ⟨_, I.ladDone hc rfl rfl ho hk' h1 hL hy htch rfl rfl rfl rfl hexp
        (by simp [Sh.setEnt, hqn]) (fun e' he' => vl_setEnt_ne _ _ he') hcore
        (by rw [hcl, finish_locked]) (by rw [hcr, finish_remaining])
        (finish_ok (goto_pc_self _ _ _)) (finish_touches _ _) ?_, ?_⟩
      · rw [opTL_map hm, finish_evs, I.map_evs hc hm, hcv, hr]
        simp [pend, ho]
      · rw [hL]; simp [hist, TE.ev?, List.filterMap_cons]
    · -- insert before `y`
      have hcore : Core (s.sh.setEnt e q) (remaining s) g := by
        rcases hq with hq | hq
        · rw [hq, setEnt_self]; exact I.str.core
        · by_cases hqe : q = s.sh.ent e
          · rw [hqe, setEnt_self]; exact I.str.core
          refine I.str.core.setEnt hq.1 hq.2 (fun n hn => hqe ?_)
          obtain ⟨_, h | ⟨h1, h2⟩⟩ := I.str.core.ocut e n hn
          · exact absurd h hq.1
          · have hder : deref prog q = none := by
              have hv : vl prog s.sh e = none := by simp [vl, h1, deref]
              have hB := hap (fun _ => none) hv.symm
              rcases hmay with h | h | ⟨_, h⟩
              · exact absurd h h2
              · cases hop : prog i <;> rw [hop] at h <;> first | cases h | skip
                · rw [hop] at hB
                  simp only [apply, Prod.mk.injEq] at hB
                  have := congrFun hB.1 k'
                  simp only [AMap.set, if_true] at this
                  exact this.symm
                · rw [hop] at hB
                  simp only [apply, Prod.mk.injEq] at hB
                  have := congrFun hB.1 k'
                  simp only [AMap.set, if_true] at this
                  exact this.symm
              · rw [ho] at h; exact absurd (Option.some.inj h) hpi
            rw [h1]
            cases hqq : q with
            | nil => rfl
            | val b => rw [hqq] at hder; cases hder
            | exp => exact absurd hqq hq.2
      have hcut : ∀ n, p = .cut n → deref prog q = vl prog s.sh e := by
        intro n hn
        subst hn
        obtain ⟨_, h | ⟨h1, h2⟩⟩ := hcore.ocut e n ho
        · have hqx : q = .exp := by simpa [Sh.setEnt] using h
          rcases hq with hq | hq
          · rw [hq]; rfl
          · exact absurd hqx hq.2
        · have hqx : q = .nil := by simpa [Sh.setEnt] using h1
          obtain ⟨_, h' | ⟨h', _⟩⟩ := I.str.core.ocut e n ho
          · rcases hq with hq | hq
            · rw [hq]; rfl
            · exact absurd h' hq.1
          · simp [vl, h', hqx, deref]
      have hgen : ∀ y' : TE K V, IsPos y' p →
          okE eqv prog y' ((run eqv prog L1 AMap.empty).set k' (deref prog q)) →
          app eqv prog y' ((run eqv prog L1 AMap.empty).set k' (deref prog q)) =
            app eqv prog y (run eqv prog L1 AMap.empty) →
          (∀ j r, y' = .lin j r → prog j ≠ .clear → r = .opt (deref prog q)) →
          ((∀ j, p = .lin j → prog j = .clear) → y' = y) →
          Good eqv prog g ({ s with sh := s.sh.setEnt e q }.goto i (finish (prog i) r)) [] := by
        intro y' hy' hok happ hyr' hyy
        have hve := vl_setEnt (prog := prog) s.sh e q
        refine ⟨_, I.insert (x := .lin i r) (y' := y') hc rfl rfl ho hk' hpi hL hy hy' htch rfl ?_ ?_
          ?_ ?_ ?_ hyy rfl rfl rfl rfl hexp (fun e' he' => vl_setEnt_ne _ _ he') hcore
          (by rw [hcl, finish_locked]) (by rw [hcr, finish_remaining]) ?_
          (finish_ok (goto_pc_self _ _ _)) (fun e' h => absurd h (finish_touches _ _ _))
          (touches_of_target hct) ?_, ?_⟩
        · simp [okE, hA]
        · simp only [app, hA, hve]
        · rw [hve]; exact hok
        · rw [hve]; exact happ
        · rw [hve]; exact hyr'
        · intro e' he'
          rw [honly e' he', ho] at he'
          exact absurd (Option.some.inj he') hpi
        · intro P1 P2 hP hin
          rw [opTL_map hm, finish_evs]
          rw [I.map_evs hc hm, hcv, pend_cur (by rw [ho]; exact fun h => hpi (Option.some.inj h))] at hP
          cases P1 with
          | nil => cases hin
          | cons a as => simp at hP; simp [hP]
        · rw [hL]
          have h1 : ∀ z : TE K V, IsPos z p → z.ev? = none := by
            intro z hz
            cases p with
            | lin j => obtain ⟨r, rfl⟩ := hz; rfl
            | cut n => cases hz; rfl
          simp [hist, List.filterMap_cons, h1 y hy, h1 y' hy',
            show (TE.lin i r).ev? = none from rfl]
      cases p with
      | cut n =>
        have hs : (run eqv prog L1 AMap.empty).set k' (deref prog q) = run eqv prog L1 AMap.empty :=
          set_self (by rw [hcut n rfl]; exact hrun)
        cases hy
        exact hgen (.cut n) rfl (by simp [okE]) (by rw [hs]) (fun j r h => by cases h) (fun _ => rfl)
      | lin j =>
        have hjk := I.str.olin e j ho
        obtain ⟨ry, rfl⟩ := hy
        have hleg := I.tl.legal
        rw [hL, legal_append] at hleg
        have hoky := hleg.2.1
        rcases hjk with hjc | ⟨k2, h1, h2, h3, h4⟩
        · refine hgen (.lin j ry) ⟨ry, rfl⟩ ?_ ?_ ?_ (fun _ => rfl)
          · simp only [okE, hjc, apply] at hoky ⊢
            exact hoky
          · simp only [app, hjc, apply]
          · intro j' r' h hcl
            cases h
            exact absurd hjc hcl
        · have hkk : k2 = k' := Option.some.inj (h2.symm.trans hk')
          subst hkk
          refine hgen (.lin j (.opt (deref prog q))) ⟨_, rfl⟩ ?_ ?_ ?_ ?_
          · simp [okE, h1, apply, AMap.set]
          · simp only [app, h1, apply]
            funext x
            simp only [AMap.set]
            split <;> rfl
          · intro j' r' h hcl
            cases h
            rfl
          · intro h
            have := h j rfl
            rw [h1] at this; cases this
end Verif.RWMap
