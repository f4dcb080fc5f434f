import Verif.RWMap.Frame
/-!
# Operations on unreachable entries
-/
namespace Verif.RWMap
variable {K V : Type} [DecidableEq K] [Inhabited V]
variable {eqv : V → V → Option Bool} {prog : Nat → Op K V}
variable {i : Nat} {s : State K V} {g : Ghost K V}

theorem touches_of_target {c : PC K V} {e : Nat} (h : c.target = some e) : c.touches e := by
  cases c with
  | unl nx => cases nx <;> first | exact h | cases h
  | promo nx => cases nx <;> first | exact h | cases h
  | _ => first | exact h | cases h

theorem IsPos.ne_inv {y : TE K V} {p : Pos} (h : IsPos y p) (j : Nat) : y ≠ .inv j := by
  cases p with
  | lin i => obtain ⟨r, rfl⟩ := h; simp
  | cut n => cases h; simp

theorem IsPos.ne_vis {y : TE K V} {p : Pos} (h : IsPos y p) (j : Nat) (k : K) (o : Option V) : y ≠ .vis j k o := by
  cases p with
  | lin i => obtain ⟨r, rfl⟩ := h; simp
  | cut n => cases h; simp

theorem IsPos.ne_visit {y : TE K V} {p : Pos} (h : IsPos y p) (j : Nat) (k : K) (v : V) : y ≠ .visit j k v := by
  cases p with
  | lin i => obtain ⟨r, rfl⟩ := h; simp
  | cut n => cases h; simp

theorem IsPos.owner {y : TE K V} {p : Pos} (h : IsPos y p) :
    y.owner = match p with | .lin i => some i | .cut _ => none := by
  cases p with
  | lin i => obtain ⟨r, rfl⟩ := h; rfl
  | cut n => cases h; rfl

/-- A call that knows its entry has a key. -/
theorem OpOk.key_of_target {e : Nat} (h : OpOk eqv prog s g i) (ht : (s.pc i).target = some e) :
    ∃ k, (prog i).key? = some k := by
  unfold OpOk at h
  cases hc : s.pc i with
  | ent e lk => rw [hc] at h; obtain ⟨k, hk⟩ := h; exact ⟨k, hk.key⟩
  | cas e lk p => rw [hc] at h; obtain ⟨⟨k, hk⟩, _⟩ := h; exact ⟨k, hk.key⟩
  | unl nx =>
    rw [hc] at h ht
    cases nx with
    | ent e => obtain ⟨_, k, hk⟩ := h; exact ⟨k, hk.key⟩
    | _ => cases ht
  | promo nx =>
    rw [hc] at h ht
    cases nx with
    | ent e => obtain ⟨_, ⟨_, k, hk⟩, _⟩ := h; exact ⟨k, hk.key⟩
    | _ => cases ht
  | _ => rw [hc] at ht; cases ht

theorem isMap_of_key {op : Op K V} {k : K} (h : op.key? = some k) : op.isMap = true := by
  cases op <;> first | rfl | cases h

/-- A step of call `i` on an entry that is unreachable since `p`. -/
theorem Inv.insert (I : Inv eqv prog s g) {h' : Sh K} {c c' : PC K V} {x y y' : TE K V}
    {L1 L2 : List (TE K V)} {e : Nat} {p : Pos} {k : K} {s' : State K V} {g' : Ghost K V}
    (hc : s.pc i = c) (hs' : s' = { s with sh := h' }.goto i c')
    (hg' : g' = { g with L := L1 ++ x :: y' :: L2 })
    (ho : g.orph e = some p) (hk : g.key e = some k) (hpi : p ≠ .lin i)
    (hL : g.L = L1 ++ y :: L2) (hy : IsPos y p) (hy' : IsPos y' p)
    (htch : ∀ j, (s.pc j).touches e → .inv j ∈ L1)
    (hx : x.owner = some i)
    (hxok : okE eqv prog x (run eqv prog L1 AMap.empty))
    (hxapp : app eqv prog x (run eqv prog L1 AMap.empty) =
      (run eqv prog L1 AMap.empty).set k (vl prog h' e))
    (hyok : okE eqv prog y' ((run eqv prog L1 AMap.empty).set k (vl prog h' e)))
    (hyapp : app eqv prog y' ((run eqv prog L1 AMap.empty).set k (vl prog h' e)) =
      app eqv prog y (run eqv prog L1 AMap.empty))
    (hyr : ∀ j r, y' = .lin j r → prog j ≠ .clear → r = .opt (vl prog h' e))
    (hyy : (∀ j, p = .lin j → prog j = .clear) → y' = y)
    (hr1 : h'.read = s.sh.read) (hr2 : h'.dirty = s.sh.dirty)
    (hr3 : h'.fresh = s.sh.fresh) (hr4 : h'.mu = s.sh.mu)
    (hexp : ∀ e, s.sh.ent e ≠ .exp → h'.ent e ≠ .exp)
    (hvl : ∀ e', e' ≠ e → vl prog h' e' = vl prog s.sh e')
    (hcore : Core h' (remaining s) g)
    (hl : c'.locked = c.locked) (hrem : c'.remaining = c.remaining)
    (htgt : ∀ e, g.orph e = some (.lin i) → prog i = .clear ∨ c'.target = some e)
    (hop : OpOk eqv prog s' g' i)
    (htouch : ∀ e, c'.touches e → c.touches e) (hci : c.touches e)
    (hi : ∀ P1 P2, proj i g.L = P1 ++ P2 → .inv i ∈ P1 → OpTL prog h' g i c' (P1 ++ x :: P2)) :
    Inv eqv prog s' g' := by
  have horph : g'.orph = g.orph := by rw [hg']
  have hpub : g'.pub = g.pub := by rw [hg']
  have hkey : g'.key = g.key := by rw [hg']
  have hL' : g'.L = L1 ++ x :: y' :: L2 := by rw [hg']
  have hsh : s'.sh = h' := by rw [hs']; rfl
  have hpc : ∀ j, j ≠ i → s'.pc j = s.pc j := by
    intro j hj; rw [hs', goto_pc_ne _ _ hj]
  have hpci : s'.pc i = c' := by rw [hs', goto_pc_self]
  have htt : ∀ j e, (s'.pc j).touches e → (s.pc j).touches e := by
    intro j e hj
    by_cases hji : j = i
    · subst hji; rw [hpci] at hj; rw [hc]; exact htouch e hj
    · rw [hpc j hji] at hj; exact hj
  have ext : Ext i s s' g g' := by
    refine { key := by rw [hkey]; exact fun _ _ h => h, fresh := by rw [hsh, hr3]; exact Nat.le_refl _
             pub := by rw [hpub]; exact fun _ h => h
             orph := by rw [horph]; exact fun _ p h => ⟨p, h⟩
             olin := by rw [horph]; exact fun _ _ _ h => h
             cur := ?_, pc := hpc, lock := ?_ }
    · intro k e he; rw [hsh, cur_congr hr1 hr2]; exact Or.inl he
    · rw [hsh]; exact Or.inr ⟨hr1, hr2, hr3, hexp⟩
  have hA : app eqv prog y' (app eqv prog x (run eqv prog L1 AMap.empty)) =
      app eqv prog y (run eqv prog L1 AMap.empty) := by rw [hxapp, hyapp]
  refine I.of_step ext ⟨?_, ?_, ?_, ?_⟩ hop ⟨?_, ?_, ?_, ?_, hL' ▸ (hL ▸ I.tl.seen : VOk (L1 ++ y :: L2)).replace (ys := [x, y']) hy.ne_vis
    (by intro j a b hm; simp only [List.mem_cons, List.not_mem_nil, or_false] at hm; rcases hm with h | h
        · rw [← h] at hx; cases hx
        · exact hy'.ne_visit j a b h.symm)⟩
  · rw [hsh, hs', rem_same hc hrem hr4]
    exact hcore.ghost hkey hpub horph (by rw [hg'])
  · rw [hsh, hs']; exact mu_same I.str hc hl hr4
  · intro e' j he
    rw [horph] at he
    rw [hkey, hpub]
    by_cases hj : j = i
    · subst hj
      rcases I.str.olin e' j he with h | ⟨k, h1, h2, h3, h4⟩
      · exact Or.inl h
      · rcases htgt e' he with h | h
        · exact Or.inl h
        · exact Or.inr ⟨k, h1, h2, h3, by rw [hpci]; exact h⟩
    · rw [hpc j hj]
      exact I.str.olin e' j he
  · rw [horph, hkey]; exact I.str.oinj
  · have hleg := I.tl.legal
    rw [hL, legal_append] at hleg
    rw [hL', legal_append]
    refine ⟨hleg.1, hxok, ?_, ?_⟩
    · rw [hxapp]; exact hyok
    · rw [hA]; exact hleg.2.2
  · intro k'
    have hst := I.tl.st k'
    rw [hL, run_append] at hst
    rw [hL', run_append]
    simp only [run] at hst ⊢
    rw [hA, hst, hsh]
    simp only [curv, cur_congr hr1 hr2]
    cases hcu : cur s.sh k' with
    | none => rfl
    | some e' =>
      refine (hvl e' ?_).symm
      rintro rfl
      rw [(I.str.core.cur_key hcu).2.2] at ho
      cases ho
  · intro e' p' he'
    rw [horph] at he'
    by_cases hee : e' = e
    · subst hee
      rw [ho] at he'
      cases he'
      refine ⟨k, L1 ++ [x], y', L2, by rw [hkey, hk], by rw [hL']; simp, hy', ?_, ?_,
        by rw [hsh]; exact hyr⟩
      · rw [run_append, hsh]
        simp only [run]
        rw [hxapp]
        simp [AMap.set]
      · intro j hj
        exact List.mem_append_left _ (htch j (htt j _ hj))
    · obtain ⟨k', M1, z, M2, hk', hl', hz, hrz, htz, hrz'⟩ := I.tl.pos e' p' he'
      have hv : vl prog s'.sh e' = vl prog s.sh e' := by rw [hsh]; exact hvl e' hee
      rw [hL] at hl'
      rcases split_cmp hl' with ⟨rfl, rfl, rfl⟩ | ⟨N, rfl, rfl⟩ | ⟨N, rfl, rfl⟩
      · have hpp : p' = p := hz.inj hy
        subst hpp
        have hkk : k' ≠ k := by
          rintro rfl
          exact hee (I.str.oinj e' e _ he' ho (hk'.trans hk.symm))
        refine ⟨k', L1 ++ [x], y', L2, by rw [hkey, hk'], by rw [hL']; simp, hy', ?_, ?_, ?_⟩
        · rw [run_append, hv]
          simp only [run]
          rw [hxapp]
          simp only [AMap.set, if_neg hkk]
          exact hrz
        · intro j hj
          exact List.mem_append_left _ (htz j (htt j _ hj))
        · intro j r hjr hcl
          rw [hjr] at hy'
          have hpj : p' = .lin j := IsPos.inj hy' ⟨r, rfl⟩
          subst hpj
          rcases I.str.olin e j ho with h | ⟨_, _, _, _, h1⟩
          · exact absurd h hcl
          · rcases I.str.olin e' j he' with h | ⟨_, _, _, _, h2⟩
            · exact absurd h hcl
            · rw [h1] at h2
              exact absurd (Option.some.inj h2).symm hee
      · refine ⟨k', L1 ++ x :: y' :: N, z, M2, by rw [hkey, hk'], by rw [hL']; simp, hz, ?_, ?_,
          by rw [hv]; exact hrz'⟩
        · rw [hv, ← hrz, run_append, run_append]
          simp only [run]
          rw [hA]
        · intro j hj
          have := htz j (htt j _ hj)
          simp only [List.mem_append, List.mem_cons] at this ⊢
          rcases this with h | h | h
          · exact Or.inl h
          · exact absurd h.symm (hy.ne_inv j)
          · exact Or.inr (Or.inr (Or.inr h))
      · refine ⟨k', M1, z, N ++ x :: y' :: L2, by rw [hkey, hk'], by rw [hL']; simp, hz, ?_, ?_,
          by rw [hv]; exact hrz'⟩
        · rw [hv]; exact hrz
        · intro j hj
          exact htz j (htt j _ hj)
  · intro j
    by_cases hji : j = i
    · subst hji
      have hyi : ∀ z : TE K V, IsPos z p → z.owner ≠ some j := by
        intro z hz hzo
        rw [hz.owner] at hzo
        cases p with
        | lin l => simp at hzo; exact hpi (by rw [hzo])
        | cut n => simp at hzo
      rw [hL', proj_append, proj_cons_own hx, proj_cons_other (hyi _ hy'), hsh, hpci]
      refine opTL_congr (fun e => by rw [horph]) (fun _ _ _ => rfl) (hi _ _ ?_ ?_)
      · rw [hL, proj_append, proj_cons_other (hyi _ hy)]
      · exact mem_proj.2 ⟨htch j (by rw [hc]; exact hci), rfl⟩
    · rw [hpc j hji, hsh]
      have hxj : x.owner ≠ some j := by rw [hx]; exact fun h => hji (Option.some.inj h).symm
      rw [hL', proj_append, proj_cons_other hxj]
      by_cases hlad : (∀ j, p = .lin j → prog j = .clear)
      · rw [hyy hlad, ← proj_append, ← hL]
        refine opTL_congr (fun e => by rw [horph]) ?_ (I.tl.tl j)
        intro e' ht' he'
        refine hvl e' ?_
        rintro rfl
        rw [ho] at he'
        cases he'
        obtain ⟨k, hk⟩ := (I.ops j).key_of_target ht'
        rw [hlad j rfl] at hk
        cases hk
      · simp only [not_forall] at hlad
        obtain ⟨j0, hj0, hcl⟩ := hlad
        subst hj0
        obtain ⟨r', hr'⟩ := hy'
        obtain ⟨r, hr⟩ := hy
        by_cases hjj : j = j0
        · subst hjj
          rcases I.str.olin e j ho with h | ⟨kj, h1, h2, h3, h4⟩
          · exact absurd h hcl
          have hm : (prog j).isMap = true := by rw [h1]; rfl
          have hT := (opTL_map hm).1 (I.tl.tl j)
          have hev : ∀ (h : Sh K), evs prog h g' j (s.pc j) =
              [.inv j, .lin j (.opt (vl prog h e))] := by
            intro h
            cases hcj : s.pc j with
            | unl nx =>
              rw [hcj] at h4
              cases nx <;> cases h4
              simp [evs, PC.target, pend, horph, ho]
            | promo nx =>
              rw [hcj] at h4
              cases nx <;> cases h4
              simp [evs, PC.target, pend, horph, ho]
            | ent e1 l1 =>
              rw [hcj] at h4
              cases h4
              simp [evs, PC.target, pend, horph, ho]
            | cas e1 l1 p1 =>
              rw [hcj] at h4
              cases h4
              simp [evs, PC.target, pend, horph, ho]
            | _ => rw [hcj] at h4; cases h4
          rw [opTL_map hm, hev]
          have hT2 : proj j g.L = [.inv j, .lin j (.opt (vl prog s.sh e))] := by
            rw [hT, ← hev]
            exact evs_congr (fun _ => by rw [horph]) (fun _ _ _ => rfl)
          have hin : TE.inv j ∈ proj j L1 := mem_proj.2 ⟨htch j (touches_of_target h4), rfl⟩
          rw [hL, proj_append, hr, proj_cons_own rfl] at hT2
          rw [hr', proj_cons_own rfl, hyr j r' hr' hcl]
          cases hp1 : proj j L1 with
          | nil => rw [hp1] at hin; cases hin
          | cons a as =>
            rw [hp1] at hT2
            cases as with
            | nil => simp at hT2 ⊢; exact ⟨hT2.1, hT2.2.2⟩
            | cons b bs =>
              simp at hT2
        · have h1 : y'.owner ≠ some j := by rw [hr']; exact fun h => hjj (Option.some.inj h).symm
          have h2 : y.owner ≠ some j := by rw [hr]; exact fun h => hjj (Option.some.inj h).symm
          rw [proj_cons_other h1, ← proj_cons_other (L := L2) h2, ← proj_append, ← hL]
          refine opTL_congr (fun e => by rw [horph]) ?_ (I.tl.tl j)
          intro e' ht' he'
          refine hvl e' ?_
          rintro rfl
          rw [ho] at he'
          cases he'
          exact hjj rfl

/-- `LoadAndDelete` call `i` finds out about the entry it has deleted from `dirty`. -/
theorem Inv.ladDone (I : Inv eqv prog s g) {h' : Sh K} {c c' : PC K V} {y : TE K V}
    {L1 L2 : List (TE K V)} {e : Nat} {k : K} {s' : State K V} {g' : Ghost K V}
    (hc : s.pc i = c) (hs' : s' = { s with sh := h' }.goto i c')
    (hg' : g' = { g with L := L1 ++ y :: .cut g.cuts :: L2
                         orph := fun x => if x = e then some (.cut g.cuts) else g.orph x
                         cuts := g.cuts + 1 })
    (ho : g.orph e = some (.lin i)) (hk : g.key e = some k) (hp : prog i = .loadAndDelete k)
    (hL : g.L = L1 ++ y :: L2) (hy : IsPos y (.lin i))
    (htch : ∀ j, (s.pc j).touches e → .inv j ∈ L1)
    (hr1 : h'.read = s.sh.read) (hr2 : h'.dirty = s.sh.dirty)
    (hr3 : h'.fresh = s.sh.fresh) (hr4 : h'.mu = s.sh.mu)
    (hexp : ∀ e, s.sh.ent e ≠ .exp → h'.ent e ≠ .exp)
    (hnil : h'.ent e = .nil)
    (hvl : ∀ e', e' ≠ e → vl prog h' e' = vl prog s.sh e')
    (hcore : Core h' (remaining s) g)
    (hl : c'.locked = c.locked) (hrem : c'.remaining = c.remaining)
    (hop : OpOk eqv prog s' g' i)
    (htouch : ∀ e, ¬ c'.touches e)
    (hi : OpTL prog h' g' i c' (proj i g.L)) :
    Inv eqv prog s' g' := by
  have horph : g'.orph = fun x => if x = e then some (.cut g.cuts) else g.orph x := by rw [hg']
  have horne : ∀ x, x ≠ e → g'.orph x = g.orph x := by intro x hx; rw [horph]; simp [hx]
  have hpub : g'.pub = g.pub := by rw [hg']
  have hkey : g'.key = g.key := by rw [hg']
  have hL' : g'.L = L1 ++ y :: .cut g.cuts :: L2 := by rw [hg']
  have hsh : s'.sh = h' := by rw [hs']; rfl
  have hpc : ∀ j, j ≠ i → s'.pc j = s.pc j := by
    intro j hj; rw [hs', goto_pc_ne _ _ hj]
  have hpci : s'.pc i = c' := by rw [hs', goto_pc_self]
  have htt : ∀ j e, (s'.pc j).touches e → (s.pc j).touches e := by
    intro j e hj
    by_cases hji : j = i
    · subst hji; rw [hpci] at hj; exact absurd hj (htouch e)
    · rw [hpc j hji] at hj; exact hj
  have hnp : ¬ g.pub e := by
    rcases I.str.olin e i ho with h | ⟨_, _, _, h, _⟩
    · rw [hp] at h; cases h
    · exact h
  have honly : ∀ e', g.orph e' = some (.lin i) → e' = e := by
    intro e' he'
    rcases I.str.olin e i ho with h | ⟨_, _, _, _, h1⟩
    · rw [hp] at h; cases h
    · rcases I.str.olin e' i he' with h | ⟨_, _, _, _, h2⟩
      · rw [hp] at h; cases h
      · rw [h1] at h2; exact (Option.some.inj h2).symm
  have hvle : vl prog h' e = none := by simp [vl, hnil, deref]
  have ext : Ext i s s' g g' := by
    refine { key := by rw [hkey]; exact fun _ _ h => h, fresh := by rw [hsh, hr3]; exact Nat.le_refl _
             pub := by rw [hpub]; exact fun _ h => h
             orph := ?_, olin := ?_, cur := ?_, pc := hpc, lock := ?_ }
    · intro e' p' h
      by_cases hee : e' = e
      · exact ⟨_, by rw [horph]; simp [hee]; rfl⟩
      · exact ⟨p', by rw [horne e' hee]; exact h⟩
    · intro e' j hj h
      rw [horne e', h]
      rintro rfl
      rw [ho] at h
      cases h
      exact hj rfl
    · intro k e he; rw [hsh, cur_congr hr1 hr2]; exact Or.inl he
    · rw [hsh]; exact Or.inr ⟨hr1, hr2, hr3, hexp⟩
  refine I.of_step ext ⟨?_, ?_, ?_, ?_⟩ hop ⟨?_, ?_, ?_, ?_, hL' ▸ (hL ▸ I.tl.seen : VOk (L1 ++ y :: L2)).replace (ys := [y, .cut g.cuts]) hy.ne_vis
    (by intro j a b hm; simp only [List.mem_cons, List.not_mem_nil, or_false, reduceCtorEq] at hm; exact hy.ne_visit j a b hm.symm)⟩
  · rw [hsh, hs', rem_same hc hrem hr4]
    exact (hcore.toCut hnil hnp (by rw [ho]; simp)).ghost hkey hpub horph (by rw [hg'])
  · rw [hsh, hs']; exact mu_same I.str hc hl hr4
  · intro e' j he
    rw [hkey, hpub]
    by_cases hee : e' = e
    · rw [horph] at he; simp [hee] at he
    · rw [horne e' hee] at he
      by_cases hj : j = i
      · subst hj
        exact absurd (honly e' he) hee
      · rw [hpc j hj]
        exact I.str.olin e' j he
  · intro e1 e2 p h1 h2 h3
    rw [hkey] at h3
    by_cases he1 : e1 = e
    · by_cases he2 : e2 = e
      · rw [he1, he2]
      · rw [horne e2 he2] at h2
        rw [horph] at h1
        simp [he1] at h1
        subst h1
        exact absurd (I.str.core.ocut e2 _ h2).1 (Nat.lt_irrefl _)
    · rw [horne e1 he1] at h1
      by_cases he2 : e2 = e
      · rw [horph] at h2
        simp [he2] at h2
        subst h2
        exact absurd (I.str.core.ocut e1 _ h1).1 (Nat.lt_irrefl _)
      · rw [horne e2 he2] at h2
        exact I.str.oinj e1 e2 p h1 h2 h3
  · have hleg := I.tl.legal
    rw [hL, legal_append] at hleg
    rw [hL', legal_append]
    exact ⟨hleg.1, hleg.2.1, trivial, hleg.2.2⟩
  · intro k'
    have hst := I.tl.st k'
    rw [hL, run_append] at hst
    rw [hL', run_append]
    simp only [run, app] at hst ⊢
    rw [hst, hsh]
    simp only [curv, cur_congr hr1 hr2]
    cases hcu : cur s.sh k' with
    | none => rfl
    | some e' =>
      refine (hvl e' ?_).symm
      rintro rfl
      rw [(I.str.core.cur_key hcu).2.2] at ho
      cases ho
  · intro e' p' he'
    by_cases hee : e' = e
    · subst hee
      rw [horph] at he'
      simp at he'
      subst he'
      refine ⟨k, L1 ++ [y], .cut g.cuts, L2, by rw [hkey, hk], by rw [hL']; simp, rfl, ?_, ?_, ?_⟩
      · rw [run_append, hsh, hvle]
        obtain ⟨r, rfl⟩ := hy
        simp [run, app, hp, apply, AMap.set]
      · intro j hj
        exact List.mem_append_left _ (htch j (htt j _ hj))
      · intro j r h
        cases h
    · rw [horne e' hee] at he'
      obtain ⟨k', M1, z, M2, hk', hl', hz, hrz, htz, hrz'⟩ := I.tl.pos e' p' he'
      have hv : vl prog s'.sh e' = vl prog s.sh e' := by rw [hsh]; exact hvl e' hee
      rw [hL] at hl'
      rcases split_cmp hl' with ⟨rfl, rfl, rfl⟩ | ⟨N, rfl, rfl⟩ | ⟨N, rfl, rfl⟩
      · have hpp := hz.inj hy
        subst hpp
        exact absurd (honly e' he') hee
      · refine ⟨k', L1 ++ y :: .cut g.cuts :: N, z, M2, by rw [hkey, hk'], by rw [hL']; simp, hz, ?_,
          ?_, by rw [hv]; exact hrz'⟩
        · rw [hv, ← hrz, run_append, run_append]
          simp only [run]
          rfl
        · intro j hj
          have := htz j (htt j _ hj)
          simp only [List.mem_append, List.mem_cons] at this ⊢
          rcases this with h | h | h
          · exact Or.inl h
          · exact absurd h.symm (hy.ne_inv j)
          · exact Or.inr (Or.inr (Or.inr h))
      · refine ⟨k', M1, z, N ++ y :: .cut g.cuts :: L2, by rw [hkey, hk'], by rw [hL']; simp, hz, ?_, ?_,
          by rw [hv]; exact hrz'⟩
        · rw [hv]; exact hrz
        · intro j hj
          exact htz j (htt j _ hj)
  · intro j
    have hpr : proj j g'.L = proj j g.L := by
      have h1 := proj_cons_other (i := j) (x := .cut g.cuts) (by simp [TE.owner]) L2
      rw [hL', hL, proj_append, proj_append, show y :: TE.cut g.cuts :: L2 = [y] ++ (.cut g.cuts :: L2) from rfl,
        show y :: L2 = [y] ++ L2 from rfl, proj_append, proj_append, h1]
    rw [hpr, hsh]
    by_cases hji : j = i
    · subst hji
      rw [hpci]; exact hi
    · rw [hpc j hji]
      refine opTL_congr ?_ ?_ (I.tl.tl j)
      · intro e'
        by_cases hee : e' = e
        · subst hee
          rw [horph, ho]
          simp
          exact fun h => hji h.symm
        · rw [horne e' hee]
      · intro e' ht' he'
        refine hvl e' ?_
        rintro rfl
        rw [ho] at he'
        cases he'
        exact hji rfl
end Verif.RWMap
