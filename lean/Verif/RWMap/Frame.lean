import Verif.RWMap.Core
/-!
# What a step of one call means for the others
-/
namespace Verif.RWMap
variable {K V : Type} [DecidableEq K] [Inhabited V]
variable {eqv : V → V → Option Bool} {prog : Nat → Op K V}

@[simp] theorem goto_sh (s : State K V) (i : Nat) (c : PC K V) : (s.goto i c).sh = s.sh := rfl

@[simp] theorem goto_pc_self (s : State K V) (i : Nat) (c : PC K V) : (s.goto i c).pc i = c := by
  simp [State.goto]

theorem goto_pc_ne (s : State K V) {i j : Nat} (c : PC K V) (h : j ≠ i) :
    (s.goto i c).pc j = s.pc j := by simp [State.goto, h]

/-- A step of call `i`, as seen by the other calls. -/
structure Ext (i : Nat) (s s' : State K V) (g g' : Ghost K V) : Prop where
  key : ∀ e k, g.key e = some k → g'.key e = some k
  fresh : s.sh.fresh ≤ s'.sh.fresh
  pub : ∀ e, g.pub e → g'.pub e
  orph : ∀ e p, g.orph e = some p → ∃ p', g'.orph e = some p'
  olin : ∀ e j, j ≠ i → g.orph e = some (.lin j) → g'.orph e = some (.lin j)
  cur : ∀ k e, cur s.sh k = some e → cur s'.sh k = some e ∨ ∃ p, g'.orph e = some p
  pc : ∀ j, j ≠ i → s'.pc j = s.pc j
  lock : (∀ j, j ≠ i → (s.pc j).locked = false) ∨
    (s'.sh.read = s.sh.read ∧ s'.sh.dirty = s.sh.dirty ∧ s'.sh.fresh = s.sh.fresh ∧
      ∀ e, s.sh.ent e ≠ .exp → s'.sh.ent e ≠ .exp)

theorem cur_congr {h h' : Sh K} (h1 : h'.read = h.read) (h2 : h'.dirty = h.dirty) (k : K) :
    cur h' k = cur h k := by simp [cur, h1, h2]

section
variable {i : Nat} {s s' : State K V} {g g' : Ghost K V}

theorem Ext.held (x : Ext i s s' g g') {e : Nat} (h : Held s.sh g e) : Held s'.sh g' e := by
  rcases h with ⟨k, h1, h2⟩ | ⟨p, hp⟩
  · rcases x.cur k e h2 with h3 | h3
    · exact Or.inl ⟨k, x.key e k h1, h3⟩
    · exact Or.inr h3
  · exact Or.inr (x.orph e p hp)

theorem Ext.entOk (x : Ext i s s' g g') {j e : Nat} {lk : Lk} {k : K} (hj : j ≠ i)
    (hl : lk ≠ .u → (s.pc j).locked = true) (h : EntOk prog s g j e lk k) :
    EntOk prog s' g' j e lk k := by
  refine { key := h.key, ekey := x.key _ _ h.ekey, lt := Nat.lt_of_lt_of_le h.lt x.fresh
           un := ?_, loc := ?_, lm := ?_ }
  · intro hu
    obtain ⟨h1, h2⟩ := h.un hu
    refine ⟨x.held h1, ?_⟩
    rcases h2 with h2 | h2 | ⟨h2, h3⟩
    · exact Or.inl (x.pub _ h2)
    · exact Or.inr (Or.inl h2)
    · exact Or.inr (Or.inr ⟨h2, x.olin _ _ hj h3⟩)
  · intro hu
    obtain ⟨h1, h2⟩ := h.loc hu
    rcases x.lock with hx | ⟨x1, x2, x3, x4⟩
    · rw [hx j hj] at hl; exact absurd (hl hu) (by simp)
    · refine ⟨by rw [cur_congr x1 x2]; exact h1, ?_⟩
      rcases h2 with ⟨v, h2, h3⟩ | h2
      · exact Or.inl ⟨v, h2, x4 e h3⟩
      · exact Or.inr h2
  · intro hu
    rcases x.lock with hx | ⟨x1, x2, x3, x4⟩
    · rw [hx j hj] at hl; exact absurd (hl (by simp [hu])) (by simp)
    · rw [x1]; exact h.lm hu

theorem Ext.rngOk (x : Ext i s s' g g') {es : List (K × Nat)} (h : RngOk s g es) :
    RngOk s' g' es :=
  ⟨h.1, fun k e he => ⟨x.key _ _ (h.2 k e he).1, Nat.lt_of_lt_of_le (h.2 k e he).2.1 x.fresh,
    x.held (h.2 k e he).2.2⟩⟩

theorem Ext.nxOk (x : Ext i s s' g g') {j : Nat} (hj : j ≠ i) {nx : Nx K V}
    (h : NxOk prog s g j nx) : NxOk prog s' g' j nx := by
  cases nx with
  | ent e => exact ⟨h.1, h.2.imp fun k hk => x.entOk hj (by simp) hk⟩
  | rng m => exact ⟨h.1, x.rngOk h.2⟩
  | res r => exact h

theorem Ext.opOk (x : Ext i s s' g g') {j : Nat} (hj : j ≠ i) (h : OpOk eqv prog s g j) :
    OpOk eqv prog s' g' j := by
  unfold OpOk at h ⊢
  rw [x.pc j hj]
  have hlock := x.lock.imp_left (fun h => h j hj)
  cases hc : s.pc j with
  | ent e lk =>
    rw [hc] at h
    exact h.imp fun k hk => x.entOk hj (by rw [hc]; cases lk <;> simp [PC.locked]) hk
  | cas e lk p =>
    rw [hc] at h
    exact ⟨h.1.imp fun k hk => x.entOk hj (by rw [hc]; cases lk <;> simp [PC.locked]) hk, h.2⟩
  | rng es acc => rw [hc] at h; exact ⟨h.1, x.rngOk h.2⟩
  | unl nx => rw [hc] at h; exact x.nxOk hj h
  | promo nx =>
    rw [hc] at h hlock
    simp [PC.locked] at hlock
    obtain ⟨x1, x2, x3, x4⟩ := hlock
    rw [x1, x2]
    exact ⟨h.1, x.nxOk hj h.2.1, h.2.2⟩
  | unexp e => 
    rw [hc] at h hlock
    simp [PC.locked] at hlock
    obtain ⟨x1, x2, x3, x4⟩ := hlock
    simp only [x1]
    exact h
  | swp e =>
    rw [hc] at h hlock
    simp [PC.locked] at hlock
    obtain ⟨x1, x2, x3, x4⟩ := hlock
    simp only [cur_congr x1 x2]
    exact ⟨x4 e h.1, h.2⟩
  | copy0 rm =>
    rw [hc] at h hlock
    simp [PC.locked] at hlock
    obtain ⟨x1, x2, x3, x4⟩ := hlock
    simp only [Adding, x1] at h ⊢
    exact h
  | copy es rm =>
    rw [hc] at h hlock
    simp [PC.locked] at hlock
    obtain ⟨x1, x2, x3, x4⟩ := hlock
    simp only [Adding, x1, x2] at h ⊢
    exact h
  | expunge es rm =>
    rw [hc] at h hlock
    simp [PC.locked] at hlock
    obtain ⟨x1, x2, x3, x4⟩ := hlock
    simp only [Adding, x1, x2] at h ⊢
    exact h
  | amend rm =>
    rw [hc] at h hlock
    simp [PC.locked] at hlock
    obtain ⟨x1, x2, x3, x4⟩ := hlock
    simp only [Adding, x1, x2] at h ⊢
    exact h
  | _ => rw [hc] at h; exact h

/-- Assemble the invariant after a step. -/
theorem Inv.of_step (I : Inv eqv prog s g) (x : Ext i s s' g g') (st : Str prog s' g')
    (op : OpOk eqv prog s' g' i) (tl : TL eqv prog s' g') : Inv eqv prog s' g' := by
  refine ⟨st, fun j => ?_, tl⟩
  by_cases hj : j = i
  · exact hj ▸ op
  · exact x.opOk hj (I.ops j)

/-- Only the holder of the mutex is in a critical section. -/
theorem Str.unlocked (st : Str prog s g) (h : s.sh.mu = some i) :
    ∀ j, j ≠ i → (s.pc j).locked = false := by
  intro j hj
  cases hl : (s.pc j).locked with
  | false => rfl
  | true => rw [(st.mu j).1 hl] at h; exact absurd (Option.some.inj h) hj

theorem Str.holder (st : Str prog s g) {c : PC K V} (hc : s.pc i = c) (hl : c.locked = true) :
    s.sh.mu = some i := (st.mu i).1 (hc ▸ hl)

theorem Str.rem_holder (st : Str prog s g) {c : PC K V} (hc : s.pc i = c) (hl : c.locked = true) :
    remaining s = c.remaining := by
  simp [remaining, st.holder hc hl, hc]

/-- Timeline events of a call do not change if the orphans it is pending on do not. -/
theorem evs_congr {h h' : Sh K} {g g' : Ghost K V} {j : Nat} {c : PC K V}
    (ho : ∀ e, g'.orph e = some (.lin j) ↔ g.orph e = some (.lin j))
    (hv : ∀ e, c.target = some e → g.orph e = some (.lin j) → vl prog h' e = vl prog h e) :
    evs prog h' g' j c = evs prog h g j c := by
  have main : pend prog h' g' j c.target = pend prog h g j c.target := by
    cases ht : c.target with
    | none => rfl
    | some e =>
      simp only [pend, ho]
      split
      next h1 => rw [hv e ht h1]
      next => rfl
  cases c with
  | unl nx => cases nx <;> first | rfl | exact main
  | promo nx => cases nx <;> first | rfl | exact main
  | _ => first | rfl | exact main

theorem opTL_congr {h h' : Sh K} {g g' : Ghost K V} {j : Nat} {c : PC K V} {P : List (TE K V)}
    (ho : ∀ e, g'.orph e = some (.lin j) ↔ g.orph e = some (.lin j))
    (hv : ∀ e, c.target = some e → g.orph e = some (.lin j) → vl prog h' e = vl prog h e)
    (hT : OpTL prog h g j c P) : OpTL prog h' g' j c P := by
  unfold OpTL at hT ⊢
  split at hT
  · exact hT
  · exact hT
  · rw [hT, evs_congr ho hv]

theorem opTL_map {h : Sh K} {g : Ghost K V} {j : Nat} {c : PC K V} {P : List (TE K V)}
    (hm : (prog j).isMap = true) : OpTL prog h g j c P ↔ P = evs prog h g j c := by
  unfold OpTL
  split
  next hp => rw [hp] at hm; cases hm
  next hp => rw [hp] at hm; cases hm
  next => rfl

theorem opTL_range {h : Sh K} {g : Ghost K V} {j : Nat} {c : PC K V} {P : List (TE K V)}
    (hm : prog j = .range) : OpTL prog h g j c P ↔ RngTL j c P := by
  simp only [OpTL, hm]

theorem run_eq (T : TL eqv prog s g) : run eqv prog g.L AMap.empty = curv prog s.sh :=
  funext T.st

omit [DecidableEq K] [Inhabited V] in
/-- New events may be inserted anywhere. -/
theorem VOk.replace {L1 L2 ys : List (TE K V)} {y : TE K V} (h : VOk (L1 ++ y :: L2))
    (hy : ∀ i k v, y ≠ .vis i k v) (hys : ∀ i k v, .visit i k v ∉ ys) : VOk (L1 ++ (ys ++ L2)) := by
  intro M1 i k v M2 hM
  rcases List.append_eq_append_iff.1 hM with ⟨as, h1, h2⟩ | ⟨bs, h1, h2⟩
  · rcases List.append_eq_append_iff.1 h2 with ⟨cs, h3, h4⟩ | ⟨cs, h3, h4⟩
    · have := h (L1 ++ y :: cs) i k v M2 (by rw [h4]; simp)
      rw [h1, h3]
      simp only [List.mem_append, List.mem_cons] at this ⊢
      rcases this with h | h | h
      · exact Or.inl h
      · exact absurd h.symm (hy _ _ _)
      · exact Or.inr (Or.inr h)
    · cases cs with
      | nil =>
        have := h (L1 ++ [y]) i k v M2 (by simp at h4; rw [← h4]; simp)
        rw [h1]
        simp only [List.mem_append, List.mem_cons, List.not_mem_nil, or_false] at this ⊢
        rcases this with h | h
        · exact Or.inl h
        · exact absurd h.symm (hy _ _ _)
      | cons c cs =>
        simp at h4
        exact absurd (by rw [h3, ← h4.1]; simp) (hys i k v)
  · cases bs with
    | nil =>
      cases ys with
      | nil => 
        simp at h2 h1
        have := h (L1 ++ [y]) i k v M2 (by rw [← h2]; simp)
        rw [← h1]
        simp only [List.mem_append, List.mem_cons, List.not_mem_nil, or_false] at this ⊢
        rcases this with h | h
        · exact h
        · exact absurd h.symm (hy _ _ _)
      | cons c cs =>
        simp at h2
        exact absurd (by rw [← h2.1]; simp) (hys i k v)
    | cons b bs =>
      simp at h2
      exact h M1 i k v (bs ++ y :: L2) (by rw [h1, ← h2.1]; simp)

omit [DecidableEq K] [Inhabited V] in
theorem VOk.append {L xs : List (TE K V)} (h : VOk L) (hxs : ∀ i k v, .visit i k v ∉ xs) : VOk (L ++ xs) := by
  intro M1 i k v M2 hM
  rcases List.append_eq_append_iff.1 hM with ⟨as, h1, h2⟩ | ⟨bs, h1, h2⟩
  · exact absurd (by rw [h2]; simp) (hxs i k v)
  · cases bs with
    | nil => simp at h2; exact absurd (by rw [← h2]; simp) (hxs i k v)
    | cons b bs => simp at h2; exact h M1 i k v bs (by rw [h1, h2.1])

/-- Append events of call `i` to the timeline. -/
theorem TL.append (T : TL eqv prog s g) {xs : List (TE K V)} (hL : g'.L = g.L ++ xs)
    (hown : ∀ x ∈ xs, x.owner = some i ∨ ∃ n, x = .cut n)
    (hleg : Legal eqv prog xs (curv prog s.sh))
    (hst : ∀ k, run eqv prog xs (curv prog s.sh) k = curv prog s'.sh k)
    (hpc : ∀ j, j ≠ i → s'.pc j = s.pc j)
    (hor : ∀ e p, g'.orph e = some p → PosOk eqv prog s' g' e p ∨
      (g.orph e = some p ∧ g'.key e = g.key e ∧ vl prog s'.sh e = vl prog s.sh e ∧
        ((s'.pc i).touches e → (s.pc i).touches e)))
    (ho : ∀ e j, j ≠ i → (g'.orph e = some (.lin j) ↔ g.orph e = some (.lin j)))
    (hv : ∀ e j, j ≠ i → (s.pc j).target = some e → g.orph e = some (.lin j) →
      vl prog s'.sh e = vl prog s.sh e)
    (hi : OpTL prog s'.sh g' i (s'.pc i) (proj i g.L ++ proj i xs)) : TL eqv prog s' g' := by
  refine ⟨?_, ?_, ?_, ?_, hL ▸ T.seen.append fun j k v hx => by
    rcases hown _ hx with h | ⟨n, h⟩ <;> cases h⟩
  · rw [hL, legal_append, run_eq T]
    exact ⟨T.legal, hleg⟩
  · intro k
    rw [hL, run_append, run_eq T]
    exact hst k
  · intro e p he
    rcases hor e p he with h | ⟨h1, h2, h3, h4⟩
    · exact h
    · obtain ⟨k, L1, y, L2, hk, hl, hy, hr, ht, hj⟩ := T.pos e p h1
      refine ⟨k, L1, y, L2 ++ xs, h2.trans hk, by rw [hL, hl]; simp, hy, hr.trans h3.symm, ?_,
        by rw [h3]; exact hj⟩
      intro j hjt
      by_cases hji : j = i
      · subst hji; exact ht j (h4 hjt)
      · rw [hpc j hji] at hjt; exact ht j hjt
  · intro j
    by_cases hji : j = i
    · subst hji
      rw [hL, proj_append]
      exact hi
    · have : proj j xs = [] := by
        rw [proj, List.filter_eq_nil_iff]
        intro x hx
        rcases hown x hx with h | ⟨n, h⟩
        · simp [h]; exact fun h => hji h.symm
        · simp [h, TE.owner]
      rw [hL, proj_append, this, List.append_nil, hpc j hji]
      exact opTL_congr (fun e => ho e j hji) (fun e => hv e j hji) (T.tl j)
end

section
variable {i : Nat} {s : State K V} {g : Ghost K V}

/-- An ordinary step: no entry becomes unreachable, and the values of unreachable ones do not
change. -/
theorem Inv.plain (I : Inv eqv prog s g) {h' : Sh K} {c' : PC K V} {xs : List (TE K V)}
    {key' : Nat → Option K} {s' : State K V} {g' : Ghost K V}
    (hs' : s' = { s with sh := h' }.goto i c')
    (hg' : g' = { g with L := g.L ++ xs, key := key' })
    (hkey : ∀ e, e < s.sh.fresh → key' e = g.key e)
    (hcore : Core h' (remaining s') g')
    (hmu : ∀ j, (s'.pc j).locked = true ↔ h'.mu = some j)
    (htgt : ∀ e, g.orph e = some (.lin i) → prog i = .clear ∨ c'.target = some e)
    (hfresh : s.sh.fresh ≤ h'.fresh)
    (hcur : ∀ k e, cur s.sh k = some e → cur h' k = some e)
    (hvl : ∀ e p, g.orph e = some p → vl prog h' e = vl prog s.sh e)
    (hlock : (∀ j, j ≠ i → (s.pc j).locked = false) ∨
      (h'.read = s.sh.read ∧ h'.dirty = s.sh.dirty ∧ h'.fresh = s.sh.fresh ∧
      ∀ e, s.sh.ent e ≠ .exp → h'.ent e ≠ .exp))
    (hop : OpOk eqv prog s' g' i)
    (hown : ∀ x ∈ xs, x.owner = some i ∨ ∃ n, x = .cut n)
    (hleg : Legal eqv prog xs (curv prog s.sh))
    (hst : ∀ k, run eqv prog xs (curv prog s.sh) k = curv prog h' k)
    (htouch : ∀ e p, g.orph e = some p → c'.touches e → (s.pc i).touches e)
    (hi : OpTL prog h' g i c' (proj i g.L ++ proj i xs)) : Inv eqv prog s' g' := by
  have horph : g'.orph = g.orph := by rw [hg']
  have hpub : g'.pub = g.pub := by rw [hg']
  have hk' : ∀ e, e < s.sh.fresh → g'.key e = g.key e := by rw [hg']; exact hkey
  have hko : ∀ e p, g.orph e = some p → g'.key e = g.key e := by
    intro e p he
    refine hk' e ?_
    rcases Nat.lt_or_ge e s.sh.fresh with h | h
    · exact h
    · rw [(I.str.core.fr e h).2.1] at he; cases he
  have hsh : s'.sh = h' := by rw [hs']; rfl
  have hpc : ∀ j, j ≠ i → s'.pc j = s.pc j := by
    intro j hj; rw [hs', goto_pc_ne _ _ hj]
  have hpci : s'.pc i = c' := by rw [hs', goto_pc_self]
  have x : Ext i s s' g g' := by
    refine { key := ?_, fresh := ?_, pub := ?_, orph := ?_, olin := ?_, cur := ?_, pc := hpc
             lock := ?_ }
    · intro e k he
      rw [hk' e, he]
      rcases Nat.lt_or_ge e s.sh.fresh with h | h
      · exact h
      · rw [(I.str.core.fr e h).2.2] at he; cases he
    · rw [hsh]; exact hfresh
    · intro e he; rw [hpub]; exact he
    · intro e p he; rw [horph]; exact ⟨p, he⟩
    · intro e p _ he; rw [horph]; exact he
    · intro k e he; rw [hsh]; exact Or.inl (hcur k e he)
    · rw [hsh]; exact hlock
  refine I.of_step x ⟨?_, ?_, ?_, ?_⟩ hop ?_
  · rw [hsh]; exact hcore
  · rw [hsh]; exact hmu
  · intro e j he
    rw [horph] at he
    by_cases hj : j = i
    · subst hj
      rcases I.str.olin e j he with h | ⟨k, h1, h2, h3, h4⟩
      · exact Or.inl h
      · rcases htgt e he with h | h
        · exact Or.inl h
        · refine Or.inr ⟨k, h1, (hko e _ he).trans h2, by rw [hpub]; exact h3, by rw [hpci]; exact h⟩
    · rcases I.str.olin e j he with h | ⟨k, h1, h2, h3, h4⟩
      · exact Or.inl h
      · exact Or.inr ⟨k, h1, (hko e _ he).trans h2, by rw [hpub]; exact h3, by rw [hpc j hj]; exact h4⟩
  · intro e e' p h1 h2 h3
    rw [horph] at h1 h2
    rw [hko e p h1, hko e' p h2] at h3
    exact I.str.oinj e e' p h1 h2 h3
  · refine I.tl.append (by rw [hg']) hown hleg (by rw [hsh]; exact hst) hpc ?_ ?_ ?_ ?_
    · intro e p he
      rw [horph] at he
      rw [hsh, hpci]
      exact Or.inr ⟨he, hko e p he, hvl e p he, htouch e p he⟩
    · intro e j _; rw [horph]
    · intro e j _ _ he; rw [hsh]; exact hvl e _ he
    · rw [hsh, hpci]
      exact opTL_congr (fun e => by rw [horph]) (fun _ _ _ => rfl) hi

theorem mu_same (st : Str prog s g) {h' : Sh K} {c c' : PC K V} (hc : s.pc i = c)
    (hl : c'.locked = c.locked) (hm : h'.mu = s.sh.mu) (j : Nat) :
    (({ s with sh := h' }.goto i c').pc j).locked = true ↔ h'.mu = some j := by
  rw [hm, ← st.mu j]
  by_cases hj : j = i
  · subst hj; simp [hc, hl]
  · rw [goto_pc_ne _ _ hj]

theorem rem_same {h' : Sh K} {c c' : PC K V} (hc : s.pc i = c)
    (hl : c'.remaining = c.remaining) (hm : h'.mu = s.sh.mu) :
    remaining ({ s with sh := h' }.goto i c') = remaining s := by
  simp only [remaining, goto_sh, hm]
  cases s.sh.mu with
  | none => rfl
  | some j =>
    by_cases hj : j = i
    · subst hj; simp [hc, hl]
    · simp only; rw [goto_pc_ne _ _ hj]

/-- A step that changes nothing in the map, and neither locks nor unlocks. -/
theorem Inv.same (I : Inv eqv prog s g) {h' : Sh K} {c c' : PC K V} {xs : List (TE K V)}
    {s' : State K V} {g' : Ghost K V} (hc : s.pc i = c)
    (hs' : s' = { s with sh := h' }.goto i c')
    (hg' : g' = { g with L := g.L ++ xs })
    (h1 : h'.read = s.sh.read) (h2 : h'.dirty = s.sh.dirty)
    (h3 : h'.ent = s.sh.ent) (h4 : h'.fresh = s.sh.fresh) (h5 : h'.mu = s.sh.mu)
    (hl : c'.locked = c.locked) (hr : c'.remaining = c.remaining)
    (htgt : ∀ e, g.orph e = some (.lin i) → prog i = .clear ∨ c'.target = some e)
    (hop : OpOk eqv prog s' g' i)
    (hown : ∀ x ∈ xs, x.owner = some i ∨ ∃ n, x = .cut n)
    (hleg : Legal eqv prog xs (curv prog s.sh))
    (hst : ∀ k, run eqv prog xs (curv prog s.sh) k = curv prog s.sh k)
    (htouch : ∀ e p, g.orph e = some p → c'.touches e → c.touches e)
    (hi : OpTL prog s.sh g i c' (proj i g.L ++ proj i xs)) : Inv eqv prog s' g' := by
  have hcv : ∀ k, curv prog h' k = curv prog s.sh k := by
    intro k; simp only [curv, cur_congr h1 h2, vl, h3, show vl prog h' = vl prog s.sh by funext e; simp [vl, h3]]
  refine I.plain hs' (key' := g.key) (by rw [hg']) (fun _ _ => rfl) ?_ ?_ htgt (Nat.le_of_eq h4.symm)
    ?_ ?_ (Or.inr ⟨h1, h2, h4, by rw [h3]; exact fun _ h => h⟩) hop hown hleg ?_
    (by rw [hc]; exact htouch) ?_
  · rw [hs', rem_same hc hr h5]
    refine (I.str.core.congr h1 h2 h3 h4).ghost ?_ ?_ ?_ ?_ <;> rw [hg']
  · rw [hs']; exact mu_same I.str hc hl h5
  · intro k e he; rw [cur_congr h1 h2]; exact he
  · intro e p _; simp [vl, h3]
  · intro k; rw [hcv]; exact hst k
  · exact opTL_congr (fun _ => Iff.rfl) (fun e _ _ => by simp [vl, h3]) hi
end
end Verif.RWMap
