import Verif.RWMap.Steps3
/-!
# Preservation of the invariant: accessing entries
-/
namespace Verif.RWMap
variable {K V : Type} [DecidableEq K] [Inhabited V]
variable {eqv : V → V → Option Bool} {prog : Nat → Op K V}
variable {i : Nat} {s : State K V} {g : Ghost K V}

theorem EntOk.not_range {e : Nat} {lk : Lk} {k : K} (E : EntOk prog s g i e lk k) :
    prog i ≠ .range := by intro h; have := E.key; rw [h] at this; cases this

theorem EntOk.not_clear {e : Nat} {lk : Lk} {k : K} (E : EntOk prog s g i e lk k) :
    prog i ≠ .clear := by intro h; have := E.key; rw [h] at this; cases this

/-- The result is known. -/
theorem Inv.afterRes (I : Inv eqv prog s g) {c : PC K V} {r : Res K V} {k : K} {e : Nat} {q : Ptr}
    {lk lk' : Lk} (hc : s.pc i = c) (hcc : c = .ent e lk ∨ ∃ p, c = .cas e lk p)
    (E : EntOk prog s g i e lk k) (hl : lk' = lk ∨ lk' = lk.raise)
    (hq : q = s.sh.ent e ∨ (s.sh.ent e ≠ .exp ∧ q ≠ .exp))
    (hap : ∀ A : AMap K V, A k = vl prog s.sh e →
      apply eqv (prog i) A = (A.set k (deref prog q), r)) :
    Good eqv prog g ({ s with sh := (after (s.sh.setEnt e q) (prog i) lk' r).1 }.goto i
      (after (s.sh.setEnt e q) (prog i) lk' r).2) [] := by
  by_cases hu : lk = .u
  · subst hu
    obtain rfl : lk' = .u := by rcases hl with h | h <;> exact h
    exact I.linEnt hc hcc E hq hap
  obtain ⟨hcur, hlo⟩ := E.loc hu
  have hm := isMap_of_key E.key
  have hcl : c.locked = true := by
    rcases hcc with rfl | ⟨p, rfl⟩ <;> cases lk <;> first | rfl | exact absurd rfl hu
  have hcr : c.remaining = [] := by rcases hcc with rfl | ⟨p, rfl⟩ <;> rfl
  have hct : c.target = some e := by rcases hcc with rfl | ⟨p, rfl⟩ <;> rfl
  have hoe := (I.str.core.cur_key hcur).2.2
  have hno : ∀ e', g.orph e' = some (.lin i) → prog i = .clear := by
    intro e' he'
    rcases I.str.olin e' i he' with h | ⟨_, _, _, _, h⟩
    · exact h
    · rw [hc, hct] at h
      cases h
      rw [hoe] at he'; cases he'
  have hev : evs prog s.sh g i c = [.inv i] := by
    have : evs prog s.sh g i c = pend prog s.sh g i (some e) := by
      rcases hcc with rfl | ⟨p, rfl⟩ <;> rfl
    rw [this, pend_cur (by rw [hoe]; simp)]
  have hgen : ∀ (h' : Sh K) (c' : PC K V), c' = .unl (.res r) ∨ c' = .promo (.res r) ∧ lk = .lm →
      h'.read = s.sh.read → h'.dirty = s.sh.dirty → h'.ent = (s.sh.setEnt e q).ent →
      h'.fresh = s.sh.fresh → h'.mu = s.sh.mu →
      Good eqv prog g ({ s with sh := h' }.goto i c') [] := by
    intro h' c' hc' h1 h2 h3 h4 h5
    refine I.linCur (r := r) (k := k) hc hm hcur h1 h2 h3 h4 h5 hq ?_ ?_ hno ?_ ?_ hev ?_
      (hap _ (curv_of_cur hcur))
    · rcases hc' with rfl | ⟨rfl, _⟩ <;> rw [hcl] <;> rfl
    · rcases hc' with rfl | ⟨rfl, _⟩ <;> rw [hcr] <;> rfl
    · intro g' _ _ _
      rcases hc' with rfl | ⟨rfl, hlm⟩
      · simp only [OpOk, goto_pc_self]; exact E.not_range
      · simp only [OpOk, goto_pc_self, goto_sh]
        exact ⟨by rw [h1]; exact E.lm hlm, E.not_range, fun m h => by cases h⟩
    · intro e' h
      rcases hc' with rfl | ⟨rfl, _⟩ <;> cases h
    · rcases hc' with rfl | ⟨rfl, _⟩ <;> rfl
  cases lk' with
  | u => exact absurd rfl (by cases lk <;> rcases hl with h | h <;> first | exact hu | cases h)
  | l => exact hgen _ _ (Or.inl rfl) rfl rfl rfl rfl rfl
  | lm =>
    obtain rfl : lk = .lm := by cases lk <;> rcases hl with h | h <;> first | rfl | cases h
    simp only [after, missLocked]
    split
    · exact hgen _ _ (Or.inl rfl) rfl rfl rfl rfl rfl
    · exact hgen _ _ (Or.inr ⟨rfl, rfl⟩) rfl rfl rfl rfl rfl

/-- The result is known, nothing is stored. -/
theorem Inv.afterSame (I : Inv eqv prog s g) {c : PC K V} {r : Res K V} {k : K} {e : Nat}
    {lk lk' : Lk} (hc : s.pc i = c) (hcc : c = .ent e lk ∨ ∃ p, c = .cas e lk p)
    (E : EntOk prog s g i e lk k) (hl : lk' = lk ∨ lk' = lk.raise)
    (hap : ∀ A : AMap K V, A k = vl prog s.sh e → apply eqv (prog i) A = (A, r)) :
    Good eqv prog g ({ s with sh := (after s.sh (prog i) lk' r).1 }.goto i
      (after s.sh (prog i) lk' r).2) [] := by
  have := I.afterRes (q := s.sh.ent e) (r := r) hc hcc E hl (Or.inl rfl) (by
    intro A hA
    rw [hap A hA, set_self]
    exact hA)
  rwa [setEnt_self] at this

/-- Stay on the entry, or start over. -/
theorem Inv.toCas (I : Inv eqv prog s g) {c c' : PC K V} {k : K} {e : Nat} {lk : Lk}
    (hc : s.pc i = c) (hcc : c = .ent e lk ∨ ∃ p, c = .cas e lk p)
    (hcc' : c' = .ent e lk ∨ ∃ p, c' = .cas e lk p ∧ Guard eqv prog (prog i) p)
    (E : EntOk prog s g i e lk k) : Good eqv prog g (s.goto i c') [] := by
  have hm := isMap_of_key E.key
  have hp := I.map_evs hc hm
  refine I.silent (h' := s.sh) hc rfl rfl rfl rfl rfl ?_ ?_ ?_ ?_ ?_ ?_
  · rcases hcc with rfl | ⟨p, rfl⟩ <;> rcases hcc' with rfl | ⟨p, rfl, _⟩ <;> cases lk <;> rfl
  · rcases hcc with rfl | ⟨p, rfl⟩ <;> rcases hcc' with rfl | ⟨p, rfl, _⟩ <;> rfl
  · intro e' he'
    rcases I.str.olin e' i he' with h | ⟨_, _, _, _, h⟩
    · exact Or.inl h
    · rw [hc] at h
      rcases hcc with rfl | ⟨p, rfl⟩ <;> rcases hcc' with rfl | ⟨p, rfl, _⟩ <;> exact Or.inr h
  · have E' : ∀ c', EntOk prog (s.goto i c') g i e lk k :=
      fun c' => E.congr (s := s) (g := g) rfl rfl rfl rfl rfl rfl rfl
    rcases hcc' with rfl | ⟨p, rfl, hg⟩
    · simp only [OpOk, goto_pc_self]; exact ⟨k, E' _⟩
    · simp only [OpOk, goto_pc_self]; exact ⟨⟨k, E' _⟩, hg⟩
  · intro e' _ _ h
    rcases hcc with rfl | ⟨p, rfl⟩ <;> rcases hcc' with rfl | ⟨p, rfl, _⟩ <;> exact h
  · rw [opTL_map hm, hp]
    rcases hcc with rfl | ⟨p, rfl⟩ <;> rcases hcc' with rfl | ⟨p, rfl, _⟩ <;> rfl

theorem Inv.toAcq (I : Inv eqv prog s g) {e : Nat} {k : K} (hc : s.pc i = .ent e .u)
    (E : EntOk prog s g i e .u k) (ha : (prog i).adds = true) :
    Good eqv prog g (s.goto i .acq) [] := by
  have hm := isMap_of_key E.key
  have hno : ∀ e', g.orph e' ≠ some (.lin i) := by
    intro e' he'
    rcases I.str.olin e' i he' with h | ⟨_, h, _⟩ <;> rw [h] at ha <;> cases ha
  refine I.silent (h' := s.sh) hc rfl rfl rfl rfl rfl rfl rfl (fun e' he' => absurd he' (hno e')) ?_
    (fun e' _ _ h => by cases h) ?_
  · simp only [OpOk, goto_pc_self]
    intro h; rw [h] at ha; cases ha
  · rw [opTL_map hm, I.map_evs hc hm]
    simp [evs, PC.target, pend, hno]

theorem key_unique {op : Op K V} {k k' : K} (h : op.key? = some k) (h' : op.key? = some k') :
    k = k' := Option.some.inj (h.symm.trans h')

theorem Inv.entLoad (I : Inv eqv prog s g) {e : Nat} {lk : Lk} (hc : s.pc i = .ent e lk) :
    Good eqv prog g ({ s with sh := (entStep eqv prog s.sh (prog i) e lk).1 }.goto i
      (entStep eqv prog s.sh (prog i) e lk).2) [] := by
  have ho := I.ops i
  simp only [OpOk, hc] at ho
  obtain ⟨k, E⟩ := ho
  have hcc : PC.ent (K := K) (V := V) e lk = .ent e lk ∨ ∃ p, PC.ent (K := K) (V := V) e lk = .cas e lk p :=
    Or.inl rfl
  have hkey := E.key
  cases hop : prog i with
  | load k1 =>
    rw [hop] at hkey; cases hkey
    simp only [entStep]
    rw [← hop]
    refine I.afterSame hc hcc E (.inl rfl) ?_
    intro A hA
    rw [hop]
    simp [apply, hA, vl]
  | swap k1 v =>
    rw [hop] at hkey; cases hkey
    have hu : lk = .u := by
      by_cases hu : lk = .u
      · exact hu
      · rcases (E.loc hu).2 with ⟨v, h, _⟩ | ⟨o, n, h⟩ <;> rw [hop] at h <;> cases h
    subst hu
    simp only [entStep]
    split
    next hx => exact I.toAcq hc E (by rw [hop]; rfl)
    next hx => exact I.toCas hc hcc (Or.inr ⟨_, rfl, by rw [hop]; exact hx⟩) E
  | loadOrStore k1 v =>
    rw [hop] at hkey; cases hkey
    simp only [entStep]
    cases hx : s.sh.ent e with
    | exp =>
      have hu : lk = .u := by
        by_cases hu : lk = .u
        · exact hu
        · rcases (E.loc hu).2 with ⟨v, h, h'⟩ | ⟨o, n, h⟩
          · exact absurd hx h'
          · rw [hop] at h; cases h
      subst hu
      simp only [if_true]
      exact I.toAcq hc E (by rw [hop]; rfl)
    | val b =>
      simp only
      rw [← hop]
      refine I.afterSame hc hcc E (.inl rfl) ?_
      intro A hA
      rw [hop]
      simp [apply, hA, vl, hx, deref]
    | nil => exact I.toCas hc hcc (Or.inr ⟨_, rfl, by rw [hop]; rfl⟩) E
  | loadAndDelete k1 =>
    rw [hop] at hkey; cases hkey
    simp only [entStep]
    cases hx : s.sh.ent e with
    | val b => exact I.toCas hc hcc (Or.inr ⟨_, rfl, by rw [hop]; exact ⟨b, rfl⟩⟩) E
    | exp =>
      simp only
      rw [← hop]
      refine I.afterSame hc hcc E (.inl rfl) ?_
      intro A hA
      rw [hop]
      have : A k = none := by rw [hA]; simp [vl, hx, deref]
      exact apply_absent this (by simp)
    | nil =>
      simp only
      rw [← hop]
      refine I.afterSame hc hcc E (.inl rfl) ?_
      intro A hA
      rw [hop]
      have : A k = none := by rw [hA]; simp [vl, hx, deref]
      exact apply_absent this (by simp)
  | compareAndSwap k1 o n =>
    rw [hop] at hkey; cases hkey
    simp only [entStep]
    cases hx : s.sh.ent e with
    | val b =>
      simp only
      split
      next heq =>
        exact I.toCas hc hcc (Or.inr ⟨_, rfl, by rw [hop]; exact ⟨b, rfl, heq⟩⟩) E
      next heq =>
        rw [← hop]
        refine I.afterSame hc hcc E (.inl rfl) ?_
        intro A hA
        rw [hop]
        simp [apply, hA, vl, hx, deref, heq]
      next heq =>
        rw [← hop]
        refine I.afterSame hc hcc E (.inr rfl) ?_
        intro A hA
        rw [hop]
        simp [apply, hA, vl, hx, deref, heq]
    | exp =>
      simp only
      rw [← hop]
      refine I.afterSame hc hcc E (.inl rfl) ?_
      intro A hA
      rw [hop]
      have : A k = none := by rw [hA]; simp [vl, hx, deref]
      exact apply_absent this (by simp)
    | nil =>
      simp only
      rw [← hop]
      refine I.afterSame hc hcc E (.inl rfl) ?_
      intro A hA
      rw [hop]
      have : A k = none := by rw [hA]; simp [vl, hx, deref]
      exact apply_absent this (by simp)
  | compareAndDelete k1 o =>
    rw [hop] at hkey; cases hkey
    simp only [entStep]
    cases hx : s.sh.ent e with
    | val b =>
      simp only
      split
      next heq =>
        exact I.toCas hc hcc (Or.inr ⟨_, rfl, by rw [hop]; exact ⟨b, rfl, heq⟩⟩) E
      next heq =>
        rw [← hop]
        refine I.afterSame hc hcc E (.inl rfl) ?_
        intro A hA
        rw [hop]
        simp [apply, hA, vl, hx, deref, heq]
      next heq =>
        rw [← hop]
        refine I.afterSame hc hcc E (.inr rfl) ?_
        intro A hA
        rw [hop]
        simp [apply, hA, vl, hx, deref, heq]
    | exp =>
      simp only
      rw [← hop]
      refine I.afterSame hc hcc E (.inl rfl) ?_
      intro A hA
      rw [hop]
      have : A k = none := by rw [hA]; simp [vl, hx, deref]
      exact apply_absent this (by simp)
    | nil =>
      simp only
      rw [← hop]
      refine I.afterSame hc hcc E (.inl rfl) ?_
      intro A hA
      rw [hop]
      have : A k = none := by rw [hA]; simp [vl, hx, deref]
      exact apply_absent this (by simp)
  | clear => rw [hop] at hkey; cases hkey
  | range => rw [hop] at hkey; cases hkey
  | len => rw [hop] at hkey; cases hkey

theorem Inv.entCas (I : Inv eqv prog s g) {e : Nat} {lk : Lk} {p : Ptr} (hc : s.pc i = .cas e lk p) :
    Good eqv prog g ({ s with sh := (casStep prog s.sh i (prog i) e lk p).1 }.goto i
      (casStep prog s.sh i (prog i) e lk p).2) [] := by
  have ho := I.ops i
  simp only [OpOk, hc] at ho
  obtain ⟨⟨k, E⟩, hg⟩ := ho
  have hcc : PC.cas (K := K) (V := V) e lk p = .ent e lk ∨ ∃ p', PC.cas (K := K) (V := V) e lk p = .cas e lk p' :=
    Or.inr ⟨p, rfl⟩
  have hkey := E.key
  simp only [casStep]
  split
  next hx =>
    have hself : vl prog s.sh e = deref prog p := by simp [vl, hx]
    cases hop : prog i with
    | swap k1 v =>
      rw [hop] at hkey hg; cases hkey
      simp only
      rw [← hop]
      refine I.afterRes hc hcc E (.inl rfl) (Or.inr ⟨by rw [hx]; exact hg, by simp⟩) ?_
      intro A hA
      rw [hself] at hA
      simp only [hop, apply, hA, deref, Op.arg]
    | loadOrStore k1 v =>
      rw [hop] at hkey hg; cases hkey
      simp only [Guard] at hg
      simp only
      rw [← hop]
      refine I.afterRes hc hcc E (.inl rfl) (Or.inr ⟨by rw [hx, hg]; simp, by simp⟩) ?_
      intro A hA
      rw [hself, hg] at hA
      simp only [deref] at hA
      simp only [hop, apply, hA, deref, Op.arg]
    | loadAndDelete k1 =>
      rw [hop] at hkey hg; cases hkey
      obtain ⟨b, rfl⟩ := hg
      simp only
      rw [← hop]
      refine I.afterRes hc hcc E (.inl rfl) (Or.inr ⟨by rw [hx]; simp, by simp⟩) ?_
      intro A hA
      rw [hself] at hA
      simp only [hop, apply, hA, deref]
    | compareAndSwap k1 o n =>
      rw [hop] at hkey hg; cases hkey
      obtain ⟨b, rfl, hb⟩ := hg
      simp only
      rw [← hop]
      refine I.afterRes hc hcc E (.inl rfl) (Or.inr ⟨by rw [hx]; simp, by simp⟩) ?_
      intro A hA
      rw [hself] at hA
      simp only [deref] at hA
      simp only [hop, apply, hA, deref, hb, if_true]
      rfl
    | compareAndDelete k1 o =>
      rw [hop] at hkey hg; cases hkey
      obtain ⟨b, rfl, hb⟩ := hg
      simp only
      rw [← hop]
      refine I.afterRes hc hcc E (.inl rfl) (Or.inr ⟨by rw [hx]; simp, by simp⟩) ?_
      intro A hA
      rw [hself] at hA
      simp only [deref] at hA
      simp only [hop, apply, hA, deref, hb, if_true]
    | load k1 => rw [hop] at hg; exact hg.elim
    | clear => rw [hop] at hg; exact hg.elim
    | range => rw [hop] at hg; exact hg.elim
    | len => rw [hop] at hg; exact hg.elim
  next => exact I.toCas hc hcc (Or.inl rfl) E

theorem Inv.swpStep (I : Inv eqv prog s g) {e : Nat} (hc : s.pc i = .swp e) :
    Good eqv prog g ({ s with sh := (swpStep prog s.sh i e).1 }.goto i
      (swpStep prog s.sh i e).2) [] := by
  have ho := I.ops i
  simp only [OpOk, hc] at ho
  obtain ⟨hx, k, v, hop, hcur⟩ := ho
  have hm : (prog i).isMap = true := by rw [hop]; rfl
  have main : Good eqv prog g ({ s with sh := s.sh.setEnt e (.val i) }.goto i
      (.unl (.res (.opt (deref prog (s.sh.ent e)))))) [] := by
    refine I.linCur hc hm hcur rfl rfl rfl rfl rfl (Or.inr ⟨hx, by simp⟩) rfl rfl
      (fun e => I.no_orph hc rfl) ?_ (fun e h => by cases h) rfl rfl ?_
    · intro g' _ _ _
      simp only [OpOk, goto_pc_self, NxOk]
      rw [hop]; simp
    · rw [hop]
      simp only [apply, deref, hop, Op.arg, curv_of_cur hcur]
      rfl
  unfold Verif.RWMap.swpStep
  cases hp : s.sh.ent e with
  | exp => exact absurd hp hx
  | nil => rw [hp] at main; exact main
  | val b => rw [hp] at main; exact main

/-- A step of the holder of the mutex that changes memory but not the contents of the map. -/
theorem Inv.quiet (I : Inv eqv prog s g) {h' : Sh K} {c c' : PC K V} (hc : s.pc i = c)
    (hl : c.locked = true) (hl' : c'.locked = true) (ht : c.target = none)
    (hm : (prog i).isMap = true)
    (h5 : h'.mu = s.sh.mu) (h4 : h'.fresh = s.sh.fresh) (hcore : Core h' c'.remaining g)
    (hcur : ∀ k e, cur s.sh k = some e → cur h' k = some e)
    (hvl : ∀ e, vl prog h' e = vl prog s.sh e)
    (hcv : curv prog h' = curv prog s.sh)
    (hop : OpOk eqv prog ({ s with sh := h' }.goto i c') g i)
    (htouch : ∀ e p, g.orph e = some p → ¬ c'.touches e)
    (hev : evs prog s.sh g i c = [.inv i]) (hev' : evs prog s.sh g i c' = [.inv i]) :
    Good eqv prog g ({ s with sh := h' }.goto i c') [] := by
  have hmu := I.str.holder hc hl
  refine ⟨g, I.plain (h' := h') (c' := c') (xs := []) (key' := g.key)
    rfl (by simp) (fun _ _ => rfl) ?_ ?_ (I.tgt hc ht) (Nat.le_of_eq h4.symm) hcur
    (fun e _ _ => hvl e) (Or.inl (I.str.unlocked hmu)) hop (by simp) trivial
    (fun k => by rw [hcv]; rfl) (fun e p he h => absurd h (htouch e p he)) ?_, by simp⟩
  · have : remaining ({ s with sh := h' }.goto i c') = c'.remaining := by
      simp [remaining, h5, hmu]
    rw [this]
    exact hcore
  · exact mu_same I.str hc (by rw [hl, hl']) h5
  · simp only [proj, List.filter_nil, List.append_nil]
    rw [opTL_map hm]
    have h1 := I.map_evs hc hm
    rw [hev] at h1
    have h2 : evs prog h' g i c' = evs prog s.sh g i c' :=
      evs_congr (fun _ => Iff.rfl) (fun e _ _ => hvl e)
    rw [h2, hev']
    exact h1
end Verif.RWMap
