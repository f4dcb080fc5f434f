import Verif.RWMap.Insert
/-!
# Preservation of the invariant: calls starting, locking, unlocking, returning
-/
namespace Verif.RWMap
variable {K V : Type} [DecidableEq K] [Inhabited V]
variable {eqv : V → V → Option Bool} {prog : Nat → Op K V}
variable {i : Nat} {s : State K V} {g : Ghost K V}

/-- The observable part of a timeline. -/
def hist (L : List (TE K V)) : List (Ev K V) := L.filterMap TE.ev?

theorem hist_append (L M : List (TE K V)) : hist (L ++ M) = hist L ++ hist M := by simp [hist]

/-- The invariant can be re-established after a step with events `evs`. -/
def Good (eqv : V → V → Option Bool) (prog : Nat → Op K V) (g : Ghost K V) (s' : State K V)
    (evs : List (Ev K V)) : Prop :=
  ∃ g', Inv eqv prog s' g' ∧ hist g'.L = hist g.L ++ evs

theorem Inv.no_orph (I : Inv eqv prog s g) {c : PC K V} (hc : s.pc i = c) (ht : c.target = none)
    {e : Nat} (h : g.orph e = some (.lin i)) : prog i = .clear := by
  rcases I.str.olin e i h with h | ⟨_, _, _, _, h⟩
  · exact h
  · rw [hc, ht] at h; cases h

theorem Inv.tgt (I : Inv eqv prog s g) {c c' : PC K V} (hc : s.pc i = c) (ht : c.target = none) :
    ∀ e, g.orph e = some (.lin i) → prog i = .clear ∨ c'.target = some e :=
  fun _ h => Or.inl (I.no_orph hc ht h)

theorem EntOk.congr {s s' : State K V} {g g' : Ghost K V} {j e : Nat} {lk : Lk} {k : K}
    (h1 : s'.sh.read = s.sh.read) (h2 : s'.sh.dirty = s.sh.dirty) (h3 : s'.sh.ent = s.sh.ent)
    (h4 : s'.sh.fresh = s.sh.fresh) (g1 : g'.key = g.key) (g2 : g'.pub = g.pub)
    (g3 : g'.orph = g.orph) (h : EntOk prog s g j e lk k) : EntOk prog s' g' j e lk k :=
  { key := h.key, ekey := by rw [g1]; exact h.ekey, lt := by rw [h4]; exact h.lt
    un := by
      intro hu
      have := h.un hu
      simp only [Held, cur_congr h1 h2, g1, g2, g3] at this ⊢
      exact this
    loc := by rw [h3]; simp only [cur_congr h1 h2]; exact h.loc
    lm := by rw [h1]; exact h.lm }

theorem RngOk.congr {s s' : State K V} {g g' : Ghost K V} {es : List (K × Nat)}
    (h1 : s'.sh.read = s.sh.read) (h2 : s'.sh.dirty = s.sh.dirty)
    (h4 : s'.sh.fresh = s.sh.fresh) (g1 : g'.key = g.key)
    (g3 : g'.orph = g.orph) (h : RngOk s g es) : RngOk s' g' es := by
  simp only [RngOk, Held, cur_congr h1 h2, g1, g3, h4] at h ⊢
  exact h

theorem NxOk.congr {s s' : State K V} {g g' : Ghost K V} {j : Nat} {nx : Nx K V}
    (h1 : s'.sh.read = s.sh.read) (h2 : s'.sh.dirty = s.sh.dirty) (h3 : s'.sh.ent = s.sh.ent)
    (h4 : s'.sh.fresh = s.sh.fresh) (g1 : g'.key = g.key) (g2 : g'.pub = g.pub)
    (g3 : g'.orph = g.orph) (h : NxOk prog s g j nx) : NxOk prog s' g' j nx := by
  cases nx with
  | ent e => exact ⟨h.1, h.2.imp fun k hk => hk.congr h1 h2 h3 h4 g1 g2 g3⟩
  | rng m => exact ⟨h.1, h.2.congr h1 h2 h4 g1 g3⟩
  | res r => exact h

/-! ### `finish` -/

theorem finish_cases (op : Op K V) (r : Res K V) :
    finish op r = .fin r ∨ ∃ d, finish op r = .add d r := by
  unfold finish
  split <;> simp

theorem finish_locked (op : Op K V) (r : Res K V) : (finish op r).locked = false := by
  rcases finish_cases op r with h | ⟨d, h⟩ <;> rw [h] <;> rfl

theorem finish_remaining (op : Op K V) (r : Res K V) : (finish op r).remaining = [] := by
  rcases finish_cases op r with h | ⟨d, h⟩ <;> rw [h] <;> rfl

theorem finish_target (op : Op K V) (r : Res K V) : (finish op r).target = none := by
  rcases finish_cases op r with h | ⟨d, h⟩ <;> rw [h] <;> rfl

theorem finish_touches (op : Op K V) (r : Res K V) (e : Nat) : ¬ (finish op r).touches e := by
  rcases finish_cases op r with h | ⟨d, h⟩ <;> rw [h] <;> simp [PC.touches, PC.target]

theorem finish_evs (h : Sh K) (g : Ghost K V) (j : Nat) (op : Op K V) (r : Res K V) :
    evs prog h g j (finish op r) = [.inv j, .lin j r] := by
  rcases finish_cases op r with h | ⟨d, h⟩ <;> rw [h] <;> rfl

theorem finish_ok {s' : State K V} {g' : Ghost K V} {op : Op K V} {r : Res K V}
    (h : s'.pc i = finish op r) : OpOk eqv prog s' g' i := by
  unfold OpOk
  rw [h]
  rcases finish_cases op r with h | ⟨d, h⟩ <;> rw [h] <;> trivial

/-! ### Steps that only move on -/

theorem Inv.map_evs (I : Inv eqv prog s g) {c : PC K V} (hc : s.pc i = c)
    (hm : (prog i).isMap = true) : proj i g.L = evs prog s.sh g i c := by
  have := (opTL_map hm).1 (I.tl.tl i)
  rwa [hc] at this

/-- No event, nothing changes in the map. -/
theorem Inv.silent (I : Inv eqv prog s g) {h' : Sh K} {c c' : PC K V}
    (hc : s.pc i = c)
    (h1 : h'.read = s.sh.read) (h2 : h'.dirty = s.sh.dirty)
    (h3 : h'.ent = s.sh.ent) (h4 : h'.fresh = s.sh.fresh) (h5 : h'.mu = s.sh.mu)
    (hl : c'.locked = c.locked) (hr : c'.remaining = c.remaining)
    (htgt : ∀ e, g.orph e = some (.lin i) → prog i = .clear ∨ c'.target = some e)
    (hop : OpOk eqv prog ({ s with sh := h' }.goto i c') g i)
    (htouch : ∀ e p, g.orph e = some p → c'.touches e → c.touches e)
    (hi : OpTL prog s.sh g i c' (proj i g.L)) :
    Good eqv prog g ({ s with sh := h' }.goto i c') [] :=
  ⟨g, I.same hc rfl (xs := []) (by simp) h1 h2 h3 h4 h5 hl hr htgt hop (by simp) trivial
    (fun _ => rfl) htouch (by simpa [proj] using hi), by simp⟩

/-- The call takes effect without changing the map. -/
theorem Inv.linSame (I : Inv eqv prog s g) {h' : Sh K} {c c' : PC K V} {r : Res K V}
    (hc : s.pc i = c) (hm : (prog i).isMap = true)
    (h1 : h'.read = s.sh.read) (h2 : h'.dirty = s.sh.dirty)
    (h3 : h'.ent = s.sh.ent) (h4 : h'.fresh = s.sh.fresh) (h5 : h'.mu = s.sh.mu)
    (hl : c'.locked = c.locked) (hr : c'.remaining = c.remaining)
    (hno : ∀ e, g.orph e = some (.lin i) → prog i = .clear)
    (hop : ∀ g' : Ghost K V, g'.key = g.key → g'.pub = g.pub → g'.orph = g.orph →
      OpOk eqv prog ({ s with sh := h' }.goto i c') g' i)
    (htouch : ∀ e, ¬ c'.touches e)
    (hev : evs prog s.sh g i c = [.inv i]) (hev' : evs prog s.sh g i c' = [.inv i, .lin i r])
    (hap : apply eqv (prog i) (curv prog s.sh) = (curv prog s.sh, r)) :
    Good eqv prog g ({ s with sh := h' }.goto i c') [] := by
  refine ⟨_, I.same hc rfl (xs := [.lin i r]) rfl h1 h2 h3 h4 h5 hl hr
    (fun e he => Or.inl (hno e he)) (hop _ rfl rfl rfl) ?_ ?_ ?_ ?_ ?_, ?_⟩
  · intro x hx
    simp only [List.mem_singleton] at hx
    subst hx
    exact Or.inl rfl
  · simp [Legal, okE, hap]
  · intro k; simp [run, app, hap]
  · intro e _ _ h; exact absurd h (htouch e)
  · rw [opTL_map hm, hev', I.map_evs hc hm, hev]
    simp [proj, TE.owner]
  · simp [hist_append, hist, TE.ev?]

theorem Inv.idle (I : Inv eqv prog s g) (hc : s.pc i = .idle) :
    Good eqv prog g (s.goto i .start) [.inv i] := by
  have hp : proj i g.L = [] := by
    have := I.tl.tl i
    rw [hc] at this
    unfold OpTL at this
    split at this <;> exact this
  refine ⟨_, I.same (h' := s.sh) (c' := .start) hc rfl (xs := [.inv i]) rfl rfl rfl rfl rfl rfl rfl rfl
    (I.tgt hc rfl) ?_ ?_ ?_ ?_ ?_ ?_, ?_⟩
  · simp [OpOk]
  · intro x hx
    simp only [List.mem_singleton] at hx
    subst hx
    exact Or.inl rfl
  · simp [Legal, okE]
  · intro k; simp [run, app]
  · intro e p _ h; cases h
  · rw [hp]
    unfold OpTL
    split <;> simp [proj, TE.owner, RngTL, evs, pend, PC.target]
  · simp [hist_append, hist, TE.ev?]

theorem Inv.fin (I : Inv eqv prog s g) {r : Res K V} (hc : s.pc i = .fin r) :
    Good eqv prog g (s.goto i (.done r)) [.ret i r] := by
  have hp := I.tl.tl i
  rw [hc] at hp
  refine ⟨_, I.same (h' := s.sh) (c' := .done r) hc rfl (xs := [.ret i r]) rfl rfl rfl rfl rfl rfl rfl
    rfl (I.tgt hc rfl) ?_ ?_ ?_ ?_ ?_ ?_, ?_⟩
  · simp [OpOk]
  · intro x hx
    simp only [List.mem_singleton] at hx
    subst hx
    exact Or.inl rfl
  · simp [Legal, okE]
  · intro k; simp [run, app]
  · intro e p _ h; cases h
  · have hpr : proj i [TE.ret (K := K) i r] = [.ret i r] := by simp [proj, TE.owner]
    rw [hpr]
    unfold OpTL at hp ⊢
    split at hp
    next hpi =>
      obtain ⟨rest, acc, stop, es, h1, h2, h3, h4⟩ := hp
      exact ⟨rest, acc, stop, es, h1, by rw [h2]; simp, h3, h4⟩
    next hpi =>
      simp only at hp ⊢
      rw [hp]; rfl
    next =>
      rw [hp]; rfl
  · simp [hist_append, hist, TE.ev?]

theorem Inv.add (I : Inv eqv prog s g) {d : Int} {r : Res K V} (hc : s.pc i = .add d r) :
    Good eqv prog g ({ s with sh := { s.sh with len := s.sh.len + d } }.goto i (.fin r)) [] := by
  have hp := I.tl.tl i
  rw [hc] at hp
  refine I.silent (h' := { s.sh with len := s.sh.len + d }) hc rfl rfl rfl rfl rfl rfl rfl
    (I.tgt hc rfl) (by simp [OpOk]) (fun e p _ h => by cases h) ?_
  unfold OpTL at hp ⊢
  split at hp
  · cases hp
  · exact hp
  · exact hp

theorem Inv.zero (I : Inv eqv prog s g) (hc : s.pc i = .zero) :
    Good eqv prog g ({ s with sh := { s.sh with len := 0 } }.goto i (.unl (.res .unit))) [] := by
  have hp := I.tl.tl i
  have ho := I.ops i
  simp only [OpOk, hc] at ho
  rw [hc] at hp
  refine I.silent (h' := { s.sh with len := 0 }) hc rfl rfl rfl rfl rfl rfl rfl
    (I.tgt hc rfl) (by simp [OpOk, NxOk, ho]) (fun e p _ h => by cases h) ?_
  have hm : (prog i).isMap = true := by rw [ho]; rfl
  rw [opTL_map hm] at hp ⊢
  exact hp

theorem Inv.acq (I : Inv eqv prog s g) (hc : s.pc i = .acq) (hmu : s.sh.mu = none) :
    Good eqv prog g ({ s with sh := { s.sh with mu := some i } }.goto i .crit) [] := by
  have hp := I.tl.tl i
  have ho := I.ops i
  simp only [OpOk, hc] at ho
  rw [hc] at hp
  have hun : ∀ j, (s.pc j).locked = false := by
    intro j
    cases hl : (s.pc j).locked with
    | false => rfl
    | true => rw [(I.str.mu j).1 hl] at hmu; cases hmu
  have hrem : remaining s = [] := by simp [remaining, hmu]
  refine ⟨g, I.plain (h' := { s.sh with mu := some i }) (c' := .crit) (xs := []) (key' := g.key)
    rfl (by simp) (fun _ _ => rfl) ?_ ?_ (I.tgt hc rfl) (Nat.le_refl _) (fun _ _ h => h)
    (fun _ _ _ => rfl) (Or.inl fun j _ => hun j) (by simp [OpOk, ho]) (by simp) trivial
    (fun _ => rfl) (fun e p _ h => by cases h) ?_, by simp⟩
  · have : remaining ({ s with sh := { s.sh with mu := some i } }.goto i .crit) = [] := by
      simp [remaining, PC.remaining]
    rw [this]
    have hcr := I.str.core
    rw [hrem] at hcr
    exact hcr.congr rfl rfl rfl rfl
  · intro j
    by_cases hj : j = i
    · subst hj; simp [PC.locked]
    · rw [goto_pc_ne _ _ hj]
      simp [hun j, Ne.symm hj]
  · simp only [proj, List.filter_nil, List.append_nil]
    unfold OpTL at hp ⊢
    split at hp <;> exact hp

/-- Unlocking. -/
theorem Inv.unlock (I : Inv eqv prog s g) {c c' : PC K V} (hc : s.pc i = c)
    (hl : c.locked = true) (hl' : c'.locked = false) (hr : c.remaining = [])
    (htgt : ∀ e, g.orph e = some (.lin i) → prog i = .clear ∨ c'.target = some e)
    (hop : OpOk eqv prog ({ s with sh := { s.sh with mu := none } }.goto i c') g i)
    (htouch : ∀ e, c'.touches e → c.touches e)
    (hi : OpTL prog s.sh g i c' (proj i g.L)) :
    Good eqv prog g ({ s with sh := { s.sh with mu := none } }.goto i c') [] := by
  have hmu := I.str.holder hc hl
  have hun := I.str.unlocked hmu
  have hrem : remaining s = [] := by rw [I.str.rem_holder hc hl, hr]
  refine ⟨g, I.plain (h' := { s.sh with mu := none }) (c' := c') (xs := []) (key' := g.key)
    rfl (by simp) (fun _ _ => rfl) ?_ ?_ htgt (Nat.le_refl _) (fun _ _ h => h)
    (fun _ _ _ => rfl) (Or.inl hun) hop (by simp) trivial
    (fun _ => rfl) (fun e p _ h => by rw [hc]; exact htouch e h) ?_, by simp⟩
  · have : remaining ({ s with sh := { s.sh with mu := none } }.goto i c') = [] := by
      simp [remaining]
    rw [this]
    have hcr := I.str.core
    rw [hrem] at hcr
    exact hcr.congr rfl rfl rfl rfl
  · intro j
    by_cases hj : j = i
    · subst hj; simp [hl']
    · rw [goto_pc_ne _ _ hj]
      simp [hun j hj]
  · simp only [proj, List.filter_nil, List.append_nil]
    exact hi

theorem RngEvs.start {es : List K} {ks : List K} (h : ks.Perm es) :
    RngEvs (V := V) i es [] [.snap i ks] := by
  refine ⟨?_, ?_, ?_, by simp, by simp⟩
  · intro x hx
    simp only [List.mem_singleton] at hx
    exact Or.inl ⟨ks, hx⟩
  · exact ⟨ks, by simp, fun k hk => Or.inl (h.subset hk)⟩
  · intro k v; simp

theorem Inv.unl (I : Inv eqv prog s g) {nx : Nx K V} (hc : s.pc i = .unl nx)
    {ord : List (K × Nat) → List (K × Nat)} (hord : ∀ l, (ord l).Perm l) {go : Bool}
    {s' : State K V} (hn : next eqv prog ord go s i = some s') : Good eqv prog g s' [] := by
  have hp := I.tl.tl i
  have ho := I.ops i
  simp only [OpOk, hc] at ho
  rw [hc] at hp
  simp only [next, hc] at hn
  cases nx with
  | ent e =>
    simp only [Option.some.injEq] at hn
    subst hn
    obtain ⟨h1, k, hk⟩ := ho
    have hm := isMap_of_key hk.key
    refine I.unlock hc rfl rfl rfl ?_ ?_ ?_ ?_
    · intro e' he'
      rcases I.str.olin e' i he' with h | ⟨_, _, _, _, h⟩
      · exact Or.inl h
      · rw [hc] at h; exact Or.inr h
    · simp only [OpOk, goto_pc_self]
      exact ⟨k, hk.congr (s := s) (g := g) rfl rfl rfl rfl rfl rfl rfl⟩
    · intro e' h; exact h
    · rw [opTL_map hm] at hp ⊢
      exact hp
  | rng m =>
    simp only [Option.some.injEq] at hn
    subst hn
    obtain ⟨h1, h2, h3⟩ := ho
    refine I.unlock hc rfl rfl rfl (I.tgt hc rfl) ?_ ?_ ?_
    · simp only [OpOk, goto_pc_self]
      refine ⟨h1, ((hord m).map Prod.fst).nodup_iff.2 h2, ?_⟩
      intro k e he
      exact h3 k e ((hord m).subset he)
    · rintro e ⟨k, hk⟩
      exact ⟨k, (hord m).subset hk⟩
    · rw [opTL_range h1] at hp ⊢
      exact ⟨_, hp, RngEvs.start ((hord m).symm.map _)⟩
  | res r =>
    simp only [Option.some.injEq] at hn
    subst hn
    refine I.unlock hc rfl (finish_locked _ _) rfl (I.tgt hc rfl) (finish_ok (goto_pc_self _ _ _)) ?_ ?_
    · intro e h; exact absurd h (finish_touches _ _ _)
    · cases hop : prog i with
      | range => exact absurd hop ho
      | len =>
        unfold OpTL at hp ⊢
        simp only [hop] at hp ⊢
        exact hp
      | _ =>
        have hm : (prog i).isMap = true := by rw [hop]; rfl
        rw [← hop]
        rw [opTL_map hm] at hp ⊢
        rw [finish_evs]
        exact hp
end Verif.RWMap
