import Verif.RWMap.Steps6
/-!
# Preservation of the invariant: critical sections, iteration; all steps
-/
namespace Verif.RWMap
variable {K V : Type} [DecidableEq K] [Inhabited V]
variable {eqv : V → V → Option Bool} {prog : Nat → Op K V}
variable {i : Nat} {s : State K V} {g : Ghost K V}

/-- `k` is not in the map. -/
theorem cur_absent {h : Sh K} {k : K} (hr : aget h.read.m k = none)
    (hd : h.read.amended = true → aget (h.dirty.getD []) k = none) : cur h k = none := by
  simp only [cur, hr]
  split
  next ha => exact hd ha
  next => rfl

theorem curv_absent {h : Sh K} {k : K} (hr : aget h.read.m k = none)
    (hd : h.read.amended = true → aget (h.dirty.getD []) k = none) : curv prog h k = none := by
  simp [curv, cur_absent hr hd]

/-- `missLocked`, then access an entry. -/
theorem Inv.missEnt (I : Inv eqv prog s g) (hc : s.pc i = .crit) {k : K} {e : Nat}
    (hp : (prog i).passive = true) (hk : (prog i).key? = some k) (ham : s.sh.read.amended = true)
    (hcur : cur s.sh k = some e) :
    Good eqv prog g ({ s with sh := (missLocked (V := V) s.sh (.ent e)).1 }.goto i
      (missLocked s.sh (.ent e)).2) [] := by
  have hm := isMap_of_key hk
  have hck := I.str.core.cur_key hcur
  have hgen : ∀ c' : PC K V, c' = .unl (.ent e) ∨ c' = .promo (.ent e) →
      Good eqv prog g ({ s with sh := { s.sh with misses := s.sh.misses + 1 } }.goto i c') [] := by
    intro c' hc'
    have hE : EntOk prog ({ s with sh := { s.sh with misses := s.sh.misses + 1 } }.goto i c') g i e .u k :=
      { key := hk, ekey := hck.1, lt := hck.2.1
        un := fun _ => ⟨Or.inl ⟨k, hck.1, hcur⟩, Or.inr (Or.inl hp)⟩
        loc := fun h => absurd rfl h, lm := fun h => by cases h }
    refine I.silent (h' := { s.sh with misses := s.sh.misses + 1 }) hc rfl rfl rfl rfl rfl ?_ ?_
      (I.tgt hc rfl) ?_ ?_ ?_
    · rcases hc' with rfl | rfl <;> rfl
    · rcases hc' with rfl | rfl <;> rfl
    · rcases hc' with rfl | rfl
      · simp only [OpOk, goto_pc_self]
        exact ⟨Or.inl hp, k, hE⟩
      · simp only [OpOk, goto_pc_self]
        exact ⟨ham, ⟨Or.inl hp, k, hE⟩, fun m h => by cases h⟩
    · intro e' p he' h
      have : e' = e := by rcases hc' with rfl | rfl <;> exact (Option.some.inj h).symm
      subst this
      rw [hck.2.2] at he'; cases he'
    · rw [opTL_map hm, I.map_evs hc hm]
      rcases hc' with rfl | rfl <;> simp [evs, PC.target, pend, hck.2.2]
  simp only [missLocked]
  split
  · exact hgen _ (Or.inl rfl)
  · exact hgen _ (Or.inr rfl)

/-- Found in `read` while holding the mutex. -/
theorem Inv.unlEnt (I : Inv eqv prog s g) (hc : s.pc i = .crit) {k : K} {e : Nat}
    (hp : (prog i).passive = true ∨ ∃ k, prog i = .loadAndDelete k) (hk : (prog i).key? = some k)
    (hr : aget s.sh.read.m k = some e) :
    Good eqv prog g (s.goto i (.unl (.ent e))) [] := by
  have hm := isMap_of_key hk
  have hrk := I.str.core.rkey k e hr
  refine I.silent (h' := s.sh) hc rfl rfl rfl rfl rfl rfl rfl
    (I.tgt hc rfl) ?_ ?_ ?_
  · simp only [OpOk, goto_pc_self]
    exact ⟨hp, k, { key := hk, ekey := hrk.1, lt := hrk.2.1
                    un := fun _ => ⟨Or.inl ⟨k, hrk.1, cur_read hr⟩, Or.inl hrk.2.2.1⟩
                    loc := fun h => absurd rfl h, lm := fun h => by cases h }⟩
  · intro e' p he' h
    cases h
    rw [hrk.2.2.2] at he'; cases he'
  · rw [opTL_map hm, I.map_evs hc hm]
    simp [evs, PC.target, pend, hrk.2.2.2]

/-- The key is absent; the result is known while holding the mutex. -/
theorem Inv.critRes (I : Inv eqv prog s g) (hc : s.pc i = .crit) {h' : Sh K} {c' : PC K V}
    {r : Res K V} (hm : (prog i).isMap = true)
    (h1 : h'.read = s.sh.read) (h2 : h'.dirty = s.sh.dirty)
    (h3 : h'.ent = s.sh.ent) (h4 : h'.fresh = s.sh.fresh) (h5 : h'.mu = s.sh.mu)
    (hc' : c' = .unl (.res r) ∨ c' = .promo (.res r) ∧ s.sh.read.amended = true)
    (hap : apply eqv (prog i) (curv prog s.sh) = (curv prog s.sh, r)) :
    Good eqv prog g ({ s with sh := h' }.goto i c') [] := by
  have hnr : prog i ≠ .range := by intro h; rw [h] at hm; cases hm
  refine I.linSame (r := r) hc hm h1 h2 h3 h4 h5 ?_ ?_ (fun e => I.no_orph hc rfl) ?_ ?_ rfl ?_ hap
  · rcases hc' with rfl | ⟨rfl, _⟩ <;> rfl
  · rcases hc' with rfl | ⟨rfl, _⟩ <;> rfl
  · intro g' _ _ _
    rcases hc' with rfl | ⟨rfl, ha⟩
    · simp only [OpOk, goto_pc_self]; exact hnr
    · simp only [OpOk, goto_pc_self]
      exact ⟨by simp only [goto_sh]; rw [h1]; exact ha, hnr, fun m h => by cases h⟩
  · intro e h; rcases hc' with rfl | ⟨rfl, _⟩ <;> cases h
  · rcases hc' with rfl | ⟨rfl, _⟩ <;> rfl

theorem Inv.missRes (I : Inv eqv prog s g) (hc : s.pc i = .crit) {r : Res K V}
    (hm : (prog i).isMap = true) (ha : s.sh.read.amended = true)
    (hap : apply eqv (prog i) (curv prog s.sh) = (curv prog s.sh, r)) :
    Good eqv prog g ({ s with sh := (missLocked (V := V) s.sh (.res r)).1 }.goto i
      (missLocked s.sh (.res r)).2) [] := by
  simp only [missLocked]
  split
  · exact I.critRes hc hm rfl rfl rfl rfl rfl (Or.inl rfl) hap
  · exact I.critRes hc hm rfl rfl rfl rfl rfl (Or.inr ⟨rfl, ha⟩) hap

/-- A missing key is "deleted" from `dirty`. -/
theorem Inv.ladMiss (I : Inv eqv prog s g) (hc : s.pc i = .crit) {k : K}
    {d : List (K × Nat)} {h' : Sh K} {c' : PC K V} (hop : prog i = .loadAndDelete k)
    (hd : s.sh.dirty = some d) (ham : s.sh.read.amended = true) (hr : aget s.sh.read.m k = none)
    (hk : aget d k = none) (h1 : h'.read = s.sh.read) (h2 : h'.dirty = some (adel d k))
    (h3 : h'.ent = s.sh.ent) (h4 : h'.fresh = s.sh.fresh) (h5 : h'.mu = s.sh.mu)
    (hc' : c' = .unl (.res (.opt none)) ∨ c' = .promo (.res (.opt none))) :
    Good eqv prog g ({ s with sh := h' }.goto i c') [] := by
  have hm : (prog i).isMap = true := by rw [hop]; rfl
  have hcore : Core s.sh [] g := I.coreOf hc rfl
  have hmi := I.str.holder hc rfl
  have hcur : ∀ k', cur h' k' = cur s.sh k' := by
    intro k'
    simp only [cur, h1, h2, hd, ham, if_true, Option.getD_some, aget_adel]
    by_cases hkk : k' = k
    · subst hkk; simp [hk]
    · simp [Ne.symm hkk]
  have hcv : curv prog h' = curv prog s.sh := by
    funext k'; simp only [curv, hcur, vl_congr h3]
  have hap : apply eqv (prog i) (curv prog s.sh) = (curv prog s.sh, .opt none) := by
    rw [hop]
    exact apply_absent (curv_absent hr (fun _ => by rw [hd]; exact hk)) (by simp)
  refine ⟨_, I.plain (xs := [.lin i (.opt none)]) (key' := g.key) rfl rfl (fun _ _ => rfl) ?_ ?_
    (I.tgt hc rfl) (Nat.le_of_eq h4.symm) ?_ ?_ (Or.inl (I.str.unlocked hmi)) ?_ ?_ ?_ ?_ ?_ ?_, ?_⟩
  · have hrem : remaining ({ s with sh := h' }.goto i c') = [] := by
      simp only [remaining, goto_sh, h5, hmi, goto_pc_self]
      rcases hc' with rfl | rfl <;> rfl
    rw [hrem]
    have := (hcore.del hd ham hr i).congr (h' := h') h1 h2 h3 h4
    refine this.ghost rfl rfl ?_ rfl
    funext x
    simp [hk]
  · refine mu_same I.str hc ?_ h5
    rcases hc' with rfl | rfl <;> rfl
  · intro k' e' h; rw [hcur]; exact h
  · intro e p _; rw [vl_congr h3]
  · rcases hc' with rfl | rfl
    · simp only [OpOk, goto_pc_self, NxOk]; rw [hop]; simp
    · simp only [OpOk, goto_pc_self, NxOk]
      exact ⟨by simp only [goto_sh]; rw [h1]; exact ham, by rw [hop]; simp, fun m h => by cases h⟩
  · intro x hx
    simp only [List.mem_singleton] at hx
    subst hx
    exact Or.inl rfl
  · simp [Legal, okE, hap]
  · intro k'; simp only [run, app, hap, hcv]
  · intro e _ _ h; rcases hc' with rfl | rfl <;> cases h
  · rw [opTL_map hm, I.map_evs hc hm]
    rcases hc' with rfl | rfl <;> simp [evs, pend, PC.target, proj, TE.owner]
  · simp [hist_append, hist, TE.ev?]

/-- The first step of a critical section that goes on to another step without any effect. -/
theorem Inv.critGo (I : Inv eqv prog s g) (hc : s.pc i = .crit) {c' : PC K V}
    (hm : (prog i).isMap = true) (hl : c'.locked = true) (hr : c'.remaining = [])
    (hop : OpOk eqv prog (s.goto i c') g i)
    (htouch : ∀ e p, g.orph e = some p → ¬ c'.touches e)
    (hev' : evs prog s.sh g i c' = [.inv i]) : Good eqv prog g (s.goto i c') [] :=
  I.quiet (h' := s.sh) hc rfl hl rfl hm rfl rfl (by rw [hr]; exact I.coreOf hc rfl)
    (fun _ _ h => h) (fun _ => rfl) rfl hop htouch rfl hev'

theorem Inv.critEnt (I : Inv eqv prog s g) (hc : s.pc i = .crit) {k : K} {e : Nat} {lk : Lk}
    (hlk : lk ≠ .u) (hk : (prog i).key? = some k) (hcur : cur s.sh k = some e)
    (hop : (∃ v, prog i = .loadOrStore k v ∧ s.sh.ent e ≠ .exp) ∨
      ∃ o n, prog i = .compareAndSwap k o n)
    (hlm : lk = .lm → s.sh.read.amended = true) : Good eqv prog g (s.goto i (.ent e lk)) [] := by
  have hck := I.str.core.cur_key hcur
  refine I.critGo hc (isMap_of_key hk) ?_ rfl ?_ ?_ ?_
  · cases lk <;> first | rfl | exact absurd rfl hlk
  · simp only [OpOk, goto_pc_self]
    exact ⟨k, { key := hk, ekey := hck.1, lt := hck.2.1, un := fun h => absurd h hlk
                loc := fun _ => ⟨hcur, hop⟩, lm := hlm }⟩
  · intro e' p he' h
    cases h
    rw [hck.2.2] at he'; cases he'
  · simp [evs, PC.target, pend, hck.2.2]

theorem Inv.critStep (I : Inv eqv prog s g) (hc : s.pc i = .crit) :
    Good eqv prog g ({ s with sh := (critStep (V := V) s.sh i (prog i)).1 }.goto i
      (critStep s.sh i (prog i)).2) [] := by
  have hcore : Core s.sh [] g := I.coreOf hc rfl
  have hnl := I.ops i
  simp only [OpOk, hc] at hnl
  have hdir : ∀ k e, aget s.sh.read.m k = none → aget (s.sh.dirty.getD []) k = some e →
      s.sh.read.amended = true ∧ cur s.sh k = some e ∧ s.sh.ent e ≠ .exp := by
    intro k e hr hk
    cases hd : s.sh.dirty with
    | none => rw [hd] at hk; cases hk
    | some d =>
      rw [hd] at hk
      have ham : s.sh.read.amended = true := by
        cases ha : s.sh.read.amended with
        | true => rfl
        | false => rw [hcore.sub ha d hd k e hk] at hr; cases hr
      exact ⟨ham, hcore.dirty_cur hd hk ham, (hcore.dkey d hd k e hk).2.2.2.1⟩
  cases hop : prog i with
  | load k =>
    have hm : (prog i).isMap = true := by rw [hop]; rfl
    simp only [Verif.RWMap.critStep]
    cases hr : aget s.sh.read.m k with
    | some e => exact I.unlEnt hc (Or.inl (by rw [hop]; rfl)) (by rw [hop]; rfl) hr
    | none =>
      cases ha : s.sh.read.amended with
      | false =>
        refine I.critRes hc hm rfl rfl rfl rfl rfl (Or.inl rfl) ?_
        rw [hop]; exact apply_absent (curv_none hr ha) (by simp)
      | true =>
        simp only [if_true]
        cases hk : aget (s.sh.dirty.getD []) k with
        | some e =>
          exact I.missEnt hc (by rw [hop]; rfl) (by rw [hop]; rfl) ha (hdir k e hr hk).2.1
        | none =>
          refine I.missRes hc hm ha ?_
          rw [hop]; exact apply_absent (curv_absent hr (fun _ => hk)) (by simp)
  | compareAndDelete k o =>
    have hm : (prog i).isMap = true := by rw [hop]; rfl
    simp only [Verif.RWMap.critStep]
    cases hr : aget s.sh.read.m k with
    | some e => exact I.unlEnt hc (Or.inl (by rw [hop]; rfl)) (by rw [hop]; rfl) hr
    | none =>
      cases ha : s.sh.read.amended with
      | false =>
        refine I.critRes hc hm rfl rfl rfl rfl rfl (Or.inl rfl) ?_
        rw [hop]; exact apply_absent (curv_none hr ha) (by simp)
      | true =>
        simp only [if_true]
        cases hk : aget (s.sh.dirty.getD []) k with
        | some e =>
          exact I.missEnt hc (by rw [hop]; rfl) (by rw [hop]; rfl) ha (hdir k e hr hk).2.1
        | none =>
          refine I.missRes hc hm ha ?_
          rw [hop]; exact apply_absent (curv_absent hr (fun _ => hk)) (by simp)
  | loadAndDelete k =>
    have hm : (prog i).isMap = true := by rw [hop]; rfl
    simp only [Verif.RWMap.critStep]
    cases hr : aget s.sh.read.m k with
    | some e => exact I.unlEnt hc (Or.inr ⟨k, hop⟩) (by rw [hop]; rfl) hr
    | none =>
      cases ha : s.sh.read.amended with
      | false =>
        refine I.critRes hc hm rfl rfl rfl rfl rfl (Or.inl rfl) ?_
        rw [hop]; exact apply_absent (curv_none hr ha) (by simp)
      | true =>
        obtain ⟨d, hd⟩ := Option.ne_none_iff_exists'.1 (hcore.amd ha)
        simp only [if_true, hd, Option.map_some, Option.getD_some]
        cases hk : aget d k with
        | some e =>
          simp only [missLocked]
          split
          · exact I.ladDel hc hop hd ha hr hk rfl rfl rfl rfl rfl (Or.inl rfl)
          · exact I.ladDel hc hop hd ha hr hk rfl rfl rfl rfl rfl (Or.inr rfl)
        | none =>
          simp only [missLocked]
          split
          · exact I.ladMiss hc hop hd ha hr hk rfl rfl rfl rfl rfl (Or.inl rfl)
          · exact I.ladMiss hc hop hd ha hr hk rfl rfl rfl rfl rfl (Or.inr rfl)
  | swap k v =>
    have hm : (prog i).isMap = true := by rw [hop]; rfl
    have hadds : (prog i).adds = true := by rw [hop]; rfl
    have hkey : (prog i).key? = some k := by rw [hop]; rfl
    simp only [Verif.RWMap.critStep]
    cases hr : aget s.sh.read.m k with
    | some e =>
      refine I.critGo hc hm rfl rfl ?_ (fun e p _ h => by cases h) rfl
      simp only [OpOk, goto_pc_self]
      exact ⟨hadds, k, hkey, hr⟩
    | none =>
      cases hk : aget (s.sh.dirty.getD []) k with
      | some e =>
        obtain ⟨h1, h2, h3⟩ := hdir k e hr hk
        refine I.critGo hc hm rfl rfl ?_ (fun e p _ h => by cases h) rfl
        simp only [OpOk, goto_pc_self]
        exact ⟨h3, k, v, hop, h2⟩
      | none =>
        cases ha : s.sh.read.amended with
        | true =>
          obtain ⟨d, hd⟩ := Option.ne_none_iff_exists'.1 (hcore.amd ha)
          rw [hd] at hk
          have := I.newEntry (h1 := s.sh) (d := d) hc rfl rfl rfl hadds hkey hcore (fun _ => rfl)
            rfl rfl rfl hd hk hr ha
          simpa [hop, newRes] using this
        | false =>
          refine I.critGo hc hm rfl rfl ?_ (fun e p _ h => by cases h) rfl
          simp only [OpOk, Bool.false_eq_true, if_false, goto_pc_self]
          exact ⟨k, hadds, hkey, rfl, ha, hr⟩
  | loadOrStore k v =>
    have hm : (prog i).isMap = true := by rw [hop]; rfl
    have hadds : (prog i).adds = true := by rw [hop]; rfl
    have hkey : (prog i).key? = some k := by rw [hop]; rfl
    simp only [Verif.RWMap.critStep]
    cases hr : aget s.sh.read.m k with
    | some e =>
      refine I.critGo hc hm rfl rfl ?_ (fun e p _ h => by cases h) rfl
      simp only [OpOk, goto_pc_self]
      exact ⟨hadds, k, hkey, hr⟩
    | none =>
      cases hk : aget (s.sh.dirty.getD []) k with
      | some e =>
        obtain ⟨h1, h2, h3⟩ := hdir k e hr hk
        exact I.critEnt hc (by simp) hkey h2 (Or.inl ⟨v, hop, h3⟩) (fun _ => h1)
      | none =>
        cases ha : s.sh.read.amended with
        | true =>
          obtain ⟨d, hd⟩ := Option.ne_none_iff_exists'.1 (hcore.amd ha)
          rw [hd] at hk
          have := I.newEntry (h1 := s.sh) (d := d) hc rfl rfl rfl hadds hkey hcore (fun _ => rfl)
            rfl rfl rfl hd hk hr ha
          simpa [hop, newRes] using this
        | false =>
          refine I.critGo hc hm rfl rfl ?_ (fun e p _ h => by cases h) rfl
          simp only [OpOk, Bool.false_eq_true, if_false, goto_pc_self]
          exact ⟨k, hadds, hkey, rfl, ha, hr⟩
  | compareAndSwap k o n =>
    have hm : (prog i).isMap = true := by rw [hop]; rfl
    have hkey : (prog i).key? = some k := by rw [hop]; rfl
    simp only [Verif.RWMap.critStep]
    cases hr : aget s.sh.read.m k with
    | some e =>
      exact I.critEnt hc (by simp) hkey (cur_read hr) (Or.inr ⟨o, n, hop⟩) (fun h => by cases h)
    | none =>
      cases hk : aget (s.sh.dirty.getD []) k with
      | some e =>
        obtain ⟨h1, h2, h3⟩ := hdir k e hr hk
        exact I.critEnt hc (by simp) hkey h2 (Or.inr ⟨o, n, hop⟩) (fun _ => h1)
      | none =>
        refine I.critRes hc hm rfl rfl rfl rfl rfl (Or.inl rfl) ?_
        rw [hop]; exact apply_absent (curv_absent hr (fun _ => hk)) (by simp)
  | clear =>
    have hm : (prog i).isMap = true := by rw [hop]; rfl
    simp only [Verif.RWMap.critStep]
    split
    next =>
      refine I.critGo hc hm rfl rfl ?_ (fun e p _ h => by cases h) rfl
      simp only [OpOk, goto_pc_self]
      exact hop
    next h =>
      simp only [ne_eq, not_or, not_not, Bool.not_eq_true] at h
      have hcur : ∀ h' : Sh K, h'.read = s.sh.read → ∀ k, cur h' k = none := by
        intro h' hr' k
        rw [cur_notAmended (by rw [hr']; exact h.2), hr', h.1]; rfl
      have hap : apply eqv (prog i) (curv prog s.sh) = (curv prog s.sh, .unit) := by
        rw [hop]
        simp only [apply]
        congr 1
        funext k
        simp [AMap.empty, curv, hcur s.sh rfl]
      have hmi := I.str.holder hc rfl
      refine ⟨_, I.plain (xs := [.lin i .unit]) (key' := g.key) rfl rfl (fun _ _ => rfl) ?_ ?_
        (I.tgt hc rfl) (Nat.le_refl _) ?_ (fun _ _ _ => rfl) (Or.inl (I.str.unlocked hmi)) ?_ ?_ ?_ ?_ ?_ ?_, ?_⟩
      · have hrem : remaining ({ s with sh := { s.sh with dirty := s.sh.dirty.map (fun _ => []), misses := 0 } }.goto i .zero) = [] := by
          simp [remaining, hmi, PC.remaining]
        rw [hrem]
        exact (hcore.clearEmpty h.1 h.2).ghost rfl rfl rfl rfl
      · exact mu_same I.str hc rfl rfl
      · intro k e hk; rw [hcur s.sh rfl] at hk; cases hk
      · simp only [OpOk, goto_pc_self]; exact hop
      · intro x hx
        simp only [List.mem_singleton] at hx
        subst hx
        exact Or.inl rfl
      · simp [Legal, okE, hap]
      · intro k'
        simp only [run, app, hap]
        simp [curv, hcur]
      · intro e _ _ h; cases h
      · rw [opTL_map hm, I.map_evs hc hm]
        simp [evs, pend, PC.target, proj, TE.owner]
      · simp [hist_append, hist, TE.ev?]
  | range =>
    have hp := I.tl.tl i
    rw [hc, opTL_range hop] at hp
    have hp : proj i g.L = [.inv i] := hp
    simp only [Verif.RWMap.critStep]
    have hgen : ∀ (m : List (K × Nat)) (c' : PC K V), AWF m →
        (∀ k e, aget m k = some e → cur s.sh k = some e) →
        (∀ k, aget m k = none → curv prog s.sh k = none) →
        c' = .unl (.rng m) ∨ (c' = .promo (.rng m) ∧ s.sh.read.amended = true ∧ s.sh.dirty = some m) →
        Good eqv prog g (s.goto i c') [] := by
      intro m c' hw h1 h2 hc'
      have hR : ∀ g' : Ghost K V, g'.key = g.key → g'.orph = g.orph → RngOk (s.goto i c') g' m := by
        intro g' e1 e2
        refine ⟨hw, ?_⟩
        intro k e he
        have hk := h1 k e (aget_of_mem hw he)
        have hck := hcore.cur_key hk
        exact ⟨by rw [e1]; exact hck.1, hck.2.1, Or.inl ⟨k, by rw [e1]; exact hck.1, hk⟩⟩
      refine ⟨_, I.same (h' := s.sh) (c' := c') hc rfl
        (xs := [.snap i (m.map Prod.fst)]) rfl rfl rfl rfl rfl rfl ?_ ?_ (I.tgt hc rfl) ?_ ?_ ?_ ?_ ?_ ?_, ?_⟩
      · rcases hc' with rfl | ⟨rfl, _⟩ <;> rfl
      · rcases hc' with rfl | ⟨rfl, _⟩ <;> rfl
      · rcases hc' with rfl | ⟨rfl, ha, hd⟩
        · simp only [OpOk, goto_pc_self]
          exact ⟨hop, hR _ rfl rfl⟩
        · simp only [OpOk, goto_pc_self]
          refine ⟨ha, ⟨hop, hR _ rfl rfl⟩, ?_⟩
          intro m' h; cases h; exact hd
      · intro x hx
        simp only [List.mem_singleton] at hx
        subst hx
        exact Or.inl rfl
      · simp only [Legal, okE, and_true]
        intro k hk
        exact h2 k (aget_eq_none.2 hk)
      · intro k; simp [run, app]
      · intro e p he h
        have : ∃ k, (k, e) ∈ m := by rcases hc' with rfl | ⟨rfl, _⟩ <;> exact h
        obtain ⟨k, hk⟩ := this
        rw [(hcore.cur_key (h1 k e (aget_of_mem hw hk))).2.2] at he
        cases he
      · rw [opTL_range hop, hp]
        rcases hc' with rfl | ⟨rfl, _⟩ <;> simp [RngTL, proj, TE.owner]
      · simp [hist_append, hist, TE.ev?]
    cases ha : s.sh.read.amended with
    | true =>
      obtain ⟨d, hd⟩ := Option.ne_none_iff_exists'.1 (hcore.amd ha)
      simp only [if_true, hd, Option.getD_some]
      refine hgen d _ (hcore.dwf d hd) (fun k e hk => hcore.dirty_cur hd hk ha) ?_
        (Or.inr ⟨rfl, ha, hd⟩)
      intro k hk
      cases hr : aget s.sh.read.m k with
      | none => exact curv_absent hr (fun _ => by rw [hd]; exact hk)
      | some e =>
        rw [curv_of_cur (cur_read hr)]
        have := hcore.con d hd k e hr (by simp)
        rw [hk] at this
        split at this
        next hx => simp [vl, hx, deref]
        next => cases this
    | false =>
      simp only [Bool.false_eq_true, if_false]
      exact hgen s.sh.read.m _ hcore.rwf (fun k e hk => cur_read hk)
        (fun k hk => curv_none hk ha) (Or.inl rfl)
  | len => exact absurd hop hnl

/-! ### Range -/

theorem RngEvs.step {k : K} {es : List K} {acc : List (K × V)} {rest rest' : List (TE K V)}
    {o : Option V} (R : RngEvs i (k :: es) acc rest) (hn : k ∉ es)
    (hmem : ∀ x, x ∈ rest' ↔ x = .vis i k o ∨ x ∈ rest) :
    RngEvs i es (match o with | none => acc | some v => acc ++ [(k, v)]) rest' := by
  have hk := R.disj k (by simp)
  refine ⟨?_, ?_, ?_, ?_, ?_⟩
  · intro x hx
    rcases (hmem x).1 hx with rfl | h
    · exact Or.inr ⟨k, o, rfl⟩
    · exact R.only x h
  · obtain ⟨ks, h1, h2⟩ := R.snap
    refine ⟨ks, (hmem _).2 (Or.inr h1), ?_⟩
    intro k' hk'
    rcases h2 k' hk' with h | ⟨o', h⟩
    · simp only [List.mem_cons] at h
      rcases h with rfl | h
      · exact Or.inr ⟨o, (hmem _).2 (Or.inl rfl)⟩
      · exact Or.inl h
    · exact Or.inr ⟨o', (hmem _).2 (Or.inr h)⟩
  · intro k' v
    rw [hmem, ← R.seen]
    cases o with
    | none => simp
    | some w =>
      simp only [List.mem_append, List.mem_singleton, Prod.mk.injEq, TE.vis.injEq, true_and,
        Option.some.injEq]
      rw [or_comm]
  · cases o with
    | none => exact R.nodup
    | some w =>
      simp only [List.map_append, List.map_cons, List.map_nil]
      refine List.nodup_append.2 ⟨R.nodup, by simp, ?_⟩
      intro a ha b hb
      simp only [List.mem_singleton] at hb
      subst hb
      rintro rfl
      exact hk ha
  · intro k' hk'
    have h1 := R.disj k' (by simp [hk'])
    cases o with
    | none => exact h1
    | some w =>
      simp only [List.map_append, List.map_cons, List.map_nil, List.mem_append, List.mem_singleton,
        not_or]
      exact ⟨h1, fun h => hn (h ▸ hk')⟩

/-- Range sees the value of an entry. -/
theorem Inv.visit (I : Inv eqv prog s g) {k : K} {e : Nat} {es : List (K × Nat)}
    {acc acc' : List (K × V)} {c' : PC K V} (hc : s.pc i = .rng ((k, e) :: es) acc)
    (hacc : acc' = match vl prog s.sh e with | none => acc | some v => acc ++ [(k, v)])
    (hc' : c' = .rng es acc' ∨ c' = .fin (.visited acc' true)) :
    Good eqv prog g (s.goto i c') [] := by
  have ho := I.ops i
  simp only [OpOk, hc] at ho
  obtain ⟨hop, hnd, hes⟩ := ho
  have hp := I.tl.tl i
  rw [hc, opTL_range hop] at hp
  obtain ⟨rest, hP, R⟩ := hp
  simp only [List.map_cons, List.nodup_cons] at hnd
  obtain ⟨hke, hlt, hheld⟩ := hes k e (by simp)
  have hloc : c'.locked = false := by rcases hc' with rfl | rfl <;> rfl
  have hrem : c'.remaining = [] := by rcases hc' with rfl | rfl <;> rfl
  have htch : ∀ x, c'.touches x → (PC.rng ((k, e) :: es) acc).touches x := by
    intro x hx
    rcases hc' with rfl | rfl
    · obtain ⟨k', hk'⟩ := hx
      exact ⟨k', List.mem_cons_of_mem _ hk'⟩
    · cases hx
  have hTL : ∀ rest', (∀ x, x ∈ rest' ↔ x = .vis i k (vl prog s.sh e) ∨ x ∈ rest) →
      RngTL i c' (.inv i :: rest') := by
    intro rest' hmem
    have R' := R.step hnd.1 hmem
    rw [← hacc] at R'
    rcases hc' with rfl | rfl
    · exact ⟨rest', rfl, R'⟩
    · exact ⟨rest', acc', true, _, rfl, rfl, R', by simp⟩
  have hok : ∀ g' : Ghost K V, g'.key = g.key → g'.orph = g.orph →
      OpOk eqv prog (s.goto i c') g' i := by
    intro g' e1 e2
    rcases hc' with rfl | rfl
    · simp only [OpOk, goto_pc_self]
      refine ⟨hop, hnd.2, ?_⟩
      intro k' e' h
      have := hes k' e' (List.mem_cons_of_mem _ h)
      simp only [Held, e1, e2, goto_sh] at this ⊢
      exact this
    · simp [OpOk]
  have hno : ∀ e', g.orph e' ≠ some (.lin i) := by
    intro e' he'
    have := I.no_orph hc rfl he'
    rw [hop] at this; cases this
  cases hor : g.orph e with
  | none =>
    have hcur : cur s.sh k = some e := by
      rcases hheld with ⟨k', h1, h2⟩ | ⟨p, h⟩
      · rw [hke] at h1; cases h1; exact h2
      · rw [hor] at h; cases h
    refine ⟨_, I.same (h' := s.sh) (c' := c') hc rfl (xs := [.vis i k (vl prog s.sh e)])
      rfl rfl rfl rfl rfl rfl hloc hrem (fun e' h => absurd h (hno e')) (hok _ rfl rfl) ?_ ?_ ?_
      (fun e' _ _ h => htch e' h) ?_, ?_⟩
    · intro x hx
      simp only [List.mem_singleton] at hx
      subst hx
      exact Or.inl rfl
    · simp only [Legal, okE, and_true]
      exact curv_of_cur hcur
    · intro k; simp [run, app]
    · rw [opTL_range hop, hP]
      have : proj i [TE.vis i k (vl prog s.sh e)] = [.vis i k (vl prog s.sh e)] := by
        simp [proj, TE.owner]
      rw [this]
      exact hTL (rest ++ [.vis i k (vl prog s.sh e)]) (by intro x; simp [or_comm])
    · simp [hist_append, hist, TE.ev?]
  | some p =>
    obtain ⟨k', L1, y, L2, hk', hL, hy, hrun, htchs, hyr⟩ := I.tl.pos e p hor
    have hkk : k' = k := by rw [hke] at hk'; cases hk'; rfl
    subst hkk
    have hset : (run eqv prog L1 AMap.empty).set k' (vl prog s.sh e) = run eqv prog L1 AMap.empty :=
      set_self hrun
    have hleg := I.tl.legal
    rw [hL, legal_append] at hleg
    refine ⟨_, I.insert (h' := s.sh) (c' := c') (x := .vis i k' (vl prog s.sh e)) (y' := y) hc rfl
      rfl hor hk' (fun h => hno e (h ▸ hor)) hL hy hy htchs rfl ?_ ?_ ?_ ?_ hyr (fun _ => rfl) rfl rfl rfl rfl
      (fun _ h => h) (fun _ _ => rfl) I.str.core hloc hrem (fun e' h => absurd h (hno e'))
      (hok _ rfl rfl) htch ⟨k', by simp⟩ ?_, ?_⟩
    · exact hrun
    · exact hset.symm
    · rw [hset]; exact hleg.2.1
    · rw [hset]
    · intro P1 P2 hPP hin
      rw [opTL_range hop]
      rw [hP] at hPP
      cases P1 with
      | nil => cases hin
      | cons a as =>
        simp only [List.cons_append, List.cons.injEq] at hPP
        obtain ⟨rfl, rfl⟩ := hPP
        refine hTL (as ++ .vis i k' (vl prog s.sh e) :: P2) ?_
        intro x
        simp only [List.mem_append, List.mem_cons]
        constructor
        · rintro (h | h | h)
          · exact Or.inr (Or.inl h)
          · exact Or.inl h
          · exact Or.inr (Or.inr h)
        · rintro (h | h | h)
          · exact Or.inr (Or.inl h)
          · exact Or.inl h
          · exact Or.inr (Or.inr h)
    · rw [hL]
      simp [hist, List.filterMap_cons, show (TE.vis i k' (vl prog s.sh e)).ev? = none from rfl]

/-- Range calls its function. -/
theorem Inv.mark (I : Inv eqv prog s g) {k : K} {v : V} (h : .vis i k (some v) ∈ g.L) :
    Inv eqv prog s { g with L := g.L ++ [.visit i k v] } := by
  refine ⟨⟨I.str.core.ghost rfl rfl rfl rfl, I.str.mu, I.str.olin, I.str.oinj⟩, fun j => ?_, ⟨?_, ?_, ?_, ?_, ?_⟩⟩
  · have x : Ext (j + 1) s s g { g with L := g.L ++ [.visit i k v] } :=
      ⟨fun _ _ h => h, Nat.le_refl _, fun _ h => h, fun _ p h => ⟨p, h⟩, fun _ _ _ h => h, fun _ _ h => Or.inl h, fun _ _ => rfl,
        Or.inr ⟨rfl, rfl, rfl, fun _ h => h⟩⟩
    exact x.opOk (by omega) (I.ops j)
  · rw [legal_append]
    exact ⟨I.tl.legal, trivial, trivial⟩
  · intro k'
    rw [run_append]
    exact I.tl.st k'
  · intro e p he
    obtain ⟨k', L1, y, L2, hk, hl, hy, hr, ht, hj⟩ := I.tl.pos e p he
    exact ⟨k', L1, y, L2 ++ [.visit i k v], hk, by simp only [hl]; simp, hy, hr, ht, hj⟩
  · intro j
    rw [proj_append, show proj j [TE.visit i k v] = [] from by simp [proj, TE.owner], List.append_nil]
    exact opTL_congr (fun _ => Iff.rfl) (fun _ _ _ => rfl) (I.tl.tl j)
  · intro M1 i' k' v' M2 hM
    rcases List.append_eq_append_iff.1 hM with ⟨as, h1, h2⟩ | ⟨bs, h1, h2⟩
    · cases as with
      | nil => simp at h2 h1; obtain ⟨⟨rfl, rfl, rfl⟩, _⟩ := h2; rw [h1]; exact h
      | cons a as => simp at h2
    · cases bs with
      | nil => simp at h2 h1; obtain ⟨⟨rfl, rfl, rfl⟩, _⟩ := h2; rw [← h1]; exact h
      | cons b bs => simp at h2; exact I.tl.seen M1 i' k' v' bs (by rw [h1, h2.1])

/-- What a Range call has visited, it has seen. -/
theorem Inv.mem_vis (I : Inv eqv prog s g) {es : List (K × Nat)} {acc : List (K × V)} {b : Bool} {k : K} {v : V} (hop : prog i = .range)
    (hc : s.pc i = .rng es acc ∨ s.pc i = .fin (.visited acc b)) (h : (k, v) ∈ acc) : .vis i k (some v) ∈ g.L := by
  have hp := I.tl.tl i
  rw [opTL_range hop] at hp
  rcases hc with hc | hc <;> rw [hc] at hp
  · obtain ⟨rest, hP, R⟩ := hp
    exact (mem_proj.1 (show _ ∈ proj i g.L by rw [hP]; simp [(R.seen k v).1 h])).1
  · obtain ⟨rest, acc', stop, es, he, hP, R, _⟩ := hp
    cases he
    exact (mem_proj.1 (show _ ∈ proj i g.L by rw [hP]; simp [(R.seen k v).1 h])).1

theorem Inv.visitMark (I : Inv eqv prog s g) {k : K} {v : V} {e : Nat} {es : List (K × Nat)}
    {acc : List (K × V)} {c' : PC K V} (hc : s.pc i = .rng ((k, e) :: es) acc)
    (hv : deref prog (s.sh.ent e) = some v)
    (hc' : c' = .rng es (acc ++ [(k, v)]) ∨ c' = .fin (.visited (acc ++ [(k, v)]) true)) :
    Good eqv prog g (s.goto i c') [.visit i k v] := by
  obtain ⟨g', I', hg'⟩ := I.visit (acc' := acc ++ [(k, v)]) hc (by simp [vl, hv]) hc'
  have ho := I.ops i
  simp only [OpOk, hc] at ho
  have hm : .vis i k (some v) ∈ g'.L := I'.mem_vis (es := es) (acc := acc ++ [(k, v)]) (b := true) ho.1
    (hc'.imp (fun h => by rw [goto_pc_self, h]) (fun h => by rw [goto_pc_self, h])) (by simp)
  refine ⟨_, I'.mark hm, ?_⟩
  · rw [hist_append, hg']
    simp [hist, TE.ev?]

theorem Inv.rngEnd (I : Inv eqv prog s g) {acc : List (K × V)} (hc : s.pc i = .rng [] acc) :
    Good eqv prog g (s.goto i (.fin (.visited acc false))) [] := by
  have ho := I.ops i
  simp only [OpOk, hc] at ho
  obtain ⟨hop, _⟩ := ho
  have hp := I.tl.tl i
  rw [hc, opTL_range hop] at hp
  obtain ⟨rest, hP, R⟩ := hp
  refine I.silent (h' := s.sh) hc rfl rfl rfl rfl rfl rfl rfl (I.tgt hc rfl) (by simp [OpOk])
    (fun e p _ h => by cases h) ?_
  rw [opTL_range hop]
  exact ⟨rest, acc, false, _, rfl, hP, R, fun _ => rfl⟩

theorem event_cases (s : State K V) (i : Nat) :
    (s.pc i = .idle ∧ event prog s i = [.inv i]) ∨ (∃ r, s.pc i = .fin r ∧ event prog s i = [.ret i r]) ∨
    (∃ k e es acc v, s.pc i = .rng ((k, e) :: es) acc ∧ deref prog (s.sh.ent e) = some v ∧ event prog s i = [.visit i k v]) ∨
    event prog s i = [] := by
  unfold event
  split
  next h => exact Or.inl ⟨h, rfl⟩
  next r h => exact Or.inr (Or.inl ⟨r, h, rfl⟩)
  next k e es acc h =>
    split
    next v hv => exact Or.inr (Or.inr (Or.inl ⟨k, e, es, acc, v, h, hv, rfl⟩))
    next => exact Or.inr (Or.inr (Or.inr rfl))
  next => exact Or.inr (Or.inr (Or.inr rfl))

theorem mem_event_inv {s : State K V} {i j : Nat} (h : Ev.inv j ∈ event prog s i) : j = i ∧ s.pc i = .idle := by
  rcases event_cases (prog := prog) s i with ⟨h1, h2⟩ | ⟨r, h1, h2⟩ | ⟨k, e, es, acc, v, h1, h2, h3⟩ | h2 <;> simp_all

theorem mem_event_ret {s : State K V} {i j : Nat} {r : Res K V} (h : Ev.ret j r ∈ event prog s i) :
    j = i ∧ s.pc i = .fin r := by
  rcases event_cases (prog := prog) s i with ⟨h1, h2⟩ | ⟨r, h1, h2⟩ | ⟨k, e, es, acc, v, h1, h2, h3⟩ | h2 <;> simp_all

/-- Every step preserves the invariant. -/
theorem Inv.step (I : Inv eqv prog s g) {s' : State K V} {evs : List (Ev K V)}
    (hs : Step eqv prog s evs s') : Good eqv prog g s' evs := by
  obtain ⟨i, ord, go, hord, hn, rfl⟩ := hs
  have hn' := hn
  unfold event
  cases hc : s.pc i with
  | idle => simp only [next, hc, Option.some.injEq] at hn; subst hn; exact I.idle hc
  | start => simp only [next, hc, Option.some.injEq] at hn; subst hn; exact I.start hc hord
  | acq =>
    simp only [next, hc] at hn
    split at hn
    next hmu => simp only [Option.some.injEq] at hn; subst hn; exact I.acq hc hmu
    next => cases hn
  | crit => simp only [next, hc, Option.some.injEq] at hn; subst hn; exact I.critStep hc
  | ent e lk => simp only [next, hc, Option.some.injEq] at hn; subst hn; exact I.entLoad hc
  | cas e lk p => simp only [next, hc, Option.some.injEq] at hn; subst hn; exact I.entCas hc
  | unexp e => simp only [next, hc, Option.some.injEq] at hn; subst hn; exact I.unexpStep hc
  | swp e => simp only [next, hc, Option.some.injEq] at hn; subst hn; exact I.swpStep hc
  | copy0 rm => exact I.copy0Step hc hord hn
  | copy es rm => exact I.copyStep hc hn
  | expunge es rm => exact I.expungeStep hc hn
  | amend rm => exact I.amendStep hc hn
  | promo nx => simp only [next, hc, Option.some.injEq] at hn; subst hn; exact I.promoStep hc
  | wipe => simp only [next, hc, Option.some.injEq] at hn; subst hn; exact I.wipeStep hc
  | zero => simp only [next, hc, Option.some.injEq] at hn; subst hn; exact I.zero hc
  | unl nx => exact I.unl hc hord hn
  | rng es acc =>
    simp only [next, hc] at hn
    cases es with
    | nil => simp only [Option.some.injEq] at hn; subst hn; exact I.rngEnd hc
    | cons x es =>
      obtain ⟨k, e⟩ := x
      simp only at hn
      cases hv : deref prog (s.sh.ent e) with
      | none =>
        simp only [hv, Option.some.injEq] at hn
        subst hn
        simp only [hv]
        exact I.visit hc (by simp [vl, hv]) (Or.inl rfl)
      | some v =>
        simp only [hv] at hn
        split at hn
        · simp only [Option.some.injEq] at hn
          subst hn
          simp only [hv]
          exact I.visitMark hc hv (Or.inl rfl)
        · simp only [Option.some.injEq] at hn
          subst hn
          simp only [hv]
          exact I.visitMark hc hv (Or.inr rfl)
  | add d r => simp only [next, hc, Option.some.injEq] at hn; subst hn; exact I.add hc
  | fin r => simp only [next, hc, Option.some.injEq] at hn; subst hn; exact I.fin hc
  | done r => simp only [next, hc] at hn; cases hn
  | panic => simp only [next, hc] at hn; cases hn

theorem Inv.init : Inv eqv prog State.init (Ghost.init : Ghost K V) := by
  refine ⟨⟨?_, ?_, ?_, ?_⟩, ?_, ⟨trivial, ?_, ?_, ?_, ?_⟩⟩
  · refine { rwf := awf_nil, dwf := ?_, rkey := ?_, dkey := ?_, sub := ?_, amd := ?_
             rem := ?_, con := ?_, nod := ?_, expub := ?_, fr := ?_, ocut := ?_ } <;>
      simp [State.init, Ghost.init, aget]
  · simp [State.init, PC.locked]
  · simp [Ghost.init]
  · simp [Ghost.init]
  · intro i; simp [OpOk, State.init]
  · intro k; simp [Ghost.init, run, AMap.empty, curv, cur, State.init, aget]
  · simp [Ghost.init]
  · intro i
    have : proj i (Ghost.init : Ghost K V).L = [] := rfl
    rw [this]
    unfold OpTL
    split <;> simp [State.init, RngTL, evs]
  · intro L1 i k v L2 h
    simp [Ghost.init] at h

/-- The invariant holds in all executions. -/
theorem exec_inv {h : List (Ev K V)} {s : State K V} (hx : Exec eqv prog h s) :
    ∃ g, Inv eqv prog s g ∧ hist g.L = h := by
  induction hx with
  | init => exact ⟨_, Inv.init, rfl⟩
  | step _ hs ih =>
    obtain ⟨g, I, hg⟩ := ih
    obtain ⟨g', I', hg'⟩ := I.step hs
    exact ⟨g', I', by rw [hg', hg]⟩
end Verif.RWMap
