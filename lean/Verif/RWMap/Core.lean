import Verif.RWMap.Inv
/-!
# Preservation of the invariant on shared memory
-/
namespace Verif.RWMap
variable {K V : Type} [DecidableEq K] [Inhabited V]

namespace Core
variable {h h' : Sh K} {rm rm' : List (K × Nat)} {g g' : Ghost K V}

theorem congr (c : Core h rm g) (h1 : h'.read = h.read) (h2 : h'.dirty = h.dirty)
    (h3 : h'.ent = h.ent) (h4 : h'.fresh = h.fresh) : Core h' rm g := by
  cases h; cases h'; simp only at h1 h2 h3 h4; subst h1 h2 h3 h4
  exact ⟨c.rwf, c.dwf, c.rkey, c.dkey, c.sub, c.amd, c.rem, c.con, c.nod, c.expub, c.fr, c.ocut⟩

/-- The timeline does not matter. -/
theorem ghost (c : Core h rm g) (h1 : g'.key = g.key) (h2 : g'.pub = g.pub)
    (h3 : g'.orph = g.orph) (h4 : g'.cuts = g.cuts) : Core h rm g' := by
  obtain ⟨a1, a2, a3, a4, a5, a6, a7, a8, a9, a10, a11, a12⟩ := c
  constructor <;> (try rw [h1]) <;> (try rw [h2]) <;> (try rw [h3]) <;> (try rw [h4]) <;> assumption

theorem cur_key (c : Core h rm g) {k : K} {e : Nat} (hc : cur h k = some e) :
    g.key e = some k ∧ e < h.fresh ∧ g.orph e = none := by
  unfold cur at hc
  split at hc
  next e' he =>
    cases hc
    have := c.rkey k e he
    exact ⟨this.1, this.2.1, this.2.2.2⟩
  next he =>
    split at hc
    next ha =>
      cases hd : h.dirty with
      | none => exact absurd hd (c.amd ha)
      | some d =>
        rw [hd] at hc
        have := c.dkey d hd k e hc
        exact ⟨this.1, this.2.1, this.2.2.1⟩
    next => cases hc

theorem cur_inj (c : Core h rm g) {k k' : K} {e : Nat} (h1 : cur h k = some e)
    (h2 : cur h k' = some e) : k = k' := by
  have := (c.cur_key h1).1.symm.trans (c.cur_key h2).1
  exact Option.some.inj this

/-- A reachable entry that has been in `read.m` is in `read.m`. -/
theorem cur_pub (c : Core h rm g) {k : K} {e : Nat} (hc : cur h k = some e) (hp : g.pub e) :
    aget h.read.m k = some e := by
  unfold cur at hc
  split at hc
  next e' he => cases hc; exact he
  next he =>
    split at hc
    next ha =>
      cases hd : h.dirty with
      | none => exact absurd hd (c.amd ha)
      | some d =>
        rw [hd] at hc
        exact absurd hp ((c.dkey d hd k e hc).2.2.2.2 he)
    next => cases hc

/-- Outside `dirtyLocked`, a non-nil `dirty` has all reachable entries that are not expunged. -/
theorem dirty_cur (c : Core h [] g) {d : List (K × Nat)} (hd : h.dirty = some d) {k : K} {e : Nat}
    (hc : aget d k = some e) (ha : h.read.amended = true) : cur h k = some e := by
  unfold cur
  split
  next e' he =>
    have := c.con d hd k e' he (by simp)
    rw [hc] at this
    split at this
    · cases this
    · exact this.symm
  next he => simp [ha, hd, hc]

/-- Replace the pointer in an entry that is not expunged. -/
theorem setEnt (c : Core h rm g) {e : Nat} {p : Ptr} (he : h.ent e ≠ .exp) (hp : p ≠ .exp)
    (ho : ∀ n, g.orph e ≠ some (.cut n)) : Core (h.setEnt e p) rm g := by
  have hx : ∀ x, (h.setEnt e p).ent x = .exp ↔ h.ent x = .exp := by
    intro x
    simp only [Sh.setEnt]
    split
    next hxe => subst hxe; simp [he, hp]
    next => rfl
  refine { rwf := c.rwf, dwf := c.dwf, rkey := c.rkey, dkey := ?_, sub := c.sub, amd := c.amd
           rem := ?_, con := ?_, nod := ?_, expub := ?_, fr := c.fr, ocut := ?_ }
  · intro d hd k e' hk
    obtain ⟨h1, h2, h3, h4, h5⟩ := c.dkey d hd k e' hk
    exact ⟨h1, h2, h3, fun h => h4 ((hx _).1 h), h5⟩
  · intro d hd k e' hk hm
    obtain ⟨h1, h2⟩ := c.rem d hd k e' hk hm
    exact ⟨h1, fun h => h2 ((hx _).1 h)⟩
  · intro d hd k e' hk hm
    rw [c.con d hd k e' hk hm]
    simp only [hx]
  · intro hd k e' hk h
    exact c.nod hd k e' hk ((hx _).1 h)
  · intro e' h
    exact c.expub e' ((hx _).1 h)
  · intro e' n hn
    obtain ⟨h1, h2⟩ := c.ocut e' n hn
    have : e' ≠ e := fun h => ho n (h ▸ hn)
    refine ⟨h1, ?_⟩
    simp only [Sh.setEnt, if_neg this]
    exact h2

/-- A deleted entry of a finished `LoadAndDelete`. -/
theorem toCut (c : Core h rm g) {e : Nat} (he : h.ent e = .nil) (hp : ¬ g.pub e)
    (ho : g.orph e ≠ none) :
    Core h rm { g with orph := fun x => if x = e then some (.cut g.cuts) else g.orph x
                       cuts := g.cuts + 1 } := by
  have hne : ∀ x, g.orph x = none → x ≠ e := fun x hx hxe => ho (hxe ▸ hx)
  refine { rwf := c.rwf, dwf := c.dwf, rkey := ?_, dkey := ?_, sub := c.sub, amd := c.amd
           rem := c.rem, con := c.con, nod := c.nod, expub := c.expub, fr := ?_, ocut := ?_ }
  · intro k e' hk
    obtain ⟨h1, h2, h3, h4⟩ := c.rkey k e' hk
    exact ⟨h1, h2, h3, by simp [hne e' h4, h4]⟩
  · intro d hd k e' hk
    obtain ⟨h1, h2, h3, h4⟩ := c.dkey d hd k e' hk
    exact ⟨h1, h2, by simp [hne e' h3, h3], h4⟩
  · intro e' hf
    obtain ⟨h1, h2, h3⟩ := c.fr e' hf
    exact ⟨h1, by simp [hne e' h2, h2], h3⟩
  · intro e' n hn
    simp only at hn
    split at hn
    next hee => subst hee; cases hn; exact ⟨Nat.lt_succ_self _, Or.inr ⟨he, hp⟩⟩
    next => obtain ⟨h1, h2⟩ := c.ocut e' n hn; exact ⟨Nat.lt_succ_of_lt h1, h2⟩

/-- `m.dirty[key] = newEntry(value)`. -/
theorem putNew (c : Core h [] g) {d : List (K × Nat)} {k : K} {b : Nat} (hd : h.dirty = some d)
    (hr : aget h.read.m k = none) (ha : h.read.amended = true) :
    Core { h with dirty := some (aput d k h.fresh), fresh := h.fresh + 1
                  ent := fun x => if x = h.fresh then .val b else h.ent x } []
      { g with key := fun x => if x = h.fresh then some k else g.key x } := by
  have hne : ∀ x, x < h.fresh → x ≠ h.fresh := fun x hx => by omega
  refine { rwf := c.rwf, dwf := ?_, rkey := ?_, dkey := ?_, sub := ?_, amd := ?_
           rem := ?_, con := ?_, nod := ?_, expub := ?_, fr := ?_, ocut := ?_ }
  · intro d' hd'
    cases hd'
    exact awf_aput (c.dwf d hd) _ _
  · intro k' e' hk
    obtain ⟨h1, h2, h3, h4⟩ := c.rkey k' e' hk
    exact ⟨by simp [hne e' h2, h1], Nat.lt_succ_of_lt h2, h3, h4⟩
  · intro d' hd' k' e' hk
    cases hd'
    rw [aget_aput] at hk
    split at hk
    next hkk =>
      cases hk
      subst hkk
      obtain ⟨h1, h2, h3⟩ := c.fr h.fresh (Nat.le_refl _)
      exact ⟨by simp, Nat.lt_succ_self _, h2, by simp, fun _ => h1⟩
    next =>
      obtain ⟨h1, h2, h3, h4, h5⟩ := c.dkey d hd k' e' hk
      exact ⟨by simp [hne e' h2, h1], Nat.lt_succ_of_lt h2, h3, by simp [hne e' h2, h4], h5⟩
  · intro h'
    exact absurd (ha.symm.trans h') (by simp)
  · simp
  · intro d' hd' k' e' hk hm
    cases hm
  · intro d' hd' k' e' hk hm
    cases hd'
    have hkk : k' ≠ k := fun h => by rw [h, hr] at hk; cases hk
    rw [aget_aput, if_neg (Ne.symm hkk), c.con d hd k' e' hk hm]
    simp [hne e' (c.rkey k' e' hk).2.1]
  · simp
  · intro e' h'
    simp only at h'
    split at h'
    · cases h'
    · exact c.expub e' h'
  · intro e' hf
    have hf : h.fresh + 1 ≤ e' := hf
    obtain ⟨h1, h2, h3⟩ := c.fr e' (by omega)
    exact ⟨h1, h2, by simp [show e' ≠ h.fresh by omega, h3]⟩
  · intro e' n hn
    obtain ⟨h1, h2⟩ := c.ocut e' n hn
    have : e' ≠ h.fresh := by
      intro hh
      rw [hh, (c.fr h.fresh (Nat.le_refl _)).2.1] at hn
      cases hn
    exact ⟨h1, by simpa [this] using h2⟩

/-- Set `amended`. -/
theorem amend (c : Core h [] g) (hd : h.dirty ≠ none) :
    Core { h with read := ⟨h.read.m, true⟩ } [] g :=
  { rwf := c.rwf, dwf := c.dwf, rkey := c.rkey, dkey := c.dkey, sub := by simp
    amd := fun _ => hd, rem := c.rem, con := c.con, nod := c.nod, expub := c.expub, fr := c.fr
    ocut := c.ocut }

/-- `unexpungeLocked`, `m.dirty[key] = e`. -/
theorem unexp (c : Core h [] g) {d : List (K × Nat)} {k : K} {e : Nat} (hd : h.dirty = some d)
    (hr : aget h.read.m k = some e) (he : h.ent e = .exp) :
    Core { h.setEnt e .nil with dirty := some (aput d k e) } [] g := by
  have hk1 := c.rkey k e hr
  refine { rwf := c.rwf, dwf := ?_, rkey := c.rkey, dkey := ?_, sub := ?_, amd := ?_
           rem := ?_, con := ?_, nod := ?_, expub := ?_, fr := c.fr, ocut := ?_ }
  · intro d' hd'
    cases hd'
    exact awf_aput (c.dwf d hd) _ _
  · intro d' hd' k' e' hk
    cases hd'
    rw [aget_aput] at hk
    split at hk
    next hkk =>
      cases hk
      subst hkk
      exact ⟨hk1.1, hk1.2.1, hk1.2.2.2, by simp [Sh.setEnt], fun h' => absurd (hr.symm.trans h') (by simp)⟩
    next hkk =>
      obtain ⟨h1, h2, h3, h4, h5⟩ := c.dkey d hd k' e' hk
      refine ⟨h1, h2, h3, ?_, h5⟩
      simp only [Sh.setEnt]
      split
      · simp
      · exact h4
  · intro h' d' hd' k' e' hk
    cases hd'
    rw [aget_aput] at hk
    split at hk
    next hkk => cases hk; subst hkk; exact hr
    next hkk => exact c.sub h' d hd k' e' hk
  · simp
  · intro d' hd' k' e' hk hm
    cases hm
  · intro d' hd' k' e' hk hm
    cases hd'
    rw [aget_aput]
    by_cases hkk : k' = k
    · subst hkk
      cases hr.symm.trans hk
      simp [Sh.setEnt]
    · have hee : e' ≠ e := by
        intro hee
        have := (c.rkey k' e' hk).1
        rw [hee, hk1.1] at this
        exact hkk (Option.some.inj this).symm
      rw [if_neg (Ne.symm hkk), c.con d hd k' e' hk hm]
      simp [Sh.setEnt, hee]
  · simp
  · intro e' h'
    simp only [Sh.setEnt] at h'
    split at h'
    · cases h'
    · exact c.expub e' h'
  · intro e' n hn
    obtain ⟨h1, h2⟩ := c.ocut e' n hn
    have : e' ≠ e := by
      intro hh
      rw [hh, hk1.2.2.2] at hn
      cases hn
    exact ⟨h1, by simpa [Sh.setEnt, this] using h2⟩

/-- `m.dirty = make(...)`. -/
theorem copy0 (c : Core h [] g) (hd : h.dirty = none) {es : List (K × Nat)}
    (hp : es.Perm h.read.m) : Core { h with dirty := some [] } es g := by
  refine { rwf := c.rwf, dwf := ?_, rkey := c.rkey, dkey := ?_, sub := ?_, amd := ?_
           rem := ?_, con := ?_, nod := ?_, expub := c.expub, fr := c.fr, ocut := c.ocut }
  · intro d' hd'
    cases hd'
    exact awf_nil
  · intro d' hd' k' e' hk
    cases hd'
    cases hk
  · intro h' d' hd' k' e' hk
    cases hd'
    cases hk
  · simp
  · intro d' hd' k' e' hk hm
    cases hd'
    exact ⟨rfl, c.nod hd k' e' hk⟩
  · intro d' hd' k' e' hk hm
    exact absurd (hp.symm.subset (mem_of_aget hk)) hm
  · simp

/-- An entry with a value is copied to `dirty`. -/
theorem copyPut {k : K} {e : Nat} {es : List (K × Nat)} (c : Core h ((k, e) :: es) g)
    (hr : aget h.read.m k = some e) (hn : (((k, e) :: es).map Prod.fst).Nodup)
    (he : h.ent e ≠ .exp) :
    Core (dirtyPut h k e) es g := by
  have hk1 := c.rkey k e hr
  simp only [List.map_cons, List.nodup_cons] at hn
  refine { rwf := c.rwf, dwf := ?_, rkey := c.rkey, dkey := ?_, sub := ?_, amd := ?_
           rem := ?_, con := ?_, nod := ?_, expub := c.expub, fr := c.fr, ocut := c.ocut }
  · intro d' hd'
    simp only [dirtyPut, Option.map_eq_some_iff] at hd'
    obtain ⟨d, hd, rfl⟩ := hd'
    exact awf_aput (c.dwf d hd) _ _
  · intro d' hd' k' e' hk
    simp only [dirtyPut, Option.map_eq_some_iff] at hd'
    obtain ⟨d, hd, rfl⟩ := hd'
    rw [aget_aput] at hk
    split at hk
    next hkk =>
      cases hk
      subst hkk
      exact ⟨hk1.1, hk1.2.1, hk1.2.2.2, he,
        fun h' => absurd (hr.symm.trans h') (by simp)⟩
    next hkk => exact c.dkey d hd k' e' hk
  · intro h' d' hd' k' e' hk
    simp only [dirtyPut, Option.map_eq_some_iff] at hd'
    obtain ⟨d, hd, rfl⟩ := hd'
    rw [aget_aput] at hk
    split at hk
    next hkk => cases hk; subst hkk; exact hr
    next hkk => exact c.sub h' d hd k' e' hk
  · intro ha
    simpa [dirtyPut] using c.amd ha
  · intro d' hd' k' e' hk hm
    simp only [dirtyPut, Option.map_eq_some_iff] at hd'
    obtain ⟨d, hd, rfl⟩ := hd'
    have hkk : k' ≠ k := by
      rintro rfl
      exact hn.1 (List.mem_map.2 ⟨_, hm, rfl⟩)
    rw [aget_aput, if_neg (Ne.symm hkk)]
    exact c.rem d hd k' e' hk (List.mem_cons_of_mem _ hm)
  · intro d' hd' k' e' hk hm
    simp only [dirtyPut, Option.map_eq_some_iff] at hd'
    obtain ⟨d, hd, rfl⟩ := hd'
    rw [aget_aput]
    by_cases hkk : k' = k
    · subst hkk
      rw [show aget (dirtyPut h k' e).read.m k' = some e from hr] at hk
      cases hk
      simp [dirtyPut, he]
    · rw [if_neg (Ne.symm hkk)]
      refine c.con d hd k' e' hk ?_
      simp only [List.mem_cons, not_or]
      exact ⟨fun h => hkk (by cases h; rfl), hm⟩
  · intro hd' k' e' hk
    simp only [dirtyPut, Option.map_eq_none_iff] at hd'
    exact c.nod hd' k' e' hk

/-- A deleted entry is expunged and not copied to `dirty`. -/
theorem copyExp {k : K} {e : Nat} {es : List (K × Nat)} (c : Core h ((k, e) :: es) g)
    (hd : h.dirty ≠ none) (hr : aget h.read.m k = some e)
    (hn : (((k, e) :: es).map Prod.fst).Nodup) :
    Core (h.setEnt e .exp) es g := by
  have hk1 := c.rkey k e hr
  have hn' := hn
  simp only [List.map_cons, List.nodup_cons] at hn
  have hinj : ∀ k' e', g.key e' = some k' → k' ≠ k → e' ≠ e := by
    intro k' e' hk' hkk hee
    rw [hee, hk1.1] at hk'
    exact hkk (Option.some.inj hk').symm
  refine { rwf := c.rwf, dwf := c.dwf, rkey := c.rkey, dkey := ?_, sub := c.sub, amd := c.amd
           rem := ?_, con := ?_, nod := ?_, expub := ?_, fr := c.fr, ocut := ?_ }
  · intro d hd k' e' hk
    obtain ⟨h1, h2, h3, h4, h5⟩ := c.dkey d hd k' e' hk
    have hkk : k' ≠ k := by
      rintro rfl
      rw [(c.rem d hd k' e hr (by simp)).1] at hk
      cases hk
    refine ⟨h1, h2, h3, ?_, h5⟩
    simp only [Sh.setEnt, if_neg (hinj k' e' h1 hkk)]
    exact h4
  · intro d hd k' e' hk hm
    have hkk : k' ≠ k := by
      rintro rfl
      exact hn.1 (List.mem_map.2 ⟨_, hm, rfl⟩)
    simp only [Sh.setEnt, if_neg (hinj k' e' (c.rkey k' e' hk).1 hkk)]
    exact c.rem d hd k' e' hk (List.mem_cons_of_mem _ hm)
  · intro d hd k' e' hk hm
    by_cases hkk : k' = k
    · subst hkk
      rw [show aget (h.setEnt e .exp).read.m k' = some e from hr] at hk
      cases hk
      simp [Sh.setEnt, (c.rem d hd k' e hr (by simp)).1]
    · simp only [Sh.setEnt, if_neg (hinj k' e' (c.rkey k' e' hk).1 hkk)]
      refine c.con d hd k' e' hk ?_
      simp only [List.mem_cons, not_or]
      exact ⟨fun h => hkk (by cases h; rfl), hm⟩
  · intro h'
    exact absurd h' hd
  · intro e' h'
    simp only [Sh.setEnt] at h'
    split at h'
    next hee => subst hee; exact hk1.2.2.1
    next => exact c.expub e' h'
  · intro e' n hn
    obtain ⟨h1, h2⟩ := c.ocut e' n hn
    have : e' ≠ e := by
      intro hh
      rw [hh, hk1.2.2.2] at hn
      cases hn
    exact ⟨h1, by simpa [Sh.setEnt, this] using h2⟩

/-- An entry not in `read.m` is deleted from `dirty`, by `LoadAndDelete` call `i`. -/
theorem del (c : Core h [] g) {d : List (K × Nat)} {k : K} (hd : h.dirty = some d)
    (ha : h.read.amended = true) (hr : aget h.read.m k = none) (i : Nat) :
    Core { h with dirty := some (adel d k) } []
      { g with orph := fun x => if aget d k = some x then some (.lin i) else g.orph x } := by
  have hne : ∀ x k', g.key x = some k' → k' ≠ k → aget d k ≠ some x := by
    intro x k' hx hk hh
    rw [(c.dkey d hd k x hh).1] at hx
    exact hk (Option.some.inj hx).symm
  refine { rwf := c.rwf, dwf := ?_, rkey := ?_, dkey := ?_, sub := ?_, amd := ?_
           rem := ?_, con := ?_, nod := ?_, expub := c.expub, fr := ?_, ocut := ?_ }
  · intro d' hd'
    cases hd'
    exact awf_adel (c.dwf d hd) _
  · intro k' e' hk
    obtain ⟨h1, h2, h3, h4⟩ := c.rkey k' e' hk
    have hkk : k' ≠ k := fun h => by rw [h, hr] at hk; cases hk
    exact ⟨h1, h2, h3, by simp [hne e' k' h1 hkk, h4]⟩
  · intro d' hd' k' e' hk
    cases hd'
    rw [aget_adel] at hk
    split at hk
    next => cases hk
    next hkk =>
      obtain ⟨h1, h2, h3, h4⟩ := c.dkey d hd k' e' hk
      exact ⟨h1, h2, by simp [hne e' k' h1 (Ne.symm hkk), h3], h4⟩
  · intro h'
    exact absurd (ha.symm.trans h') (by simp)
  · simp
  · intro d' hd' k' e' hk hm
    cases hm
  · intro d' hd' k' e' hk hm
    cases hd'
    have hkk : k' ≠ k := fun h => by rw [h, hr] at hk; cases hk
    rw [aget_adel, if_neg (Ne.symm hkk)]
    exact c.con d hd k' e' hk hm
  · simp
  · intro e' hf
    obtain ⟨h1, h2, h3⟩ := c.fr e' hf
    refine ⟨h1, ?_, h3⟩
    simp only
    split
    next hh =>
      have := (c.dkey d hd k e' hh).2.1
      have hf : h.fresh ≤ e' := hf
      omega
    next => exact h2
  · intro e' n hn
    simp only at hn
    split at hn
    · cases hn
    · exact c.ocut e' n hn

open Classical in
/-- Promotion of `dirty`. -/
theorem promote (c : Core h [] g) {d : List (K × Nat)} (hd : h.dirty = some d) :
    Core { h with read := ⟨d, false⟩, dirty := none, misses := 0 } []
      { g with pub := fun x => g.pub x ∨ ∃ k, aget d k = some x
               orph := fun x => if h.ent x = .exp ∧ ∃ k, aget h.read.m k = some x then
                 some (.cut g.cuts) else g.orph x
               cuts := g.cuts + 1 } := by
  refine { rwf := c.dwf d hd, dwf := ?_, rkey := ?_, dkey := ?_, sub := ?_, amd := ?_
           rem := ?_, con := ?_, nod := ?_, expub := ?_, fr := ?_, ocut := ?_ }
  · simp
  · intro k e hk
    obtain ⟨h1, h2, h3, h4, h5⟩ := c.dkey d hd k e hk
    exact ⟨h1, h2, Or.inr ⟨k, hk⟩, by simp [h4, h3]⟩
  · simp
  · simp
  · simp
  · simp
  · simp
  · intro _ k e hk
    exact (c.dkey d hd k e hk).2.2.2.1
  · intro e he
    exact Or.inl (c.expub e he)
  · intro e hf
    have hf : h.fresh ≤ e := hf
    obtain ⟨h1, h2, h3⟩ := c.fr e hf
    refine ⟨?_, ?_, h3⟩
    · rintro (hh | ⟨k, hk⟩)
      · exact h1 hh
      · have := (c.dkey d hd k e hk).2.1
        omega
    · have : ¬ (h.ent e = .exp ∧ ∃ k, aget h.read.m k = some e) := fun hh => h1 (c.expub e hh.1)
      simp only [if_neg this]
      exact h2
  · intro e n hn
    simp only at hn
    split at hn
    next hh => cases hn; exact ⟨Nat.lt_succ_self _, Or.inl hh.1⟩
    next =>
      obtain ⟨h1, h2⟩ := c.ocut e n hn
      refine ⟨Nat.lt_succ_of_lt h1, ?_⟩
      rcases h2 with h2 | ⟨h2, h3⟩
      · exact Or.inl h2
      · refine Or.inr ⟨h2, ?_⟩
        rintro (hh | ⟨k, hk⟩)
        · exact h3 hh
        · rw [(c.dkey d hd k e hk).2.2.1] at hn
          cases hn

open Classical in
/-- `Clear` call `i`. -/
theorem wipe (c : Core h [] g) (i : Nat) :
    Core { h with read := ⟨[], false⟩, dirty := h.dirty.map (fun _ => []), misses := 0 } []
      { g with orph := fun x => if ∃ k, cur h k = some x then some (.lin i) else g.orph x } := by
  refine { rwf := awf_nil, dwf := ?_, rkey := ?_, dkey := ?_, sub := ?_, amd := ?_
           rem := ?_, con := ?_, nod := ?_, expub := c.expub, fr := ?_, ocut := ?_ }
  · intro d' hd'
    simp only [Option.map_eq_some_iff] at hd'
    obtain ⟨d, hd, rfl⟩ := hd'
    exact awf_nil
  · intro k e hk
    cases hk
  · intro d' hd' k e hk
    simp only [Option.map_eq_some_iff] at hd'
    obtain ⟨d, hd, rfl⟩ := hd'
    cases hk
  · intro _ d' hd' k e hk
    simp only [Option.map_eq_some_iff] at hd'
    obtain ⟨d, hd, rfl⟩ := hd'
    cases hk
  · simp
  · intro d' hd' k e hk
    cases hk
  · intro d' hd' k e hk
    cases hk
  · intro d' k e hk
    cases hk
  · intro e hf
    obtain ⟨h1, h2, h3⟩ := c.fr e hf
    have hf : h.fresh ≤ e := hf
    refine ⟨h1, ?_, h3⟩
    have : ¬ ∃ k, cur h k = some e := by
      rintro ⟨k, hk⟩
      have := (c.cur_key hk).2.1
      omega
    simp only [if_neg this]
    exact h2
  · intro e n hn
    simp only at hn
    split at hn
    · cases hn
    · exact c.ocut e n hn

/-- `Clear` of an empty map. -/
theorem clearEmpty (c : Core h [] g) (hr : h.read.m = []) (ha : h.read.amended = false) :
    Core { h with dirty := h.dirty.map (fun _ => []), misses := 0 } [] g := by
  refine { rwf := c.rwf, dwf := ?_, rkey := c.rkey, dkey := ?_, sub := ?_, amd := ?_
           rem := ?_, con := ?_, nod := ?_, expub := c.expub, fr := c.fr, ocut := c.ocut }
  · intro d' hd'
    simp only [Option.map_eq_some_iff] at hd'
    obtain ⟨d, hd, rfl⟩ := hd'
    exact awf_nil
  · intro d' hd' k e hk
    simp only [Option.map_eq_some_iff] at hd'
    obtain ⟨d, hd, rfl⟩ := hd'
    cases hk
  · intro _ d' hd' k e hk
    simp only [Option.map_eq_some_iff] at hd'
    obtain ⟨d, hd, rfl⟩ := hd'
    cases hk
  · simp [ha]
  · intro d' hd' k e hk
    simp [hr, aget] at hk
  · intro d' hd' k e hk
    simp [hr, aget] at hk
  · intro d' k e hk
    simp [hr, aget] at hk

end Core
end Verif.RWMap
