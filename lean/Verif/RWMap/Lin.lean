import Verif.RWMap.Steps7
/-!
# Linearizability from the timeline
-/
namespace Verif.RWMap
variable {K V : Type} [DecidableEq K] [Inhabited V]
variable {eqv : V → V → Option Bool} {prog : Nat → Op K V}

/-- Keep invocations, effects and returns. -/
def TE.lev? : TE K V → Option (LEv K V)
  | .inv i => some (.inv i)
  | .lin i _ => some (.eff i)
  | .visit i k v => some (.visit i k v)
  | .ret i r => some (.ret i r)
  | _ => none

def levs (L : List (TE K V)) : List (LEv K V) := L.filterMap TE.lev?

theorem levs_append (L M : List (TE K V)) : levs (L ++ M) = levs L ++ levs M := by
  simp [levs]

theorem levs_ev (L : List (TE K V)) : (levs L).filterMap LEv.ev? = hist L := by
  simp only [levs, hist, List.filterMap_filterMap]
  congr 1
  funext x
  cases x <;> rfl

theorem effects_levs (L : List (TE K V)) (A : AMap K V) :
    effects eqv prog (levs L) A = run eqv prog L A := by
  induction L generalizing A with
  | nil => rfl
  | cons x L ih =>
    cases x <;> simp only [levs, List.filterMap_cons, TE.lev?, run, app, effects] <;> exact ih _

theorem levs_call (i : Nat) (L : List (TE K V)) (hv : ∀ k v, .visit i k v ∉ L) :
    (levs L).filter (·.call == i) = levs (proj i L) := by
  induction L with
  | nil => rfl
  | cons x L ih =>
    have ih := ih (fun k v h => hv k v (by simp [h]))
    have hv' : ∀ k v, x ≠ .visit i k v := fun k v h => hv k v (by simp [h])
    by_cases hx : x.owner = some i
    · rw [proj_cons_own hx]
      cases x <;> simp only [TE.owner, Option.some.injEq, reduceCtorEq] at hx <;>
        (try subst hx) <;> simpa [levs, TE.lev?, LEv.call, List.filterMap_cons] using ih
    · rw [proj_cons_other hx]
      cases x with
      | visit j k v =>
        have hj : j ≠ i := fun h => hv' k v (by rw [h])
        simpa [levs, TE.lev?, LEv.call, List.filterMap_cons, List.filter_cons, hj] using ih
      | _ =>
        simp only [TE.owner, Option.some.injEq] at hx
        simpa [levs, TE.lev?, LEv.call, List.filterMap_cons, List.filter_cons, hx] using ih

theorem mem_levs {L : List (TE K V)} {y : LEv K V} : y ∈ levs L ↔ ∃ x ∈ L, x.lev? = some y := by
  simp [levs]

theorem ret_mem_levs {L : List (TE K V)} {i : Nat} {r : Res K V} :
    .ret i r ∈ levs L ↔ .ret i r ∈ L := by
  rw [mem_levs]
  constructor
  · rintro ⟨x, hx, h⟩; cases x <;> simp_all [TE.lev?]
  · intro h; exact ⟨_, h, rfl⟩

theorem inv_mem_levs {L : List (TE K V)} {i : Nat} :
    .inv i ∈ levs L ↔ .inv i ∈ L := by
  rw [mem_levs]
  constructor
  · rintro ⟨x, hx, h⟩; cases x <;> simp_all [TE.lev?]
  · intro h; exact ⟨_, h, rfl⟩

theorem eff_mem_levs {L : List (TE K V)} {i : Nat} :
    .eff i ∈ levs L ↔ ∃ r, .lin i r ∈ L := by
  rw [mem_levs]
  constructor
  · rintro ⟨x, hx, h⟩
    cases x <;> simp only [TE.lev?, Option.some.injEq, reduceCtorEq, LEv.eff.injEq] at h
    subst h
    exact ⟨_, hx⟩
  · rintro ⟨r, h⟩; exact ⟨_, h, rfl⟩

/-- Cutting at an effect. -/
theorem levs_split {L : List (TE K V)} {L1 L2 : List (LEv K V)} {i : Nat}
    (h : levs L = L1 ++ .eff i :: L2) :
    ∃ M1 r M2, L = M1 ++ .lin i r :: M2 ∧ levs M1 = L1 ∧ levs M2 = L2 := by
  obtain ⟨l1, l2, rfl, h1, h2⟩ := List.filterMap_eq_append_iff.1 h
  obtain ⟨m1, b, m2, rfl, hm1, hb, hm2⟩ := List.filterMap_eq_cons_iff.1 h2
  cases b <;> simp only [TE.lev?, Option.some.injEq, reduceCtorEq, LEv.eff.injEq] at hb
  rename_i j r
  subst hb
  refine ⟨l1 ++ m1, r, m2, by simp, ?_, hm2⟩
  rw [levs_append]
  have : levs m1 = [] := by
    rw [levs, List.filterMap_eq_nil_iff]; exact hm1
  rw [this, List.append_nil]; exact h1

/-- The possible event lists of a map call. -/
theorem evs_cases (s : State K V) (g : Ghost K V) (i : Nat) :
    let P := evs prog s.sh g i (s.pc i)
    P = [] ∨ P = [.inv i] ∨ (∃ r, P = [.inv i, .lin i r]) ∨
      ∃ r, P = [.inv i, .lin i r, .ret i r] := by
  simp only
  unfold evs
  split
  · exact Or.inl rfl
  · exact Or.inr (Or.inr (Or.inl ⟨_, rfl⟩))
  · exact Or.inr (Or.inr (Or.inl ⟨_, rfl⟩))
  · exact Or.inr (Or.inr (Or.inl ⟨_, rfl⟩))
  · exact Or.inr (Or.inr (Or.inl ⟨_, rfl⟩))
  · exact Or.inr (Or.inr (Or.inl ⟨_, rfl⟩))
  · exact Or.inr (Or.inr (Or.inr ⟨_, rfl⟩))
  · unfold pend
    split
    · split
      · exact Or.inr (Or.inr (Or.inl ⟨_, rfl⟩))
      · exact Or.inr (Or.inl rfl)
    · exact Or.inr (Or.inl rfl)

variable {s : State K V} {g : Ghost K V}

theorem Inv.proj_cases (I : Inv eqv prog s g) (i : Nat) (hm : (prog i).isMap = true) :
    proj i g.L = [] ∨ proj i g.L = [.inv i] ∨ (∃ r, proj i g.L = [.inv i, .lin i r]) ∨
      ∃ r, proj i g.L = [.inv i, .lin i r, .ret i r] := by
  have h := I.tl.tl i
  rw [opTL_map hm] at h
  have hc := evs_cases (prog := prog) s g i
  simp only at hc
  rwa [← h] at hc

/-- A call that is not a map operation has no effect. -/
theorem Inv.lin_isMap (I : Inv eqv prog s g) {i : Nat} {r : Res K V} (h : .lin i r ∈ g.L) :
    (prog i).isMap = true := by
  have hp : TE.lin i r ∈ proj i g.L := mem_proj.2 ⟨h, rfl⟩
  have ht := I.tl.tl i
  have hr : ∀ (es : List K) acc rest, RngEvs i es acc rest → TE.lin (K := K) (V := V) i r ∉ rest := by
    intro es acc rest R hx
    rcases R.only _ hx with ⟨_, h⟩ | ⟨_, _, h⟩ <;> cases h
  cases hop : prog i with
  | range =>
    exfalso
    rw [opTL_range hop] at ht
    unfold RngTL at ht
    split at ht
    · rw [ht] at hp; simp at hp
    · rw [ht] at hp; simp at hp
    · rw [ht] at hp; simp at hp
    · obtain ⟨rest, h1, h2⟩ := ht
      rw [h1] at hp; simp at hp; exact hr _ _ _ h2 hp
    · obtain ⟨rest, acc, stop, es, _, h1, h2, _⟩ := ht
      rw [h1] at hp; simp at hp; exact hr _ _ _ h2 hp
    · obtain ⟨rest, acc, stop, es, _, h1, h2, _⟩ := ht
      rw [h1] at hp; simp at hp; exact hr _ _ _ h2 hp
    · exact ht
    · rw [ht] at hp; simp at hp
  | len =>
    exfalso
    unfold OpTL at ht
    rw [hop] at ht
    simp only at ht
    split at ht <;> rw [ht] at hp <;> simp at hp
  | _ => rfl

/-- Only Range calls functions. -/
theorem Inv.visit_range (I : Inv eqv prog s g) {i : Nat} {k : K} {v : V} (h : .visit i k v ∈ g.L) : prog i = .range := by
  obtain ⟨L1, L2, hL⟩ := List.append_of_mem h
  have hp : TE.vis i k (some v) ∈ proj i g.L := mem_proj.2 ⟨by rw [hL]; simp [I.tl.seen L1 i k v L2 hL], rfl⟩
  by_cases hm : (prog i).isMap = true
  · rcases I.proj_cases i hm with h | h | ⟨r, h⟩ | ⟨r, h⟩ <;> rw [h] at hp <;> simp at hp
  · cases hop : prog i with
    | range => rfl
    | len =>
      exfalso
      have ht := I.tl.tl i
      unfold OpTL at ht
      rw [hop] at ht
      simp only at ht
      split at ht <;> rw [ht] at hp <;> simp at hp
    | _ => rw [hop] at hm; exact absurd rfl hm

/-- The timeline without cuts and Range events linearizes the history. -/
theorem Inv.linearizes (I : Inv eqv prog s g) : Linearizes eqv prog (levs g.L) (hist g.L) := by
  refine ⟨levs_ev g.L, ?_⟩
  intro i hm
  have hc := I.proj_cases i hm
  simp only [levs_call i g.L (fun k v h => by rw [I.visit_range h] at hm; cases hm)]
  constructor
  · rcases hc with h | h | ⟨r, h⟩ | ⟨r, h⟩ <;> rw [h]
    · exact Or.inl rfl
    · exact Or.inr (Or.inl rfl)
    · exact Or.inr (Or.inr (Or.inl rfl))
    · exact Or.inr (Or.inr (Or.inr ⟨r, rfl⟩))
  · intro L1 L2 r hL hr
    obtain ⟨M1, r0, M2, hM, h1, h2⟩ := levs_split hL
    rw [← h2, ret_mem_levs] at hr
    have hleg := I.tl.legal
    rw [hM, legal_append] at hleg
    have hok : (apply eqv (prog i) (run eqv prog M1 AMap.empty)).2 = r0 := hleg.2.1
    rw [resultOn, ← h1, effects_levs, hok]
    have e1 : TE.lin i r0 ∈ proj i g.L := mem_proj.2 ⟨by rw [hM]; simp, rfl⟩
    have e2 : TE.ret i r ∈ proj i g.L := mem_proj.2 ⟨by rw [hM]; simp [hr], rfl⟩
    rcases hc with h | h | ⟨r', h⟩ | ⟨r', h⟩ <;> rw [h] at e1 e2 <;> simp at e1 e2
    rw [e1, e2]

/-- In a list of events of one call between its invocation and its return. -/
theorem proj_between {i : Nat} {M1 M2 rest : List (TE K V)} {x : TE K V} {r : Res K V}
    (hx : x.owner = some i) (h : proj i (M1 ++ x :: M2) = .inv i :: (rest ++ [.ret i r]))
    (h1 : x ≠ .inv i) (h2 : x ≠ .ret i r) : .inv i ∈ M1 ∧ .ret i r ∈ M2 := by
  rw [proj_append, proj_cons_own hx] at h
  constructor
  · cases hp : proj i M1 with
    | nil => rw [hp] at h; simp at h; exact absurd h.1 h1
    | cons a as =>
      rw [hp] at h; simp at h
      exact (mem_proj.1 (by rw [hp, h.1]; simp)).1
  · have h' : proj i M1 ++ [x] ++ proj i M2 = (.inv i :: rest) ++ [.ret i r] := by simpa using h
    rcases List.eq_nil_or_concat (proj i M2) with hp | ⟨as, a, hp⟩
    · rw [hp, List.append_nil] at h'
      have := List.append_inj_right' h' rfl
      simp at this
      exact absurd this h2
    · rw [hp, List.concat_eq_append, ← List.append_assoc] at h'
      have := List.append_inj_right' h' rfl
      simp at this
      subst this
      exact (mem_proj.1 (by rw [hp]; simp)).1

/-- What a Range call that returned has seen. -/
theorem Inv.range_ok (I : Inv eqv prog s g) {i : Nat} {r : Res K V} (hop : prog i = .range)
    (hr : .ret i r ∈ g.L) : RangeOk eqv prog (levs g.L) i r := by
  have hp : TE.ret i r ∈ proj i g.L := mem_proj.2 ⟨hr, rfl⟩
  have ht := I.tl.tl i
  rw [opTL_range hop] at ht
  have hno : ∀ (es : List K) acc rest, RngEvs i es acc rest → TE.ret (K := K) (V := V) i r ∉ rest := by
    intro es acc rest R hx
    rcases R.only _ hx with ⟨_, h⟩ | ⟨_, _, h⟩ <;> cases h
  have key : ∃ rest acc stop es, r = .visited acc stop ∧ proj i g.L = .inv i :: (rest ++ [.ret i r]) ∧
      RngEvs i es acc rest ∧ (stop = false → es = []) := by
    unfold RngTL at ht
    split at ht
    · rw [ht] at hp; simp at hp
    · rw [ht] at hp; simp at hp
    · rw [ht] at hp; simp at hp
    · obtain ⟨rest, h1, h2⟩ := ht
      rw [h1] at hp; simp at hp; exact absurd hp (hno _ _ _ h2)
    · obtain ⟨rest, acc, stop, es, _, h1, h2, _⟩ := ht
      rw [h1] at hp; simp at hp; exact absurd hp (hno _ _ _ h2)
    · obtain ⟨rest, acc, stop, es, hr', h1, h2, h3⟩ := ht
      rw [h1] at hp
      simp only [List.mem_cons, reduceCtorEq, List.mem_append, TE.ret.injEq, true_and,
        List.not_mem_nil, or_false, false_or] at hp
      rcases hp with hp | hp
      · exact absurd hp (hno _ _ _ h2)
      · subst hp
        exact ⟨rest, acc, stop, es, hr', h1, h2, h3⟩
    · exact ht.elim
    · rw [ht] at hp; simp at hp
  obtain ⟨rest, acc, stop, es, rfl, hP, R, hstop⟩ := key
  have hat : ∀ x ∈ rest, ∃ L1 L2, levs g.L = L1 ++ L2 ∧ .inv i ∈ L1 ∧
      .ret i (.visited acc stop) ∈ L2 ∧ okE eqv prog x (effects eqv prog L1 AMap.empty) := by
    intro x hx
    have hxm := mem_proj.1 (show x ∈ proj i g.L by rw [hP]; simp [hx])
    obtain ⟨M1, M2, hM⟩ := List.append_of_mem hxm.1
    have hne : x ≠ .inv i ∧ x ≠ .ret i (.visited acc stop) := by
      rcases R.only x hx with ⟨ks, rfl⟩ | ⟨k, o, rfl⟩ <;> simp
    have hP' := hP
    rw [hM] at hP'
    obtain ⟨h1, h2⟩ := proj_between hxm.2 hP' hne.1 hne.2
    have hleg := I.tl.legal
    rw [hM, legal_append] at hleg
    refine ⟨levs M1, levs (x :: M2), ?_, inv_mem_levs.2 h1, ret_mem_levs.2 (by simp [h2]), ?_⟩
    · rw [hM, levs_append]
    · rw [effects_levs]; exact hleg.2.1
  refine ⟨acc, stop, rfl, R.nodup, ?_, ?_⟩
  · intro k v hkv
    obtain ⟨L1, L2, h1, h2, h3, h4⟩ := hat _ ((R.seen k v).1 hkv)
    exact ⟨L1, L2, h1, h2, h3, h4⟩
  · intro hs k hk
    obtain ⟨ks, hks, hall⟩ := R.snap
    have : ∃ x ∈ rest, ∀ A : AMap K V, okE eqv prog x A → A k = none := by
      by_cases hin : k ∈ ks
      · rcases hall k hin with h | ⟨o, h⟩
        · rw [hstop hs] at h; cases h
        · cases o with
          | none => exact ⟨_, h, fun A hA => hA⟩
          | some v =>
            exact absurd (List.mem_map.2 ⟨(k, v), (R.seen k v).2 h, rfl⟩) hk
      · exact ⟨_, hks, fun A hA => hA k hin⟩
    obtain ⟨x, hx, hA⟩ := this
    obtain ⟨L1, L2, h1, h2, h3, h4⟩ := hat x hx
    exact ⟨L1, L2, h1, h2, h3, hA _ h4⟩

/-- A Range call has seen in the map what it calls its function with. -/
theorem Inv.visit_ok (I : Inv eqv prog s g) : VisitOk eqv prog (levs g.L) := by
  intro i k v L1 L2 hL
  obtain ⟨l1, l2, hl, h1, h2⟩ := List.filterMap_eq_append_iff.1 hL
  obtain ⟨m1, b, m2, rfl, hm1, hb, hm2⟩ := List.filterMap_eq_cons_iff.1 h2
  cases b <;> simp only [TE.lev?, Option.some.injEq, reduceCtorEq, LEv.visit.injEq] at hb
  obtain ⟨rfl, rfl, rfl⟩ := hb
  rename_i i k v
  have hgL : g.L = (l1 ++ m1) ++ .visit i k v :: m2 := by rw [hl]; simp
  have hop := I.visit_range (show .visit i k v ∈ g.L by rw [hgL]; simp)
  obtain ⟨N1, N2, hN⟩ := List.append_of_mem (I.tl.seen _ i k v _ hgL)
  have hg' : g.L = N1 ++ .vis i k (some v) :: (N2 ++ .visit i k v :: m2) := by rw [hgL, hN]; simp
  have hleg := I.tl.legal
  rw [hg', legal_append] at hleg
  have hlev : levs (l1 ++ m1) = L1 := by
    rw [levs_append, show levs m1 = [] from List.filterMap_eq_nil_iff.2 hm1, List.append_nil]
    exact h1
  refine ⟨levs N1, levs (.vis i k (some v) :: N2), ?_, ?_, ?_⟩
  · rw [← hlev, hN, levs_append]
  · have hfst : ∃ rest, proj i g.L = .inv i :: rest := by
      have ht := I.tl.tl i
      rw [opTL_range hop] at ht
      have hne : TE.vis i k (some v) ∈ proj i g.L := mem_proj.2 ⟨by rw [hg']; simp, rfl⟩
      unfold RngTL at ht
      split at ht
      · rw [ht] at hne; simp at hne
      · exact ⟨_, ht⟩
      · exact ⟨_, ht⟩
      · obtain ⟨rest, h, _⟩ := ht; exact ⟨_, h⟩
      · obtain ⟨rest, _, _, _, _, h, _⟩ := ht; exact ⟨_, h⟩
      · obtain ⟨rest, _, _, _, _, h, _⟩ := ht; exact ⟨_, h⟩
      · exact ht.elim
      · exact ⟨_, ht⟩
    obtain ⟨rest, hr⟩ := hfst
    rw [hg', proj_append, proj_cons_own rfl] at hr
    rw [inv_mem_levs]
    cases hp : proj i N1 with
    | nil => rw [hp] at hr; simp at hr
    | cons a as =>
      rw [hp] at hr; simp at hr
      exact (mem_proj.1 (by rw [hp, hr.1]; simp)).1
  · rw [effects_levs]; exact hleg.2.1

end Verif.RWMap
