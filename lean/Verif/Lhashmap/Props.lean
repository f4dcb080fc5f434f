import Verif.Lhashmap.Inv
/-!
# Properties of `lhashmap` (C37, C38)
-/
namespace Verif.Lhashmap
open Verif.Lhashmap.Spec
variable {A K V : Type} [DecidableEq K]

/-! ## The recency list of a history -/

/-- Bindings, most recently used first, after one more call. -/
def recent (xs : List (K × V)) : Op A K V → List (K × V)
  | .load k => match aget xs k with
    | some v => (k, v) :: adel xs k
    | none => xs
  | .store k v => (k, v) :: adel xs k
  | .remove k => adel xs k
  | .len | .range _ _ => xs
  | .clear => []

def result (xs : List (K × V)) : Op A K V → Res A V
  | .load k => .val (aget xs k)
  | .len => .int xs.length
  | .range f a => .vars (visit f a xs)
  | _ => .unit

theorem aget_items {ys : List (Item K V)} {k : K} :
    (aget (ys.map Item.kv) k = none ∧ ∀ y ∈ ys, y.k ≠ k) ∨
    ∃ ys1 y ys2, ys = ys1 ++ y :: ys2 ∧ y.k = k ∧ aget (ys.map Item.kv) k = some y.v := by
  induction ys with
  | nil => exact Or.inl ⟨rfl, by simp⟩
  | cons y ys ih =>
    by_cases hy : y.k = k
    · exact Or.inr ⟨[], y, ys, rfl, hy, by simp [aget, Item.kv, hy]⟩
    · rcases ih with ⟨h1, h2⟩ | ⟨ys1, z, ys2, rfl, h2, h3⟩
      · refine Or.inl ⟨by simpa [aget, Item.kv, hy] using h1, ?_⟩
        intro z hz
        rcases List.mem_cons.1 hz with rfl | hz
        · exact hy
        · exact h2 z hz
      · refine Or.inr ⟨y :: ys1, z, ys2, rfl, h2, ?_⟩
        have : aget ((y :: (ys1 ++ z :: ys2)).map Item.kv) k =
            aget ((ys1 ++ z :: ys2).map Item.kv) k := by simp [aget, Item.kv, hy]
        rw [this, h3]

theorem adel_items {ys1 ys2 : List (Item K V)} {y : Item K V}
    (hk : ((ys1 ++ y :: ys2).map Item.k).Nodup) :
    adel ((ys1 ++ y :: ys2).map Item.kv) y.k = (ys1 ++ ys2).map Item.kv := by
  have h := split_key hk
  have key : ∀ zs : List (Item K V), (∀ z ∈ zs, z.k ≠ y.k) →
      adel (zs.map Item.kv) y.k = zs.map Item.kv := by
    intro zs hz
    unfold adel
    rw [List.filter_eq_self]
    intro p hp
    obtain ⟨z, hz', rfl⟩ := List.mem_map.1 hp
    exact decide_eq_true (hz z hz')
  have h1 := key ys1 (fun z hz => h z (by simp [hz]))
  have h2 := key ys2 (fun z hz => h z (by simp [hz]))
  unfold adel at *
  rw [List.map_append, List.map_cons, List.filter_append, List.filter_cons, h1]
  have : decide ((Item.kv y).1 ≠ y.k) = false := by simp [Item.kv]
  rw [this]
  simp only [Bool.false_eq_true, if_false, h2, List.map_append]

theorem adel_none {ys : List (Item K V)} {k : K} (h : ∀ y ∈ ys, y.k ≠ k) :
    adel (ys.map Item.kv) k = ys.map Item.kv := by
  unfold adel
  rw [List.filter_eq_self]
  intro p hp
  obtain ⟨z, hz', rfl⟩ := List.mem_map.1 hp
  exact decide_eq_true (h z hz')

/-- Every call terminates without panic, and does on the recency list what `recent` says. -/
theorem sim_step {s : LH K V} {S : Nat → List Nat} {ys : List (Item K V)} (h : Inv s S ys)
    (op : Op A K V) : ∃ s' S' ys', MStep s op (result (ys.map Item.kv) op) s' ∧ Inv s' S' ys' ∧
      ys'.map Item.kv = recent (ys.map Item.kv) op := by
  cases op with
  | load k =>
    rcases aget_items (ys := ys) (k := k) with ⟨h1, h2⟩ | ⟨ys1, y, ys2, rfl, rfl, h3⟩
    · refine ⟨s, S, ys, ⟨0, fun _ _ => ?_⟩, h, by simp [recent, h1]⟩
      have : aget s.m k = none := by
        cases e : aget s.m k with
        | none => rfl
        | some e' =>
          obtain ⟨y, hy, hk, _⟩ := h.mem k e' e
          exact absurd hk (h2 y hy)
      simp [exec, load, this, result, h1]
    · obtain ⟨mem', m1, S', m2⟩ := h.move
      refine ⟨_, S', _, ⟨0, fun _ _ => ?_⟩, m2, ?_⟩
      · simp only [exec, load, h.get y (by simp), m1, m2.entry (y := y) (by simp), result, h3,
          Option.bind_eq_bind, Option.bind_some]
      · simp only [recent, h3, adel_items h.keys]; rfl
  | store k v =>
    rcases aget_items (ys := ys) (k := k) with ⟨h1, h2⟩ | ⟨ys1, y, ys2, rfl, rfl, h3⟩
    · have : aget s.m k = none := by
        cases e : aget s.m k with
        | none => rfl
        | some e' =>
          obtain ⟨y, hy, hk, _⟩ := h.mem k e' e
          exact absurd hk (h2 y hy)
      obtain ⟨mem', m1, S', m2⟩ := h.push this v
      refine ⟨_, S', _, ⟨0, fun _ _ => ?_⟩, m2, ?_⟩
      · simp [exec, store, this, m1, result]
      · simp only [recent, adel_none h2]; rfl
    · obtain ⟨mem', m1, S', m2⟩ := (h.assign v).move
      refine ⟨_, S', _, ⟨0, fun _ _ => ?_⟩, m2, ?_⟩
      · simp only [exec, store, h.get y (by simp), h.entry (y := y) (by simp), m1, result,
          Option.bind_eq_bind, Option.bind_some]
      · simp only [recent, adel_items h.keys]; rfl
  | remove k =>
    rcases aget_items (ys := ys) (k := k) with ⟨h1, h2⟩ | ⟨ys1, y, ys2, rfl, rfl, h3⟩
    · have : aget s.m k = none := by
        cases e : aget s.m k with
        | none => rfl
        | some e' =>
          obtain ⟨y, hy, hk, _⟩ := h.mem k e' e
          exact absurd hk (h2 y hy)
      refine ⟨s, S, ys, ⟨0, fun _ _ => ?_⟩, h, by simp only [recent, adel_none h2]⟩
      simp [exec, remove, this, result]
    · obtain ⟨mem', v, m1, S', m2⟩ := h.del
      refine ⟨_, S', _, ⟨0, fun _ _ => ?_⟩, m2, ?_⟩
      · simp [exec, remove, h.get y (by simp), m1, result]
      · simp only [recent, adel_items h.keys]
  | len =>
    exact ⟨s, S, ys, ⟨0, fun _ _ => by simp [exec, len, result, h.length]⟩, h, rfl⟩
  | range f a =>
    refine ⟨s, S, ys, ⟨ys.length + 1, fun fuel hf => ?_⟩, h, rfl⟩
    have hfr := Dllist.front_rep h.rep h.inited
    have hr := h.rangeLoop f ys [] rfl a fuel (by omega)
    rw [← h.seq] at hr
    simp only [exec, range, hfr, hr, result, Option.bind_eq_bind, Option.bind_some]
  | clear =>
    obtain ⟨S', h'⟩ := h.clear
    exact ⟨_, S', [], ⟨0, fun _ _ => rfl⟩, h', rfl⟩

theorem MStep.det {s s1 s2 : LH K V} {op : Op A K V} {r1 r2 : Res A V} (h1 : MStep s op r1 s1)
    (h2 : MStep s op r2 s2) : r1 = r2 ∧ s1 = s2 := by
  obtain ⟨F1, h1⟩ := h1
  obtain ⟨F2, h2⟩ := h2
  have e1 := h1 (max F1 F2) (by omega)
  rw [h2 (max F1 F2) (by omega)] at e1
  injection e1 with e1
  injection e1 with e1 e2
  exact ⟨e2.symm, e1.symm⟩

theorem run_inv {h : List (Op A K V)} {s : LH K V} (hr : MRun h s) :
    ∃ S ys, Inv s S ys ∧ ys.map Item.kv = h.foldl recent [] := by
  induction hr with
  | nil => exact ⟨_, [], Inv.init, rfl⟩
  | snoc _ hs ih =>
    obtain ⟨S, ys, hI, he⟩ := ih
    obtain ⟨s', S', ys', h1, h2, h3⟩ := sim_step hI _
    obtain ⟨rfl, rfl⟩ := hs.det h1
    exact ⟨S', ys', h2, by rw [h3, he, List.foldl_append]; rfl⟩

/-! ## The recency list against the specification -/

theorem current_snoc (k : K) (h : List (Op A K V)) (op : Op A K V) :
    current k (h ++ [op]) = match op with
      | .store k' v => if k' = k then some v else current k h
      | .remove k' => if k' = k then none else current k h
      | .clear => none
      | _ => current k h := by
  unfold current
  rw [List.reverse_append]
  cases op <;> rfl

theorem recent_awf {xs : List (K × V)} (h : AWF xs) (op : Op A K V) : AWF (recent xs op) := by
  have hc : ∀ k (v : V), AWF ((k, v) :: adel xs k) := by
    intro k v
    unfold AWF
    rw [List.map_cons, List.nodup_cons]
    exact ⟨by rw [← aget_eq_none, aget_adel]; simp, awf_adel h k⟩
  cases op with
  | load k =>
    simp only [recent]
    split
    · exact hc _ _
    · exact h
  | store k v => exact hc _ _
  | remove k => exact awf_adel h k
  | len => exact h
  | range => exact h
  | clear => exact awf_nil

theorem aget_recent (xs : List (K × V)) (h : List (Op A K V)) (hx : ∀ k, aget xs k = current k h)
    (op : Op A K V) (k : K) : aget (recent xs op) k = current k (h ++ [op]) := by
  rw [current_snoc]
  cases op with
  | load k' =>
    simp only [recent]
    split
    · next v hv =>
      simp only [aget, aget_adel]
      split
      · next e => subst e; rw [← hx, hv]
      · exact hx k
    · exact hx k
  | store k' v =>
    simp only [recent, aget, aget_adel]
    split
    · rfl
    · exact hx k
  | remove k' => simp only [recent, aget_adel, hx]
  | len => exact hx k
  | range => exact hx k
  | clear => rfl

theorem uses_lt {h : List (Op A K V)} {k : K} {n : Nat} (hu : Uses h k n) : n < h.length := by
  rcases hu with ⟨v, h1⟩ | ⟨h1, _⟩
  all_goals exact (List.getElem?_eq_some_iff.1 h1).1

theorem uses_old {h : List (Op A K V)} {op : Op A K V} {k : K} {n : Nat} (hn : n < h.length) :
    Uses (h ++ [op]) k n ↔ Uses h k n := by
  unfold Uses
  rw [List.getElem?_append_left hn, List.take_append_of_le_length (by omega)]

theorem uses_new {h : List (Op A K V)} {op : Op A K V} {k : K} :
    Uses (h ++ [op]) k h.length ↔
      (∃ v, op = .store k v) ∨ (op = .load k ∧ current k h ≠ none) := by
  unfold Uses
  simp [List.take_append_of_le_length]

/-- A call that is not a use of `k` or `k'` keeps their order. -/
theorem usedAfter_keep {h : List (Op A K V)} {op : Op A K V} {k k' : K}
    (hk' : ¬ Uses (h ++ [op]) k' h.length) (hu : UsedAfter h k k') : UsedAfter (h ++ [op]) k k' := by
  obtain ⟨n, h1, h2⟩ := hu
  refine ⟨n, (uses_old (uses_lt h1)).2 h1, fun n' hn' => ?_⟩
  have := uses_lt hn'
  simp only [List.length_append, List.length_cons, List.length_nil] at this
  rcases Nat.lt_or_ge n' h.length with hlt | hge
  · exact h2 n' ((uses_old hlt).1 hn')
  · have : n' = h.length := by omega
    subst this
    exact absurd hn' hk'

/-- The key used now is the most recent. -/
theorem usedAfter_now {h : List (Op A K V)} {op : Op A K V} {k k' : K}
    (hk : Uses (h ++ [op]) k h.length) (hk' : ¬ Uses (h ++ [op]) k' h.length) :
    UsedAfter (h ++ [op]) k k' := by
  refine ⟨_, hk, fun n' hn' => ?_⟩
  have := uses_lt hn'
  simp only [List.length_append, List.length_cons, List.length_nil] at this
  rcases Nat.lt_or_ge n' h.length with hlt | hge
  · exact hlt
  · have : n' = h.length := by omega
    subst this
    exact absurd hn' hk'

theorem recent_spec (h : List (Op A K V)) :
    (∀ k, aget (h.foldl recent []) k = current k h) ∧ AWF (h.foldl recent []) ∧
    (h.foldl recent []).Pairwise fun p q => UsedAfter h p.1 q.1 := by
  rcases List.eq_nil_or_concat h with rfl | ⟨g, op, rfl⟩
  · exact ⟨fun _ => rfl, awf_nil, List.Pairwise.nil⟩
  · obtain ⟨i1, i2, i3⟩ := recent_spec g
    simp only [List.concat_eq_append, List.foldl_append, List.foldl_cons, List.foldl_nil]
    refine ⟨aget_recent _ _ i1 op, recent_awf i2 op, ?_⟩
    generalize hxs : g.foldl recent [] = xs at i1 i2 i3
    have hsub : ∀ {k : K} {xs : List (K × V)}, (xs.Pairwise fun p q => UsedAfter g p.1 q.1) →
        (∀ p ∈ xs, ¬ Uses (g ++ [op]) p.1 g.length) →
        xs.Pairwise fun p q => UsedAfter (g ++ [op]) p.1 q.1 := by
      intro k xs hp hno
      refine List.Pairwise.imp_of_mem (fun {p q} _ hq hpq => ?_) hp
      exact usedAfter_keep (hno q hq) hpq
    have hcons : ∀ k v, Uses (g ++ [op]) k g.length → (∀ k', k' ≠ k → ¬ Uses (g ++ [op]) k' g.length) →
        ((k, v) :: adel xs k).Pairwise fun p q => UsedAfter (g ++ [op]) p.1 q.1 := by
      intro k v hu hno
      have hne : ∀ p ∈ adel xs k, p.1 ≠ k := by
        intro p hp; simpa [adel] using (List.mem_filter.1 hp).2
      rw [List.pairwise_cons]
      refine ⟨fun p hp => usedAfter_now hu (hno _ (hne p hp)), ?_⟩
      exact hsub (k := k) (i3.sublist List.filter_sublist) (fun p hp => hno _ (hne p hp))
    cases op with
    | load k =>
      simp only [recent]
      split
      · next v hv =>
        refine hcons k v (uses_new.2 (Or.inr ⟨rfl, by rw [← i1, hv]; simp⟩)) ?_
        intro k' hk' hu
        rcases uses_new.1 hu with ⟨_, h1⟩ | ⟨h1, _⟩ <;> cases h1
        exact hk' rfl
      · next hv =>
        refine hsub (k := k) i3 ?_
        intro p hp hu
        rcases uses_new.1 hu with ⟨_, h1⟩ | ⟨h1, h2⟩
        · cases h1
        · injection h1 with h1
          rw [← h1, ← i1] at h2
          exact h2 hv
    | store k v =>
      refine hcons k v (uses_new.2 (Or.inl ⟨v, rfl⟩)) ?_
      intro k' hk' hu
      rcases uses_new.1 hu with ⟨_, h1⟩ | ⟨h1, _⟩ <;> cases h1
      exact hk' rfl
    | remove k =>
      refine hsub (k := k) (i3.sublist List.filter_sublist) ?_
      intro p hp hu
      rcases uses_new.1 hu with ⟨_, h1⟩ | ⟨h1, _⟩ <;> cases h1
    | len =>
      simp only [recent]
      cases xs with
      | nil => exact List.Pairwise.nil
      | cons p xs =>
        refine hsub (k := p.1) i3 ?_
        intro p hp hu
        rcases uses_new.1 hu with ⟨_, h1⟩ | ⟨h1, _⟩ <;> cases h1
    | range f a =>
      simp only [recent]
      cases xs with
      | nil => exact List.Pairwise.nil
      | cons p xs =>
        refine hsub (k := p.1) i3 ?_
        intro p hp hu
        rcases uses_new.1 hu with ⟨_, h1⟩ | ⟨h1, _⟩ <;> cases h1
    | clear => exact List.Pairwise.nil
termination_by h.length
decreasing_by subst_vars; simp

/-! ## C37, C38 -/

/-- After any calls, the next call terminates without panic and returns what the specification
says. -/
theorem lhashmap_step {h : List (Op A K V)} {s : LH K V} (hr : MRun h s) (op : Op A K V) :
    ∃ r s', MStep s op r s' ∧ Ok h op r := by
  obtain ⟨S, ys, hI, he⟩ := run_inv hr
  obtain ⟨s', S', ys', h1, h2, h3⟩ := sim_step hI op
  obtain ⟨i1, i2, i3⟩ := recent_spec h
  refine ⟨_, s', h1, ?_⟩
  rw [he]
  generalize h.foldl recent [] = xs at *
  cases op with
  | load k => simp only [Ok, result, i1]
  | len =>
    refine ⟨xs.map Prod.fst, i2, ?_, by simp [result]⟩
    intro k
    rw [← i1, ← aget_isSome]
    cases aget xs k <;> simp
  | range f a => exact ⟨xs, ⟨fun k v => by rw [← i1, mem_iff_aget i2], i2, i3⟩, rfl⟩
  | _ => rfl

/-- C37: `Load` returns the last value stored since the removal or `Clear`, `Len` counts the keys
that have one; no call panics or hangs. -/
theorem C37_map {h : List (Op A K V)} {s : LH K V} (hr : MRun h s) :
    (∀ op : Op A K V, ∃ r s', MStep s op r s') ∧
    (∀ k r s', MStep s (.load k : Op A K V) r s' → r = .val (current k h)) ∧
    (∀ r s', MStep s (.len : Op A K V) r s' → ∃ ks : List K, ks.Nodup ∧
      (∀ k, k ∈ ks ↔ current k h ≠ none) ∧ r = .int ks.length) := by
  refine ⟨fun op => ?_, fun k r s' h1 => ?_, fun r s' h1 => ?_⟩
  · obtain ⟨r, s', h1, _⟩ := lhashmap_step hr op
    exact ⟨r, s', h1⟩
  · obtain ⟨r', s'', h2, h3⟩ := lhashmap_step hr (.load k)
    obtain ⟨rfl, _⟩ := h1.det h2
    exact h3
  · obtain ⟨r', s'', h2, h3⟩ := lhashmap_step hr .len
    obtain ⟨rfl, _⟩ := h1.det h2
    exact h3

/-- C38: `Range` calls its callback on the current bindings, each key once, most recently used
first, until it returns false. -/
theorem C38_range {h : List (Op A K V)} {s s' : LH K V} (hr : MRun h s) {f : A → K → V → A × Bool}
    {a : A} {r : Res A V} (hs : MStep s (.range f a) r s') :
    ∃ xs, Visits h xs ∧ r = .vars (visit f a xs) := by
  obtain ⟨r', s'', h2, h3⟩ := lhashmap_step hr (.range f a)
  obtain ⟨rfl, _⟩ := hs.det h2
  exact h3

/-- There is only one order `Range` may use. -/
theorem Visits.unique {h : List (Op A K V)} {xs xs' : List (K × V)} (h1 : Visits h xs)
    (h2 : Visits h xs') : xs = xs' := by
  have nd : ∀ {l : List (K × V)}, (l.map (·.1)).Nodup → l.Nodup := fun hl =>
    List.Pairwise.of_map _ (fun _ _ h e => h (congrArg _ e)) hl
  have hp : xs.Perm xs' := by
    rw [List.perm_ext_iff_of_nodup (nd h1.2.1) (nd h2.2.1)]
    rintro ⟨k, v⟩
    rw [h1.1, h2.1]
  refine hp.eq_of_pairwise (fun p q _ _ hpq hqp => ?_) h1.2.2 h2.2.2
  obtain ⟨n, a1, a2⟩ := hpq
  obtain ⟨n', b1, b2⟩ := hqp
  have := a2 n' b1
  have := b2 n a1
  omega

/-! ## Examples -/

/-- Store 1, 2, 3, load 1, overwrite 2, remove 3, store 4: `Range` sees 4, 2, 1. -/
def exCalls : List (Op (List (Nat × String)) Nat String) :=
  [.store 1 "a", .store 2 "b", .store 3 "c", .load 1, .store 2 "B", .remove 3, .load 7, .store 4 "d"]

def exRun (fuel : Nat) : List (Op (List (Nat × String)) Nat String) → LH Nat String →
    Option (LH Nat String)
  | [], s => some s
  | op :: ops, s => (exec fuel s op).bind fun p => exRun fuel ops p.1

example : ((exRun 9 exCalls new).bind fun s =>
    (exec 9 s (.range (fun a k v => (a ++ [(k, v)], true)) [])).map Prod.snd) =
    some (Res.vars [(4, "d"), (2, "B"), (1, "a")]) := by rfl

/-- The callback stops `Range`. -/
example : ((exRun 9 exCalls new).bind fun s =>
    (exec 9 s (.range (fun a k v => (a ++ [(k, v)], k != 2)) [])).map Prod.snd) =
    some (Res.vars [(4, "d"), (2, "B")]) := by rfl

example : current 2 exCalls = some "B" ∧ current 3 exCalls = none := by decide

/-- The order is not the insertion order. -/
example : UsedAfter exCalls 2 1 := by
  refine ⟨4, Or.inl ⟨"B", rfl⟩, fun n hn => ?_⟩
  have := uses_lt hn
  match n, this with
  | 0, _ | 1, _ | 2, _ | 3, _ => omega
  | 4, _ | 5, _ | 6, _ | 7, _ =>
    rcases hn with ⟨_, h⟩ | ⟨h, _⟩ <;> simp [exCalls] at h

end Verif.Lhashmap
