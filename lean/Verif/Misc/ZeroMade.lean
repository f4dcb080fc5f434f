import Verif.Misc.Zero
import Mathlib.Data.List.Perm.Basic
import Mathlib.Data.List.Nodup
/-!
# The same methods on containers made by their constructors (C176)

The definitions of `Misc/Zero.lean` on values made by `New`: one goroutine, panics recovered (of the functions given to `Range`, of the user's heap or refresh function).
-/
namespace Verif.Zero

section Linked
variable {K V : Type} [DecidableEq K] [Inhabited V]

/-- `New()`, with `WithCap` too: lhashmap.go:18-37. -/
def Lm.made : Lm K V := ⟨some [], some [], 0, []⟩

/-- The pairs a function is called with: until it does not return `true`. -/
def seen (f : K → V → Option Bool) : List (K × V) → List (K × V)
  | [] => []
  | p :: xs => p :: if f p.1 p.2 = some true then seen f xs else []

/-- What a call does to the pairs, most recently used first: the pairs after it, the calls of the function given to it, the result (`none`: a panic). -/
def lspec (xs : List (K × V)) : LOp K V → List (K × V) × List (K × V) × Option (LRes V)
  | .load k =>
    match xs.find? (·.1 = k) with
    | some (_, v) => ((k, v) :: xs.filter (·.1 ≠ k), [], some (.val v true))
    | none => (xs, [], some (.val default false))
  | .store k v => ((k, v) :: xs.filter (·.1 ≠ k), [], some .unit)
  | .remove k => (xs.filter (·.1 ≠ k), [], some .unit)
  | .len => (xs, [], some (.int xs.length))
  | .range f => (xs, seen f xs, if (seen f xs).any (fun p => f p.1 p.2 = none) then none else some .unit)
  | .clear => ([], [], some .unit)

/-- The calls one after the other: the pairs in the end, the calls of the functions, the results. -/
def lspecs : List (K × V) → List (LOp K V) → List (K × V) × List (K × V) × List (Option (LRes V))
  | xs, [] => (xs, [], [])
  | xs, o :: os =>
    let r := lspec xs o
    let rs := lspecs r.1 os
    (rs.1, r.2.1 ++ rs.2.1, r.2.2 :: rs.2.2)

/-- The map has the elements of the list. -/
structure LInv (s : Lm K V) (m : List (K × Nat)) (l : List (Nat × K × V)) : Prop where
  hm : s.m = some m
  hl : s.l = some l
  wm : AWF m
  wl : AWF l
  wk : (l.map (·.2.1)).Nodup
  lt : ∀ p ∈ l, p.1 < s.fresh
  iff : ∀ k e, aget m k = some e ↔ ∃ v, (e, k, v) ∈ l

omit [Inhabited V] in
theorem LInv.none {s : Lm K V} {m : List (K × Nat)} {l : List (Nat × K × V)} (h : LInv s m l) {k : K} (e : aget m k = none) :
    k ∉ l.map (·.2.1) := by
  intro hk
  obtain ⟨⟨a, b, c⟩, hp, rfl⟩ := List.mem_map.1 hk
  have := (h.iff b a).2 ⟨c, hp⟩
  simp [e] at this

omit [Inhabited V] in
theorem LInv.len {s : Lm K V} {m : List (K × Nat)} {l : List (Nat × K × V)} (h : LInv s m l) : m.length = l.length := by
  have : (m.map (·.1)).Perm (l.map (·.2.1)) := by
    refine (List.perm_ext_iff_of_nodup h.wm h.wk).2 fun k => ?_
    rw [← aget_isSome, Option.isSome_iff_exists]
    constructor
    · rintro ⟨e, he⟩
      obtain ⟨v, hv⟩ := (h.iff k e).1 he
      exact List.mem_map.2 ⟨_, hv, rfl⟩
    · intro hk
      obtain ⟨⟨a, b, c⟩, hp, rfl⟩ := List.mem_map.1 hk
      exact ⟨a, (h.iff b a).2 ⟨c, hp⟩⟩
  simpa using this.length_eq

omit [DecidableEq K] [Inhabited V] in
/-- Two entries with the same number are the same, and so are two with the same key. -/
theorem nodup_inj {A B : Type} {f : A → B} {l : List A} (h : (l.map f).Nodup) {a b : A} (ha : a ∈ l) (hb : b ∈ l) (e : f a = f b) : a = b :=
  List.inj_on_of_nodup_map h ha hb e

omit [Inhabited V] in
/-- To drop the element with the number is to drop the pair with the key. -/
theorem filter_eq {l : List (Nat × K × V)} (wl : AWF l) (wk : (l.map (·.2.1)).Nodup) {e : Nat} {k : K} {v : V} (h : (e, k, v) ∈ l) :
    (l.filter (·.1 ≠ e)).map (·.2) = (l.map (·.2)).filter (·.1 ≠ k) := by
  rw [List.filter_map]
  congr 1
  refine List.filter_congr fun p hp => ?_
  simp only [Function.comp, decide_eq_decide]
  refine not_congr ⟨fun h' => ?_, fun h' => ?_⟩
  · have := nodup_inj wl hp h h'; rw [this]
  · have := nodup_inj (f := fun p : Nat × K × V => p.2.1) wk hp h h'; rw [this]

omit [DecidableEq K] [Inhabited V] in
theorem find_num {l : List (Nat × K × V)} (wl : AWF l) {e : Nat} {k : K} {v : V} (h : (e, k, v) ∈ l) :
    l.find? (·.1 = e) = some (e, k, v) := by
  cases hf : l.find? (·.1 = e) with
  | none => have := List.find?_eq_none.1 hf _ h; simp at this
  | some p =>
    have h1 := List.mem_of_find?_eq_some hf
    have h2 := List.find?_some hf
    simp only [decide_eq_true_eq] at h2
    rw [nodup_inj wl h1 h h2]

omit [Inhabited V] in
theorem find_key {l : List (Nat × K × V)} (wk : (l.map (·.2.1)).Nodup) {e : Nat} {k : K} {v : V} (h : (e, k, v) ∈ l) :
    (l.map (·.2)).find? (·.1 = k) = some (k, v) := by
  cases hf : (l.map (·.2)).find? (·.1 = k) with
  | none => have := List.find?_eq_none.1 hf (k, v) (List.mem_map.2 ⟨_, h, rfl⟩); simp at this
  | some p =>
    have h1 := List.mem_of_find?_eq_some hf
    have h2 := List.find?_some hf
    simp only [decide_eq_true_eq] at h2
    obtain ⟨q, hq, rfl⟩ := List.mem_map.1 h1
    have := nodup_inj (f := fun p : Nat × K × V => p.2.1) wk hq h h2
    rw [this]

omit [Inhabited V] in
/-- The invariant after the element has been moved to the front, its value changed. -/
theorem LInv.moved {s s' : Lm K V} {m : List (K × Nat)} {l : List (Nat × K × V)} (h : LInv s m l) {e : Nat} {k : K} {v : V}
    (hv : (e, k, v) ∈ l) (w : V) (h1 : s'.m = s.m) (h2 : s'.l = some ((e, k, w) :: l.filter (·.1 ≠ e))) (h3 : s'.fresh = s.fresh) :
    LInv s' m ((e, k, w) :: l.filter (·.1 ≠ e)) := by
  refine ⟨h1 ▸ h.hm, h2, h.wm, ?_, ?_, ?_, ?_⟩
  · simp only [AWF, List.map_cons, List.nodup_cons]
    exact ⟨by simp, awf_adel h.wl e⟩
  · simp only [List.map_cons, List.nodup_cons]
    refine ⟨fun hk => ?_, h.wk.sublist (List.filter_sublist.map _)⟩
    obtain ⟨p, hp, hpk⟩ := List.mem_map.1 hk
    have hp' := List.mem_filter.1 hp
    have := nodup_inj (f := fun p : Nat × K × V => p.2.1) h.wk hp'.1 hv hpk
    simp [this] at hp'
  · intro p hp
    rw [h3]
    rcases List.mem_cons.1 hp with rfl | hp
    · exact h.lt (e, k, v) hv
    · exact h.lt _ (List.mem_filter.1 hp).1
  · intro k' e'
    rw [h.iff]
    constructor
    · rintro ⟨v', hv'⟩
      by_cases he : e' = e
      · subst he
        have := nodup_inj h.wl hv' hv rfl
        injection this with _ this; injection this with this _; subst this
        exact ⟨w, by simp⟩
      · exact ⟨v', List.mem_cons_of_mem _ (List.mem_filter.2 ⟨hv', by simpa using he⟩)⟩
    · rintro ⟨v', hv'⟩
      rcases List.mem_cons.1 hv' with h' | h'
      · injection h' with a b; injection b with b c; subst a; subst b; exact ⟨v, hv⟩
      · exact ⟨v', (List.mem_filter.1 h').1⟩

omit [DecidableEq K] [Inhabited V] in
theorem walk_spec (f : K → V → Option Bool) (l : List (Nat × K × V)) (s : Lm K V) :
    (Lm.walk f l).run s = ({ s with log := s.log ++ seen f (l.map (·.2)) },
      if (seen f (l.map (·.2))).any (fun p => f p.1 p.2 = none) then none else some ()) := by
  induction l generalizing s with
  | nil => simp [Lm.walk, Pan.run_pure, seen]
  | cons p l ih =>
    obtain ⟨e, k, v⟩ := p
    simp only [Lm.walk, Pan.run_bind, Pan.run_change]
    cases hf : f k v with
    | none => simp [seen, hf, Pan.raise]
    | some b =>
      cases b with
      | true =>
        have e1 : seen f (((e, k, v) :: l).map (·.2)) = (k, v) :: seen f (l.map (·.2)) := by simp [seen, hf]
        dsimp only
        rw [ih, e1, List.any_cons]
        have e2 : decide (f k v = none) = false := by simp [hf]
        rw [e2, Bool.false_or, List.append_assoc]
        rfl
      | false => simp [seen, hf, Pan.run_pure]

/-- One call. -/
theorem lstep (s : Lm K V) (m : List (K × Nat)) (l : List (Nat × K × V)) (h : LInv s m l) (o : LOp K V) :
    ∃ m' l', LInv ((Lm.exec o).run s).1 m' l' ∧ l'.map (·.2) = (lspec (l.map (·.2)) o).1 ∧
      ((Lm.exec o).run s).1.log = s.log ++ (lspec (l.map (·.2)) o).2.1 ∧ ((Lm.exec o).run s).2 = (lspec (l.map (·.2)) o).2.2 := by
  have hm := h.hm
  have hl := h.hl
  rcases o with k | ⟨k, v⟩ | k | _ | f | _
  · cases e : aget m k with
    | none =>
      have hn : (l.map (·.2)).find? (·.1 = k) = none := by
        rw [List.find?_eq_none]
        intro p hp hpk
        obtain ⟨q, hq, rfl⟩ := List.mem_map.1 hp
        exact h.none e (List.mem_map.2 ⟨q, hq, by simpa using hpk⟩)
      refine ⟨m, l, ?_⟩
      simp only [Lm.exec, Lm.find, Pan.run_bind, Pan.run_read, hm, Option.getD_some, e, Pan.run_pure, lspec, hn]
      exact ⟨h, by simp, by simp, by simp⟩
    | some n =>
      obtain ⟨v, hv⟩ := (h.iff k n).1 e
      have hf := find_num h.wl hv
      have hk := find_key h.wk hv
      refine ⟨m, (n, k, v) :: l.filter (·.1 ≠ n), ?_⟩
      simp only [Lm.exec, Lm.find, Lm.front, Lm.list, Pan.try_, Pan.run_bind, Pan.run_read, hm, hl, Option.getD_some, Option.map_some, e, hf,
        Pan.run_change, Pan.run_pure, lspec, hk, id]
      exact ⟨h.moved hv v hm.symm rfl rfl, by rw [List.map_cons, filter_eq h.wl h.wk hv], by simp, by simp⟩
  · cases e : aget m k with
    | none =>
      have hk := h.none e
      have hfil : (l.map (·.2)).filter (·.1 ≠ k) = l.map (·.2) := by
        rw [List.filter_eq_self]
        intro p hp
        obtain ⟨q, hq, rfl⟩ := List.mem_map.1 hp
        simp only [decide_eq_true_eq]
        exact fun hc => hk (List.mem_map.2 ⟨q, hq, hc⟩)
      refine ⟨aput m k s.fresh, (s.fresh, k, v) :: l, ?_⟩
      simp only [Lm.exec, Lm.find, Lm.list, Pan.try_, Pan.run_bind, Pan.run_read, hm, hl, Option.getD_some, Option.map_some, e,
        Pan.run_change, Pan.run_pure, lspec, hfil]
      refine ⟨⟨rfl, rfl, awf_aput h.wm _ _, ?_, ?_, ?_, ?_⟩, by simp, by simp, by simp⟩
      · simp only [AWF, List.map_cons, List.nodup_cons]
        refine ⟨fun hc => ?_, h.wl⟩
        obtain ⟨p, hp, he⟩ := List.mem_map.1 hc
        have := h.lt p hp
        omega
      · simp only [List.map_cons, List.nodup_cons]
        exact ⟨hk, h.wk⟩
      · intro p hp
        rcases List.mem_cons.1 hp with rfl | hp
        · exact Nat.lt_succ_self _
        · exact Nat.lt_succ_of_lt (h.lt p hp)
      · intro k' e'
        rw [aget_aput]
        by_cases hkk : k = k'
        · subst hkk
          simp only [if_true, Option.some.injEq]
          constructor
          · rintro rfl; exact ⟨v, by simp⟩
          · rintro ⟨v', hv'⟩
            rcases List.mem_cons.1 hv' with h' | h'
            · injection h' with a _; exact a.symm
            · exact absurd (List.mem_map.2 ⟨_, h', rfl⟩) hk
        · simp only [hkk, if_false, h.iff]
          constructor
          · rintro ⟨v', hv'⟩; exact ⟨v', List.mem_cons_of_mem _ hv'⟩
          · rintro ⟨v', hv'⟩
            rcases List.mem_cons.1 hv' with h' | h'
            · injection h' with _ a; injection a with a _; exact absurd a.symm hkk
            · exact ⟨v', h'⟩
    | some n =>
      obtain ⟨w, hv⟩ := (h.iff k n).1 e
      have hf := find_num h.wl hv
      refine ⟨m, (n, k, v) :: l.filter (·.1 ≠ n), ?_⟩
      simp only [Lm.exec, Lm.find, Lm.front, Lm.list, Pan.try_, Pan.run_bind, Pan.run_read, hm, hl, Option.getD_some, Option.map_some, e, hf,
        Pan.run_change, Pan.run_pure, lspec]
      exact ⟨h.moved hv v hm.symm rfl rfl, by rw [List.map_cons, filter_eq h.wl h.wk hv], by simp, by simp⟩
  · cases e : aget m k with
    | none =>
      have hk := h.none e
      have hfil : (l.map (·.2)).filter (·.1 ≠ k) = l.map (·.2) := by
        rw [List.filter_eq_self]
        intro p hp
        obtain ⟨q, hq, rfl⟩ := List.mem_map.1 hp
        simp only [decide_eq_true_eq]
        exact fun hc => hk (List.mem_map.2 ⟨q, hq, hc⟩)
      refine ⟨m, l, ?_⟩
      simp only [Lm.exec, Lm.find, Pan.run_bind, Pan.run_read, hm, Option.getD_some, e, Pan.run_pure, lspec, hfil]
      exact ⟨h, by simp, by simp, by simp⟩
    | some n =>
      obtain ⟨w, hv⟩ := (h.iff k n).1 e
      refine ⟨adel m k, l.filter (·.1 ≠ n), ?_⟩
      simp only [Lm.exec, Lm.find, Lm.list, Pan.try_, Pan.run_bind, Pan.run_read, hm, hl, Option.getD_some, Option.map_some, e,
        Pan.run_change, Pan.run_pure, lspec]
      refine ⟨⟨by simp, rfl, awf_adel h.wm _, awf_adel h.wl n, h.wk.sublist (List.filter_sublist.map _), ?_, ?_⟩,
        filter_eq h.wl h.wk hv, by simp, by simp⟩
      · exact fun p hp => h.lt p (List.mem_filter.1 hp).1
      · intro k' e'
        rw [aget_adel]
        by_cases hkk : k = k'
        · subst hkk
          simp only [if_true, reduceCtorEq, false_iff, not_exists]
          intro v' hv'
          have hp := List.mem_filter.1 hv'
          have := nodup_inj (f := fun p : Nat × K × V => p.2.1) h.wk hp.1 hv rfl
          injection this with this _
          simp [this] at hp
        · simp only [hkk, if_false, h.iff]
          constructor
          · rintro ⟨v', hv'⟩
            refine ⟨v', List.mem_filter.2 ⟨hv', ?_⟩⟩
            simp only [decide_eq_true_eq]
            rintro rfl
            have := nodup_inj h.wl hv' hv rfl
            injection this with _ this; injection this with this _
            exact hkk this.symm
          · rintro ⟨v', hv'⟩; exact ⟨v', (List.mem_filter.1 hv').1⟩
  · refine ⟨m, l, ?_⟩
    simp only [Lm.exec, Pan.run_bind, Pan.run_read, hm, Option.getD_some, Pan.run_pure, lspec, List.length_map, h.len]
    exact ⟨h, by simp, by simp, by simp⟩
  · refine ⟨m, l, ?_⟩
    simp only [Lm.exec, Lm.list, Pan.try_, Pan.run_bind, hl, Option.map_some, walk_spec, lspec]
    by_cases hp : (seen f (l.map (·.2))).any (fun p => f p.1 p.2 = none)
    · simp only [hp, if_true]
      exact ⟨⟨hm, rfl, h.wm, h.wl, h.wk, h.lt, h.iff⟩, by simp, by simp, by simp⟩
    · simp only [hp, if_false, Pan.run_pure, Bool.false_eq_true]
      exact ⟨⟨hm, rfl, h.wm, h.wl, h.wk, h.lt, h.iff⟩, by simp, by simp, by simp⟩
  · refine ⟨[], [], ?_⟩
    simp only [Lm.exec, Lm.list, Pan.try_, Pan.run_bind, Pan.run_change, hl, Option.map_some, Pan.run_pure, lspec]
    exact ⟨⟨rfl, rfl, awf_nil, awf_nil, List.nodup_nil, by simp, by simp [aget]⟩, by simp, by simp, by simp⟩

/-- **C176**, linked hash map: in any sequence of calls on one made by `New`, with functions given to `Range` that may panic, the results and the calls of these functions
are those of a list of pairs, the most recently used first; only calls of `Range` panic, and only if the function does; a panic changes nothing. -/
theorem C176_linked (os : List (LOp K V)) :
    (calls Lm.exec Lm.made os).2 = (lspecs [] os).2.2 ∧ (calls Lm.exec (Lm.made : Lm K V) os).1.log = (lspecs [] os).2.1 := by
  have key : ∀ (os : List (LOp K V)) (s : Lm K V) m l, LInv s m l →
      (calls Lm.exec s os).2 = (lspecs (l.map (·.2)) os).2.2 ∧ (calls Lm.exec s os).1.log = s.log ++ (lspecs (l.map (·.2)) os).2.1 := by
    intro os
    induction os with
    | nil => intro s m l _; simp [calls, lspecs]
    | cons o os ih =>
      intro s m l h
      obtain ⟨m', l', h1, h2, h3, h4⟩ := lstep s m l h o
      obtain ⟨h5, h6⟩ := ih _ _ _ h1
      rw [h2] at h5 h6
      refine ⟨?_, ?_⟩
      · simp only [calls, lspecs, h4, h5]
      · simp only [calls, lspecs, h6, h3, List.append_assoc]
  exact key os Lm.made [] [] ⟨rfl, rfl, awf_nil, awf_nil, List.nodup_nil, by simp, by simp [aget]⟩

/-- The function panics on the second pair: it is not called with the third, and the map goes on. -/
example : lspecs ([] : List (Nat × Nat)) [.store 1 5, .store 2 6, .store 3 7, .load 1, .range fun k _ => if k = 3 then none else some true, .remove 3, .len] =
    ([(1, 5), (2, 6)], [(1, 5), (3, 7)], [some .unit, some .unit, some .unit, some (.val 5 true), none, some .unit, some (.int 2)]) := by rfl

end Linked

section Ring
variable {N : Type} [DecidableEq N] [Inhabited N] (E : HEnv N)

/-- `New(replicas)`: hashring.go:23-36. -/
def Hr.made (r : Int) : Hr N := ⟨r, some [], some []⟩

omit [DecidableEq N] [Inhabited N] in
/-- What the nodes on the ring are after the calls. -/
def Member : List (HOp N) → N → Prop
  | [], _ => False
  | .add l :: os, v => v ∈ l ∨ Member os v
  | .reset l :: _, v => v ∈ l
  | .remove l :: os, v => v ∉ l ∧ Member os v
  | .get _ :: os, v => Member os v

/-- The points of a node: one for each replica. -/
def spots (r : Int) (v : N) : List (N × UInt32) := (List.range r.toNat).map fun i => (v, E.hash v i)

/-- The state of a ring that has the nodes `P`: `p` are its points, the outcome of a sort. -/
def Holds (r : Int) (P : N → Prop) (s : Hr N) (p : List (N × UInt32)) : Prop :=
  s.replicas = r ∧ s.nodes = some p ∧ (p = [] ∨ ∃ q, p = E.sort q) ∧
    ∃ t, s.raw = some t ∧ t.Nodup ∧ (∀ v, v ∈ t ↔ P v) ∧ p.Perm (t.flatMap (spots E r))

variable {E}
variable (he : ∀ a b, E.eq a b = decide (a = b)) (hs : ∀ l, (E.sort l).Perm l)
include he

omit [Inhabited N] in
theorem mem_pushAll {s l : List N} {v : N} : v ∈ pushAll E s l ↔ v ∈ s ∨ v ∈ l := by
  induction l generalizing s with
  | nil => simp [pushAll]
  | cons a l ih =>
    have e : pushAll E s (a :: l) = pushAll E (if s.any (E.eq · a) then s else s ++ [a]) l := rfl
    rw [e, ih]
    by_cases ha : a ∈ s
    · have : s.any (E.eq · a) = true := List.any_eq_true.2 ⟨a, ha, by simp [he]⟩
      rw [if_pos this]
      simp only [List.mem_cons]
      constructor
      · rintro (h | h) <;> simp [h]
      · rintro (h | rfl | h) <;> simp_all
    · have : ¬ s.any (E.eq · a) = true := by
        rw [List.any_eq_true]; rintro ⟨x, hx, h⟩; simp only [he, decide_eq_true_eq] at h; exact ha (h ▸ hx)
      rw [if_neg this]
      simp only [List.mem_append, List.mem_cons, List.not_mem_nil, or_false, or_assoc]

omit [Inhabited N] in
theorem nodup_pushAll {s l : List N} (h : s.Nodup) : (pushAll E s l).Nodup := by
  induction l generalizing s with
  | nil => simpa [pushAll] using h
  | cons a l ih =>
    have e : pushAll E s (a :: l) = pushAll E (if s.any (E.eq · a) then s else s ++ [a]) l := rfl
    rw [e]
    refine ih ?_
    split
    · exact h
    · next hn =>
      rw [List.nodup_append]
      refine ⟨h, by simp, fun x hx y hy hxy => hn ?_⟩
      simp only [List.mem_singleton] at hy
      exact List.any_eq_true.2 ⟨x, hx, by simp [he, hxy, hy]⟩

omit [Inhabited N] in
theorem mem_diff {s t : List N} {v : N} : v ∈ diff E s (some t) ↔ v ∈ s ∧ v ∉ t := by
  simp only [diff, List.mem_filter, (E.perm s).mem_iff, Option.getD_some, Bool.not_eq_true', List.any_eq_false, he, decide_eq_true_eq]
  refine and_congr_right fun _ => ⟨fun h hv => h v hv rfl, fun h x hx e => h (e ▸ hx)⟩

omit [DecidableEq N] [Inhabited N] he in
theorem nodup_diff {s : List N} {t : Option (List N)} (h : s.Nodup) : (diff E s t).Nodup :=
  ((E.perm s).nodup_iff.2 h).filter _

omit [DecidableEq N] [Inhabited N] he in
theorem run_points (vs : List N) (s : Hr N) (p : List (N × UInt32)) (h : s.nodes = some p) :
    (Hr.points E vs).run s = ({ s with nodes := some (p ++ vs.flatMap (spots E s.replicas)) }, some ()) := by
  induction vs generalizing s p with
  | nil => obtain ⟨r, t, n⟩ := s; dsimp only at h; subst h; simp [Hr.points, Pan.run_pure]
  | cons v vs ih =>
    simp only [Hr.points, Pan.run_bind, Pan.run_read]
    by_cases hr : s.replicas ≤ 0
    · have : s.replicas.toNat = 0 := by omega
      simp only [hr, if_true, ih s p h, List.flatMap_cons]
      simp [spots, this]
    · simp only [hr, if_false, Pan.run_bind, Hr.vec, Pan.try_, h, Option.map_some, Pan.run_change]
      rw [ih _ _ rfl]
      simp [spots]

omit [DecidableEq N] [Inhabited N] he in
theorem run_pushRaw (l : List N) (s : Hr N) (t : List N) (h : s.raw = some t) :
    (Hr.pushRaw E l).run s = ({ s with raw := some (pushAll E t l) }, some ()) := by
  obtain ⟨r, w, n⟩ := s
  dsimp only at h; subst h
  cases l <;> simp [Hr.pushRaw, Pan.run_bind, Pan.run_read, Pan.run_change, Pan.run_pure, pushAll]

include hs
omit [Inhabited N] in
theorem run_add (r : Int) (P : N → Prop) (s : Hr N) (p : List (N × UInt32)) (h : Holds E r P s p) (l : List N) :
    ((Hr.add E l).run s).2 = some () ∧ ∃ p', Holds E r (fun v => v ∈ l ∨ P v) ((Hr.add E l).run s).1 p' := by
  obtain ⟨h1, h2, h3, t, h4, h5, h6, h7⟩ := h
  cases l with
  | nil => exact ⟨rfl, p, h1, h2, h3, t, h4, h5, by simpa using h6, h7⟩
  | cons x l =>
    let w := E.ord (diff E (pushAll E [] (x :: l)) (some t))
    have hw : ∀ v, v ∈ w ↔ v ∈ x :: l ∧ v ∉ t := fun v => by
      rw [(E.perm _).mem_iff, mem_diff he, mem_pushAll he]; simp
    have hwn : w.Nodup := (E.perm _).nodup_iff.2 (nodup_diff (nodup_pushAll he List.nodup_nil))
    have hrun : (Hr.add E (x :: l)).run s =
        (⟨s.replicas, some (pushAll E t w), some (E.sort (p ++ w.flatMap (spots E s.replicas)))⟩, some ()) := by
      simp only [Hr.add, Pan.run_bind, Pan.run_read, h4]
      rw [run_points _ s p h2]
      dsimp only
      rw [h4, run_pushRaw _ _ t rfl]
      rfl
    rw [hrun]
    have hm : ∀ v, v ∈ pushAll E t w ↔ v ∈ x :: l ∨ P v := fun v => by
      rw [mem_pushAll he, hw, ← h6]
      by_cases hv : v ∈ t <;> simp [hv]
    refine ⟨rfl, _, h1, rfl, .inr ⟨_, rfl⟩, _, rfl, nodup_pushAll he h5, hm, ?_⟩
    have hp : (pushAll E t w).Perm (t ++ w) := by
      refine (List.perm_ext_iff_of_nodup (nodup_pushAll he h5) ?_).2 fun v => by rw [mem_pushAll he, List.mem_append]
      rw [List.nodup_append]
      exact ⟨h5, hwn, fun a ha b hb e => ((hw b).1 hb).2 (e ▸ ha)⟩
    refine (hs _).trans ?_
    refine List.Perm.trans ?_ (hp.flatMap_right _).symm
    rw [List.flatMap_append, h1]
    exact h7.append_right _

omit [Inhabited N] in
theorem run_reset (r : Int) (P : N → Prop) (s : Hr N) (p : List (N × UInt32)) (h : Holds E r P s p) (l : List N) :
    ((Hr.reset E l).run s).2 = some () ∧ ∃ p', Holds E r (· ∈ l) ((Hr.reset E l).run s).1 p' := by
  obtain ⟨h1, h2, h3, t, h4, h5, h6, h7⟩ := h
  have e : (Hr.reset E l).run s = (Hr.add E l).run ⟨s.replicas, some [], some []⟩ := by
    simp only [Hr.reset, Hr.vec, Pan.try_, Pan.run_bind, h2, Option.map_some, Pan.run_change, h4]
  rw [e]
  have := run_add he hs r (fun _ => False) ⟨s.replicas, some [], some []⟩ [] ⟨h1, rfl, .inl rfl, [], rfl, List.nodup_nil, by simp, by simp⟩ l
  simpa using this

/-- One call: it does not panic. -/
theorem run_exec (r : Int) (os : List (HOp N)) (s : Hr N) (p : List (N × UInt32)) (h : Holds E r (Member os) s p) (o : HOp N) :
    ((Hr.exec E o).run s).2 = some (match o with | .get k => some (if p = [] then default else E.search p k) | _ => none) ∧
    ∃ p', Holds E r (Member (o :: os)) ((Hr.exec E o).run s).1 p' := by
  rcases o with l | l | l | k
  · obtain ⟨h1, p', h2⟩ := run_add he hs r _ s p h l
    cases e : (Hr.add E l).run s with
    | mk s1 r1 =>
      rw [e] at h1 h2
      dsimp only at h1 h2
      subst h1
      simp only [Hr.exec, Pan.run_bind, e, Pan.run_pure]
      exact ⟨trivial, p', h2⟩
  · obtain ⟨h1, p', h2⟩ := run_reset he hs r _ s p h l
    cases e : (Hr.reset E l).run s with
    | mk s1 r1 =>
      rw [e] at h1 h2
      dsimp only at h1 h2
      subst h1
      simp only [Hr.exec, Pan.run_bind, e, Pan.run_pure]
      exact ⟨trivial, p', h2⟩
  · cases l with
    | nil => exact ⟨rfl, p, by simpa [Hr.exec, Pan.run_pure, Member] using h⟩
    | cons x l =>
      obtain ⟨_, _, _, t, h4, h5, h6, _⟩ := id h
      let w := (E.ord t).filter fun v => (pushAll E [] (x :: l)).any (E.eq · v)
      let u := E.ord (diff E t (some w))
      have hu : ∀ v, v ∈ u ↔ v ∉ x :: l ∧ Member os v := fun v => by
        rw [(E.perm _).mem_iff, mem_diff he, ← h6, and_comm]
        refine and_congr_left fun hv => not_congr ?_
        rw [List.mem_filter, (E.perm t).mem_iff, List.any_eq_true]
        constructor
        · rintro ⟨_, y, hy, hyv⟩
          simp only [he, decide_eq_true_eq] at hyv
          rw [mem_pushAll he] at hy
          simpa [hyv] using hy
        · exact fun hv' => ⟨hv, v, (mem_pushAll he).2 (.inr hv'), by simp [he]⟩
      obtain ⟨h1, p', h2⟩ := run_reset he hs r _ s p h u
      cases e : (Hr.reset E u).run s with
      | mk s1 r1 =>
        rw [e] at h1 h2
        dsimp only at h1 h2
        subst h1
        have : (Hr.exec E (.remove (x :: l))).run s = (s1, some none) := by
          simp only [Hr.exec, Pan.run_bind, Pan.run_read, h4, Option.getD_some]
          have e' : (Hr.reset E (E.ord (diff E t (some ((E.ord t).filter fun v => (pushAll E [] (x :: l)).any (E.eq · v)))))).run s = (s1, some ()) := e
          rw [e']
          rfl
        rw [this]
        refine ⟨rfl, p', ?_⟩
        obtain ⟨a, b, c, t', d1, d2, d3, d4⟩ := h2
        exact ⟨a, b, c, t', d1, d2, fun v => by rw [d3]; exact hu v, d4⟩
  · have h2 := h.2.1
    simp only [Hr.exec, Hr.vec, Pan.try_, Pan.run_bind, h2, Option.map_some]
    by_cases hp : p = []
    · subst hp
      simp only [List.length_nil, if_true, Pan.run_pure]
      exact ⟨trivial, [], h⟩
    · have : p.length ≠ 0 := by simpa using hp
      simp only [this, hp, if_false, Pan.run_pure]
      exact ⟨trivial, p, h⟩

/-- **C176**, hash ring: after any sequence of calls on one made by `New(r)` the ring has the nodes it should, each with `r` points (none if `r` is negative), sorted; no
call panics; `GetNode` searches these points, or gives the zero value if there are none. -/
theorem C176_ring (r : Int) (os : List (HOp N)) (o : HOp N) :
    ∃ p, Holds E r (Member os.reverse) (calls (Hr.exec E) (Hr.made r) os).1 p ∧
      (calls (Hr.exec E) (Hr.made r) (os ++ [o])).2 = (calls (Hr.exec E) (Hr.made r) os).2 ++
        [some (match o with | .get k => some (if p = [] then default else E.search p k) | _ => none)] := by
  have key : ∀ os : List (HOp N), ∃ p, Holds E r (Member os.reverse) (calls (Hr.exec E) (Hr.made r) os).1 p := by
    intro os
    induction os using List.reverseRecOn with
    | nil => exact ⟨[], rfl, rfl, .inl rfl, [], rfl, List.nodup_nil, by simp [Member], by simp⟩
    | append_singleton os o ih =>
      obtain ⟨p, hp⟩ := ih
      obtain ⟨p', hp'⟩ := (run_exec he hs r _ _ p hp o).2
      refine ⟨p', ?_⟩
      rw [calls_append, List.reverse_append]
      exact hp'
  obtain ⟨p, hp⟩ := key os
  refine ⟨p, hp, ?_⟩
  rw [calls_append]
  dsimp only [calls]
  rw [(run_exec he hs r _ _ p hp o).1]

end Ring

example : (calls (Hr.exec exEnv) (Hr.made 2) [.add [4, 4, 5], .reset [1, 2, 3], .remove [2, 9], .add [1, 7], .get 7]).1 =
    ⟨2, some [1, 3, 7], some [(1, 1), (1, 2), (3, 3), (3, 4), (7, 7), (7, 8)]⟩ := by rfl

section Queue
variable {H T : Type} (M : Methods H T) (up down : Int → Pan (Option H) Unit)

/-- What a call on a priority queue does with its heap: pqueue.go:27-38, heap.go:20-30. A step that panics ends the call, and the heap is as that step left it. -/
inductive QDoes : H → QOp T → Option H × Option (QRes T) → Prop
  | len {h h1 n} : M.len h = (h1, some n) → QDoes h .len (some h1, some (.int n))
  | lenPanics {h h1} : M.len h = (h1, none) → QDoes h .len (some h1, none)
  | push {h h1 h2 n s p v} : M.push (p, v) h = (h1, some ()) → M.len h1 = (h2, some n) → (up (n - 1)).run (some h2) = (s, some ()) →
    QDoes h (.push p v) (s, some .unit)
  | pushPanics {h h1 p v} : M.push (p, v) h = (h1, none) → QDoes h (.push p v) (some h1, none)
  | pushLen {h h1 h2 p v} : M.push (p, v) h = (h1, some ()) → M.len h1 = (h2, none) → QDoes h (.push p v) (some h2, none)
  | pushUp {h h1 h2 n s p v} : M.push (p, v) h = (h1, some ()) → M.len h1 = (h2, some n) → (up (n - 1)).run (some h2) = (s, none) →
    QDoes h (.push p v) (s, none)
  | pop {h h1 h2 h3 h4 n p v} : M.len h = (h1, some n) → M.swap 0 (n - 1) h1 = (h2, some ()) → (down (n - 1)).run (some h2) = (some h3, some ()) →
    M.pop h3 = (h4, some (p, v)) → QDoes h .pop (some h4, some (.item p v))
  | popLen {h h1} : M.len h = (h1, none) → QDoes h .pop (some h1, none)
  | popSwap {h h1 h2 n} : M.len h = (h1, some n) → M.swap 0 (n - 1) h1 = (h2, none) → QDoes h .pop (some h2, none)
  | popDown {h h1 h2 n s} : M.len h = (h1, some n) → M.swap 0 (n - 1) h1 = (h2, some ()) → (down (n - 1)).run (some h2) = (s, none) →
    QDoes h .pop (s, none)
  | popPanics {h h1 h2 h3 h4 n} : M.len h = (h1, some n) → M.swap 0 (n - 1) h1 = (h2, some ()) → (down (n - 1)).run (some h2) = (some h3, some ()) →
    M.pop h3 = (h4, none) → QDoes h .pop (some h4, none)

/-- **C176**, priority queue: a call does these steps and no others. -/
theorem C176_queue (h : H) (o : QOp T) (r : Option H × Option (QRes T)) (hr : QDoes M up down h o r) :
    (qexec M up down o).run (some h) = r := by
  cases hr <;> simp_all [qexec, iface, Pan.run_bind, Pan.run_pure]

/-- Every call is one of these, as long as `up` and `down` leave a heap. -/
theorem C176_queue_all (hu : ∀ i h, ((down i).run (some h)).1.isSome) (h : H) (o : QOp T) : ∃ r, QDoes M up down h o r := by
  rcases o with _ | ⟨p, v⟩ | _
  · rcases e : M.len h with ⟨h1, _ | n⟩
    · exact ⟨_, .lenPanics e⟩
    · exact ⟨_, .len e⟩
  · rcases e : M.push (p, v) h with ⟨h1, _ | n⟩
    · exact ⟨_, .pushPanics e⟩
    rcases e1 : M.len h1 with ⟨h2, _ | n⟩
    · exact ⟨_, .pushLen e e1⟩
    rcases e2 : (up (n - 1)).run (some h2) with ⟨s, _ | _⟩
    · exact ⟨_, .pushUp e e1 e2⟩
    · exact ⟨_, .push e e1 e2⟩
  · rcases e : M.len h with ⟨h1, _ | n⟩
    · exact ⟨_, .popLen e⟩
    rcases e1 : M.swap 0 (n - 1) h1 with ⟨h2, _ | _⟩
    · exact ⟨_, .popSwap e e1⟩
    rcases e2 : (down (n - 1)).run (some h2) with ⟨s, _ | _⟩
    · exact ⟨_, .popDown e e1 e2⟩
    have := hu (n - 1) h2
    rw [e2] at this
    obtain ⟨h3, rfl⟩ := Option.isSome_iff_exists.1 this
    rcases e3 : M.pop h3 with ⟨h4, _ | ⟨p, v⟩⟩
    · exact ⟨_, .popPanics e e1 e2 e3⟩
    · exact ⟨_, .pop e e1 e2 e3⟩

end Queue

/-- Pushing 2 on the queue of `Misc/Zero.lean`. -/
example : QDoes exM (fun _ => pure ()) (fun _ => pure ()) [(3, 4)] (.push 1 2) (some [(1, 2), (3, 4)], some .unit) :=
  .push rfl rfl rfl

section Cache
variable {D F C R : Type}

/-- What a call on a cache with data `d`, refresh function `f` and clear function `c` does to the three, and what it gives. -/
def ROp.made (M : DMethods D F C R) (d : D) (f : F) (c : Option C) : ROp F C → D × F × Option C × Option (RRes F C R)
  | .get => ((M.get f d).1, f, c, (M.get f d).2.map .res)
  | .refresh => ((M.refresh f d).1, f, c, (M.refresh f d).2.map .res)
  | .clear => ((M.clear c d).1, f, c, (M.clear c d).2.map .res)
  | .other n => ((M.other n d).1, f, c, (M.other n d).2.map .res)
  | .isNil => (d, f, c, some (.bool false))
  | .getRefresh => (d, f, c, some (.rf f))
  | .setRefresh g => (d, g, c, some .unit)
  | .getClear => (d, f, c, some (.cf c))
  | .setClear g => (d, f, some g, some .unit)

/-- **C176**, refresh cache: a call on one made by `NewRefreshCache` goes to its data with the functions set last, and panics only if that does. -/
theorem C176_cache (M : DMethods D F C R) (d : D) (f : F) (c : Option C) (o : ROp F C) :
    (Rc.exec M o).run ⟨some d, some f, c⟩ =
      (⟨some (o.made M d f c).1, some (o.made M d f c).2.1, (o.made M d f c).2.2.1⟩, (o.made M d f c).2.2.2) := by
  cases o with
  | get => rcases e : M.get f d with ⟨d', _ | r⟩ <;> simp [Rc.exec, Rc.on, Rc.refreshFunc, Pan.try_, Pan.run_bind, Pan.run_pure, ROp.made, e]
  | refresh => rcases e : M.refresh f d with ⟨d', _ | r⟩ <;> simp [Rc.exec, Rc.on, Rc.refreshFunc, Pan.try_, Pan.run_bind, Pan.run_pure, ROp.made, e]
  | clear => rcases e : M.clear c d with ⟨d', _ | r⟩ <;> simp [Rc.exec, Rc.on, Pan.run_bind, Pan.run_pure, Pan.run_read, ROp.made, e]
  | other n => rcases e : M.other n d with ⟨d', _ | r⟩ <;> simp [Rc.exec, Rc.on, Pan.run_bind, Pan.run_pure, ROp.made, e]
  | _ => rfl

end Cache

/-- `Get` after another refresh function has been set. -/
example : (calls (Rc.exec exD) ⟨some 1, some 3, none⟩ [.get, .setRefresh 5, .get, .isNil]).2 =
    [some (.res 4), some .unit, some (.res 9), some (.bool false)] := by rfl

end Verif.Zero
