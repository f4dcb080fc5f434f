import Verif.Lhashmap.Props
/-!
# `Range` with a function that calls methods of the map (lhashmap.go:68-74)

`Load` and `Store` move the element of their key to the front of the list that `Range` is walking along.
-/
namespace Verif.Lhashmap
open Verif.Lhashmap.Spec
variable {A B K V R : Type} [DecidableEq K]

/-- What a function does: calls of methods of the map, each depending on the results before. -/
inductive Act (B K V R : Type) where
  | ret (r : R)
  | call (op : Op B K V) (next : Res B V → Act B K V R)

/-- Running it; the calls made are listed beside the result. -/
def Act.run : Act B K V R → LH K V → Option (LH K V × List (Op B K V) × R)
  | .ret r, s => some (s, [], r)
  | .call op next, s => do
    let (s, r) ← exec 0 s op
    let (s, ops, r) ← (next r).run s
    some (s, op :: ops, r)

/-- The call is `Load`, `Store` or `Remove` of another key than `k`, or `Len`. -/
def Other (k : K) : Op B K V → Prop
  | .load k' | .store k' _ | .remove k' => k' ≠ k
  | .len => True
  | _ => False

/-- All calls are such. -/
def Act.Others (k : K) : Act B K V R → Prop
  | .ret _ => True
  | .call op next => Other k op ∧ ∀ r, (next r).Others k

/-- The call is `Load`, `Store` or `Remove` of `k`. -/
def Touches (k : K) : Op B K V → Prop
  | .load k' | .store k' _ | .remove k' => k' = k
  | _ => False

/-- One call of the function of `Range`: key and value passed, the calls it made, its result. -/
structure Visit (B K V : Type) where
  k : K
  v : V
  ops : List (Op B K V)
  go : Bool

/-- The function of `Range`, noting its calls. -/
def noting (f : A → K → V → Act B K V (A × Bool)) (s : LH K V) (a : A × List (Visit B K V)) (k : K) (v : V) :
    Option (LH K V × (A × List (Visit B K V)) × Bool) := do
  let (s, ops, r) ← (f a.1 k v).run s
  some (s, (r.1, a.2 ++ [⟨k, v, ops, r.2⟩]), r.2)

/-! ### Proofs -/

theorem get_none {s : LH K V} {S : Nat → List Nat} {ys : List (Item K V)} (h : Inv s S ys) {k : K} (hk : ∀ y ∈ ys, y.k ≠ k) :
    aget s.m k = none := by
  cases e : aget s.m k with
  | none => rfl
  | some e' =>
    obtain ⟨y, hy, hk', _⟩ := h.mem k e' e
    exact absurd hk' (hk y hy)

theorem aget_absent {ys : List (Item K V)} {k : K} (hk : ∀ y ∈ ys, y.k ≠ k) : aget (ys.map Item.kv) k = none := by
  rcases aget_items (ys := ys) (k := k) with ⟨h1, _⟩ | ⟨ys1, y, ys2, rfl, h2, _⟩
  · exact h1
  · exact absurd h2 (hk y (by simp))

theorem aget_present {ys1 ys2 : List (Item K V)} {y : Item K V} (hk : ((ys1 ++ y :: ys2).map Item.k).Nodup) :
    aget ((ys1 ++ y :: ys2).map Item.kv) y.k = some y.v := by
  rcases aget_items (ys := ys1 ++ y :: ys2) (k := y.k) with ⟨_, h1⟩ | ⟨zs1, z, zs2, h1, h2, h3⟩
  · exact absurd rfl (h1 y (by simp))
  · rw [h3]
    have hz : z ∈ ys1 ++ y :: ys2 := by rw [h1]; simp
    have h4 := split_key hk
    simp only [List.mem_append, List.mem_cons] at hz
    rcases hz with hz | rfl | hz
    · exact absurd h2 (h4 z (by simp [hz]))
    · rfl
    · exact absurd h2 (h4 z (by simp [hz]))

/-- One call for the item `z`, wherever it is. -/
theorem item_step {s : LH K V} {S : Nat → List Nat} {ys1 ys2 : List (Item K V)} {z : Item K V} (h : Inv s S (ys1 ++ z :: ys2))
    (op : Op B K V) (ho : Touches z.k op) :
    ∃ s' S' zs, exec 0 s op = some (s', result ((ys1 ++ z :: ys2).map Item.kv) op) ∧ Inv s' S' (zs ++ (ys1 ++ ys2)) ∧
      (zs ++ (ys1 ++ ys2)).map Item.kv = recent ((ys1 ++ z :: ys2).map Item.kv) op := by
  cases op <;> simp only [Touches] at ho <;> subst ho
  case load =>
    obtain ⟨mem', m1, S', m2⟩ := h.move
    refine ⟨_, S', [z], ?_, m2, ?_⟩
    · simp only [exec, load, h.get z (by simp), m1, m2.entry (y := z) (by simp), result, aget_present h.keys,
        Option.bind_eq_bind, Option.bind_some]
    · simp only [recent, aget_present h.keys, adel_items h.keys]; rfl
  case store v =>
    obtain ⟨mem', m1, S', m2⟩ := (h.assign v).move
    refine ⟨_, S', [{ z with v := v }], ?_, m2, ?_⟩
    · simp only [exec, store, h.get z (by simp), h.entry (y := z) (by simp), m1, result, Option.bind_eq_bind, Option.bind_some]
    · simp only [recent, adel_items h.keys]; rfl
  case remove =>
    obtain ⟨mem', v, m1, S', m2⟩ := h.del
    refine ⟨_, S', [], ?_, m2, ?_⟩
    · simp [exec, remove, h.get z (by simp), m1, result]
    · simp only [recent, adel_items h.keys]; rfl

/-- One call for a key that is not there, or `Len`. -/
theorem absent_step {s : LH K V} {S : Nat → List Nat} {ys : List (Item K V)} (h : Inv s S ys) (k0 : K)
    (op : Op B K V) (hk : Other k0 op) (ho : ∀ y ∈ ys, ¬ Touches y.k op) :
    ∃ s' S' zs, exec 0 s op = some (s', result (ys.map Item.kv) op) ∧ Inv s' S' (zs ++ ys) ∧
      (zs ++ ys).map Item.kv = recent (ys.map Item.kv) op := by
  cases op <;> simp only [Touches, Other] at ho hk
  case load k =>
    have ho : ∀ y ∈ ys, y.k ≠ k := fun y hy e => ho y hy e.symm
    refine ⟨s, S, [], ?_, h, by simp [recent, aget_absent ho]⟩
    simp [exec, load, get_none h ho, result, aget_absent ho]
  case store k v =>
    have ho : ∀ y ∈ ys, y.k ≠ k := fun y hy e => ho y hy e.symm
    obtain ⟨mem', m1, S', m2⟩ := h.push (get_none h ho) v
    refine ⟨_, S', [_], ?_, m2, ?_⟩
    · simp [exec, store, get_none h ho, m1, result]
    · simp only [recent, adel_none ho]; rfl
  case remove k =>
    have ho : ∀ y ∈ ys, y.k ≠ k := fun y hy e => ho y hy e.symm
    refine ⟨s, S, [], ?_, h, by simp [recent, adel_none ho]⟩
    simp [exec, remove, get_none h ho, result]
  case len => exact ⟨s, S, [], by simp [exec, len, result, h.length], h, rfl⟩

/-- One call for another key than that of `y`: `y` stays, and of what is behind it at most the item of that key goes. -/
theorem other_step {s : LH K V} {S : Nat → List Nat} {pre post : List (Item K V)} {y : Item K V} (h : Inv s S (pre ++ y :: post))
    (op : Op B K V) (ho : Other y.k op) :
    ∃ s' S' pre' post' r, exec 0 s op = some (s', r) ∧ Inv s' S' (pre' ++ y :: post') ∧ post'.Sublist post ∧
      (∀ z ∈ post, ¬ Touches z.k op → z ∈ post') ∧
      (pre' ++ y :: post').map Item.kv = recent ((pre ++ y :: post).map Item.kv) op := by
  by_cases h1 : ∃ z ∈ pre ++ y :: post, Touches z.k op
  · obtain ⟨z, hz, ht⟩ := h1
    simp only [List.mem_append, List.mem_cons] at hz
    rcases hz with hz | rfl | hz
    · obtain ⟨p1, p2, rfl⟩ := List.append_of_mem hz
      rw [List.append_assoc, List.cons_append] at h
      obtain ⟨s', S', zs, a1, a2, a3⟩ := item_step h op ht
      exact ⟨s', S', zs ++ (p1 ++ p2), post, _, a1, by simpa using a2, List.Sublist.refl _, fun z hz _ => hz, by simpa using a3⟩
    · exfalso
      cases op <;> simp only [Touches, Other] at ht ho <;> exact ho ht
    · obtain ⟨p1, p2, rfl⟩ := List.append_of_mem hz
      have e : pre ++ y :: (p1 ++ z :: p2) = (pre ++ y :: p1) ++ z :: p2 := by simp
      have hk := h.keys
      rw [e] at h
      obtain ⟨s', S', zs, a1, a2, a3⟩ := item_step h op ht
      refine ⟨s', S', zs ++ pre, p1 ++ p2, _, a1, by simpa using a2, ?_, ?_, by simpa using a3⟩
      · exact List.Sublist.append_left (List.sublist_cons_self _ _) _
      · intro w hw hwt
        simp only [List.mem_append, List.mem_cons] at hw ⊢
        rcases hw with hw | rfl | hw
        · exact .inl hw
        · exact absurd ht hwt
        · exact .inr hw
  · obtain ⟨s', S', zs, a1, a2, a3⟩ := absent_step h y.k op ho fun y hy ht => h1 ⟨y, hy, ht⟩
    exact ⟨s', S', zs ++ pre, post, _, a1, by simpa using a2, List.Sublist.refl _, fun z hz _ => hz, by simpa using a3⟩

/-- The same for several calls. -/
theorem act_run {pre post : List (Item K V)} {y : Item K V} : ∀ (p : Act B K V R) {s : LH K V} {S : Nat → List Nat}
    {pre post : List (Item K V)}, Inv s S (pre ++ y :: post) → p.Others y.k →
    ∃ s' S' pre' post' ops r, p.run s = some (s', ops, r) ∧ Inv s' S' (pre' ++ y :: post') ∧ post'.Sublist post ∧
      (∀ z ∈ post, (∀ op ∈ ops, ¬ Touches z.k op) → z ∈ post') ∧
      (pre' ++ y :: post').map Item.kv = ops.foldl recent ((pre ++ y :: post).map Item.kv) := by
  intro p
  induction p with
  | ret r =>
    intro s S pre post h _
    exact ⟨s, S, pre, post, [], r, rfl, h, List.Sublist.refl _, fun z hz _ => hz, rfl⟩
  | call op next ih =>
    intro s S pre post h hp
    obtain ⟨s1, S1, pre1, post1, r1, a1, a2, a3, a4, a5⟩ := other_step h op hp.1
    obtain ⟨s2, S2, pre2, post2, ops, r2, b1, b2, b3, b4, b5⟩ := ih r1 a2 (hp.2 r1)
    refine ⟨s2, S2, pre2, post2, op :: ops, r2, ?_, b2, b3.trans a3, ?_, ?_⟩
    · simp [Act.run, a1, b1]
    · intro z hz ht
      exact b4 z (a4 z hz (ht op (by simp))) fun o ho => ht o (by simp [ho])
    · rw [b5, a5]; rfl

theorem range_loop (f : A → K → V → Act B K V (A × Bool)) (hf : ∀ a k v, (f a k v).Others k) :
    ∀ (n : Nat) (rest pre : List (Item K V)) (h : List (Op B K V)) (s : LH K V) (S : Nat → List Nat) (a : A) (log : List (Visit B K V)),
      rest.length ≤ n → Inv s S (pre ++ rest) → (pre ++ rest).map Item.kv = h.foldl recent [] →
      ∃ s' a' more, (∀ fuel, rest.length < fuel →
          rangeLoop (noting f) fuel s (a, log) ((rest.map Item.e).head?.map .node) = some (s', (a', log ++ more))) ∧
        (more.map fun v => (v.k, v.v)).Sublist (rest.map Item.kv) ∧
        (∀ i (hi : i < more.length), current more[i].k (h ++ (more.take i).flatMap (·.ops)) = some more[i].v) ∧
        ((∀ v ∈ more, v.go = true) → ∀ y ∈ rest, (∀ v ∈ more, ∀ op ∈ v.ops, ¬ Touches y.k op) → y.kv ∈ more.map fun v => (v.k, v.v)) := by
  intro n
  induction n with
  | zero =>
    intro rest pre h s S a log hn hI he
    obtain rfl : rest = [] := List.eq_nil_of_length_eq_zero (by omega)
    refine ⟨s, a, [], fun fuel hf => ?_, by simp, by simp, by simp⟩
    cases fuel with
    | zero => simp at hf
    | succ n => simp [rangeLoop]
  | succ n ih =>
    intro rest pre h s S a log hn hI he
    cases rest with
    | nil =>
      refine ⟨s, a, [], fun fuel hf => ?_, by simp, by simp, by simp⟩
      cases fuel with
      | zero => simp at hf
      | succ n => simp [rangeLoop]
    | cons y post =>
      obtain ⟨s1, S1, pre1, post1, ops, r, a1, a2, a3, a4, a5⟩ := act_run (pre := pre) (post := post) (f a y.k y.v) hI (hf a y.k y.v)
      have hcur : current y.k h = some y.v := by
        rw [← (recent_spec h).1, ← he]; exact aget_present hI.keys
      have hent := hI.entry (y := y) (by simp)
      rcases r with ⟨a2', c⟩
      cases c with
      | false =>
        refine ⟨s1, a2', [⟨y.k, y.v, ops, false⟩], fun fuel hfu => ?_, ?_, ?_, ?_⟩
        · cases fuel with
          | zero => simp at hfu
          | succ m =>
            simp only [List.map_cons, List.head?_cons, Option.map_some, rangeLoop, hent, noting, a1, Option.bind_eq_bind, Option.bind_some]
            rfl
        · exact (List.Sublist.cons_cons _ (List.nil_sublist _))
        · intro i hi
          obtain rfl : i = 0 := by simpa using hi
          simpa using hcur
        · intro hg; cases hg _ (List.mem_singleton_self _)
      | true =>
        have hlen := a3.length_le
        simp only [List.length_cons] at hn
        obtain ⟨s', a', more, b1, b2, b3, b4⟩ := ih post1 (pre1 ++ [y]) (h ++ ops) s1 S1 a2' (log ++ [⟨y.k, y.v, ops, true⟩]) (by omega)
          (by simpa using a2) (by rw [List.foldl_append, ← he]; simpa using a5)
        have hnx := Dllist.elNext_rep a2.rep (l := s1.l) (n := y.e) (xs := pre1.map Item.e)
          (ys := post1.map Item.e) (by rw [a2.seq]; simp)
        refine ⟨s', a', ⟨y.k, y.v, ops, true⟩ :: more, fun fuel hfu => ?_, ?_, ?_, ?_⟩
        · cases fuel with
          | zero => simp at hfu
          | succ m =>
            simp only [List.map_cons, List.head?_cons, Option.map_some, rangeLoop, hent, noting, a1, Option.bind_eq_bind, Option.bind_some, if_true]
            rw [hnx, b1 m (by simp only [List.length_cons] at hfu; omega)]
            simp
        · exact (b2.trans (a3.map _)).cons_cons _
        · intro i hi
          cases i with
          | zero => simpa using hcur
          | succ i => simpa using b3 i (by simpa using hi)
        · intro hg z hz ht
          rw [List.mem_cons] at hz
          rcases hz with rfl | hz
          · simp [Item.kv]
          · have := a4 z hz fun op ho => ht _ (List.mem_cons_self ..) op ho
            have := b4 (fun v hv => hg v (List.mem_cons_of_mem _ hv)) z this fun v hv => ht v (List.mem_cons_of_mem _ hv)
            exact List.mem_cons_of_mem _ this

/-- C113, partial: if the function of `Range` calls `Load`, `Store` and `Remove` only for other keys than the one it is given, `Range` returns; it
passes only bindings that were there when it was called, in that order, so no key twice and no new key, each with the value the key has at that
moment; and unless the function stops it, it passes every key for which the function makes no call.
Missing from the full claim: calls for the key that the function is given; see `C113_range_false`. -/
theorem C113_range_partial {h : List (Op B K V)} {s : LH K V} (hr : MRun h s) (f : A → K → V → Act B K V (A × Bool))
    (hf : ∀ a k v, (f a k v).Others k) (a : A) :
    ∃ s' a' log xs, (∃ F, ∀ fuel, F ≤ fuel → range (noting f) fuel s (a, []) = some (s', (a', log))) ∧
      Visits h xs ∧ (log.map fun v => (v.k, v.v)).Sublist xs ∧ (log.map (·.k)).Nodup ∧
      (∀ i (hi : i < log.length), current log[i].k (h ++ (log.take i).flatMap (·.ops)) = some log[i].v) ∧
      ((∀ v ∈ log, v.go = true) → ∀ k, current k h ≠ none → (∀ v ∈ log, ∀ op ∈ v.ops, ¬ Touches k op) → k ∈ log.map (·.k)) := by
  obtain ⟨S, ys, hI, he⟩ := run_inv hr
  obtain ⟨i1, i2, i3⟩ := recent_spec h
  obtain ⟨s', a', log, b1, b2, b3, b4⟩ := range_loop f hf ys.length ys [] h s S a [] (Nat.le_refl _) hI he
  have hfr := Dllist.front_rep hI.rep hI.inited
  have hV : Visits h (ys.map Item.kv) := by
    rw [he]
    exact ⟨fun k v => by rw [← i1, mem_iff_aget i2], i2, i3⟩
  refine ⟨s', a', log, ys.map Item.kv, ⟨ys.length + 1, fun fuel hfu => ?_⟩, hV, b2, ?_, b3, ?_⟩
  · have := b1 fuel (by omega)
    rw [← hI.seq] at this
    simp only [range, hfr]
    exact this
  · have := (b2.map Prod.fst).nodup hV.2.1
    simpa [Function.comp_def] using this
  · intro hg k hk ht
    obtain ⟨v, hv⟩ := Option.ne_none_iff_exists'.1 hk
    obtain ⟨y, hy, hkv⟩ := List.mem_map.1 ((hV.1 k v).2 hv)
    have hyk : y.k = k := congrArg Prod.fst hkv
    have := b4 hg y hy (by rw [hyk]; exact ht)
    obtain ⟨w, hw, hwk⟩ := List.mem_map.1 this
    exact List.mem_map.2 ⟨w, hw, by rw [← hyk]; exact congrArg Prod.fst hwk⟩

/-! ### The full claim is false -/

/-- A function that calls `Load` of the key it is given, counts its calls and returns false at call `n + 1`. -/
def loading (n : Nat) : Nat → K → V → Act B K V (Nat × Bool) :=
  fun a k _ => .call (.load k) fun _ => .ret (a + 1, decide (a < n))

theorem load_step {s : LH K V} {S : Nat → List Nat} {pre post : List (Item K V)} {y : Item K V} (h : Inv s S (pre ++ y :: post)) :
    ∃ s' S' r, exec 0 s (.load y.k : Op B K V) = some (s', r) ∧ Inv s' S' (y :: (pre ++ post)) := by
  obtain ⟨mem', m1, S', m2⟩ := h.move
  refine ⟨_, S', .val (some y.v), ?_, m2⟩
  simp only [exec, load, h.get y (by simp), m1, m2.entry (y := y) (by simp), Option.bind_eq_bind, Option.bind_some]

theorem loading_loop (n : Nat) : ∀ (j : Nat) (pre post : List (Item K V)) (y : Item K V) (s : LH K V) (S : Nat → List Nat) (a : Nat)
    (log : List (Visit B K V)), Inv s S (pre ++ y :: post) → pre ++ post ≠ [] → n = a + j → log.length = a →
    (∃ s' a' log', (∀ fuel, j < fuel →
      rangeLoop (noting (loading n)) fuel s (a, log) (some (.node y.e)) = some (s', (a', log'))) ∧ log'.length = n + 1) ∧
    ∀ fuel, fuel ≤ j → rangeLoop (noting (loading n)) fuel s (a, log) (some (.node y.e)) = none := by
  intro j
  induction j with
  | zero =>
    intro pre post y s S a log hI hne hn hl
    obtain ⟨s', S', r, h1, h2⟩ := load_step (B := B) hI
    have hent := hI.entry (y := y) (by simp)
    refine ⟨⟨s', a + 1, log ++ [⟨y.k, y.v, [.load y.k], false⟩], fun fuel hf => ?_, by simp; omega⟩, fun fuel hf => ?_⟩
    · cases fuel with
      | zero => simp at hf
      | succ m =>
        simp [rangeLoop, hent, noting, loading, Act.run, h1, hn]
    · obtain rfl : fuel = 0 := by omega
      rfl
  | succ j ih =>
    intro pre post y s S a log hI hne hn hl
    obtain ⟨s1, S1, r, h1, h2⟩ := load_step (B := B) hI
    have hent := hI.entry (y := y) (by simp)
    obtain ⟨z, w, hw⟩ := List.exists_cons_of_ne_nil hne
    have hnx := Dllist.elNext_rep h2.rep (l := s1.l) (n := y.e) (xs := []) (ys := (pre ++ post).map Item.e) (by rw [h2.seq]; simp)
    rw [hw] at h2 hnx
    obtain ⟨⟨s', a', log', b1, b2⟩, b3⟩ := ih [y] w z s1 S1 (a + 1) (log ++ [⟨y.k, y.v, [.load y.k], true⟩]) h2 (by simp) (by omega) (by simp [hl])
    have step : ∀ m, rangeLoop (noting (loading n)) (m + 1) s (a, log) (some (.node y.e)) =
        rangeLoop (noting (loading n)) m s1 (a + 1, log ++ [⟨y.k, y.v, [.load y.k], true⟩]) (some (.node z.e)) := by
      intro m
      have : a < n := by omega
      simp [rangeLoop, hent, noting, loading, Act.run, h1, this, hnx]
    refine ⟨⟨s', a', log', fun fuel hf => ?_, b2⟩, fun fuel hf => ?_⟩
    · cases fuel with
      | zero => simp at hf
      | succ m => rw [step]; exact b1 m (by omega)
    · cases fuel with
      | zero => rfl
      | succ m => rw [step]; exact b3 m (by omega)

/-- C113 without the restriction is false: on every map with at least two keys, a function that calls `Load` of the key it is given is called
as often as it likes; so if it never returns false, `Range` never returns. -/
theorem C113_range_false {h : List (Op B K V)} {s : LH K V} (hr : MRun h s) {k1 k2 : K} (hk : k1 ≠ k2) (h1 : current k1 h ≠ none)
    (h2 : current k2 h ≠ none) (n : Nat) :
    (∃ s' a' log, (∃ F, ∀ fuel, F ≤ fuel → range (noting (loading (B := B) n)) fuel s (0, []) = some (s', (a', log))) ∧ log.length = n + 1) ∧
    ∀ fuel, fuel ≤ n → range (noting (loading (B := B) n)) fuel s (0, []) = none := by
  obtain ⟨S, ys, hI, he⟩ := run_inv hr
  obtain ⟨i1, i2, i3⟩ := recent_spec h
  have hfr := Dllist.front_rep hI.rep hI.inited
  have hin : ∀ k, current k h ≠ none → ∃ y ∈ ys, y.k = k := by
    intro k hk
    rw [← i1, ← he] at hk
    rcases aget_items (ys := ys) (k := k) with ⟨h1, _⟩ | ⟨ys1, y, ys2, rfl, h2, _⟩
    · exact absurd h1 hk
    · exact ⟨y, by simp, h2⟩
  obtain ⟨y1, hy1, e1⟩ := hin k1 h1
  obtain ⟨y2, hy2, e2⟩ := hin k2 h2
  cases ys with
  | nil => simp at hy1
  | cons y post =>
    have hne : post ≠ [] := by
      rintro rfl
      simp only [List.mem_singleton] at hy1 hy2
      subst hy1; subst hy2
      exact hk (e1.symm.trans e2)
    obtain ⟨⟨s', a', log', b1, b2⟩, b3⟩ := loading_loop (B := B) n n [] post y s S 0 [] hI (by simpa using hne) (by omega) rfl
    have hhd : (S s.l).head?.map Dllist.Ptr.node = some (.node y.e) := by rw [hI.seq]; rfl
    refine ⟨⟨s', a', log', ⟨n + 1, fun fuel hf => ?_⟩, b2⟩, fun fuel hf => ?_⟩
    · simp only [range, hfr, hhd]; exact b1 fuel (by omega)
    · simp only [range, hfr, hhd]; exact b3 fuel hf

/-- Keys 3, 2, 1 in this order; the function given 3 loads 2, which is then passed over. -/
def skipping : Unit → Nat → Nat → Act Unit Nat Nat (Unit × Bool) :=
  fun _ k _ => if k = 3 then .call (.load 2) fun _ => .ret ((), true) else .ret ((), true)

example : ∀ a k v, (skipping a k v).Others k := by
  intro a k v
  unfold skipping
  split
  · next h => subst h; exact ⟨show (2 : Nat) ≠ 3 by decide, fun _ => trivial⟩
  · trivial

example : (do
    let s ← store (new : LH Nat Nat) 1 10
    let s ← store s 2 20
    let s ← store s 3 30
    let (_, _, log) ← range (noting skipping) 9 s ((), [])
    some (log.map (·.k))) = some [3, 1] := by decide +kernel

end Verif.Lhashmap
