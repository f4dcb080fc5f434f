import Verif.Vec.More
/-!
# Orders on the elements involved (C55, C58, C60)

The theorems of `Order.lean` speak of an order of the whole element type.  `float64` is not ordered by `<` and `==`:
`NaN` is neither less than, nor equal to, nor greater than anything.  Here only the elements of the vector (and, for
`BinarySearch`, the target) have to be ordered; in particular the theorems apply to vectors of floats without `NaN`.  (C57 and C59 are in this form in `Order.lean`.)
-/
namespace Verif.Vec
variable {T : Type} {E : Elt T} {g : Nat → Nat} {P : SortImpl T} {m : VMem T}

section
variable {lt eq lt' eq' : T → T → Bool}

theorem three_congr {a b : T} (h : lt' a b = lt a b ∧ eq' a b = eq a b) :
    three? (some lt') (some eq') a b = three? (some lt) (some eq) a b := by
  rw [three?_some, three?_some, three, three, h.1, h.2]

theorem binLoop_congr {c c' : T → Option Int} {l : List T} (h : ∀ x ∈ l, c' x = c x) :
    ∀ n i j, binLoop c' l n i j = binLoop c l n i j := by
  intro n
  induction n with
  | zero => intro i j; unfold binLoop; rfl
  | succ n ih =>
    intro i j
    unfold binLoop
    split
    · simp only [ih]
      cases hx : l[(i + j) / 2]? with
      | none => rfl
      | some x => simp only [Option.bind_eq_bind, Option.bind_some, h x (List.mem_of_getElem? hx)]
    · rfl

theorem binarySearchFunc_congr {c c' : T → Option Int} {l : List T} (h : ∀ x ∈ l, c' x = c x) :
    binarySearchFunc c' l = binarySearchFunc c l := by
  unfold binarySearchFunc
  rw [binLoop_congr h]
  cases binLoop c l l.length 0 l.length with
  | none => rfl
  | some i =>
    simp only [Option.bind_eq_bind, Option.bind_some]
    cases hx : l[i]? with
    | none => rfl
    | some x => simp only [h x (List.mem_of_getElem? hx)]

theorem maxLoop_congr {c c' : T → T → Option Int} : ∀ (l : List T) (x : T),
    (∀ a ∈ x :: l, ∀ b ∈ x :: l, c' a b = c a b) → maxLoop c' x l = maxLoop c x l := by
  intro l
  induction l with
  | nil => intro x _; rfl
  | cons a l ih =>
    intro x h
    unfold maxLoop
    rw [h a (by simp) x (by simp), ih a fun p hp q hq => h p (by simp at hp ⊢; tauto) q (by simp at hq ⊢; tauto),
      ih x fun p hp q hq => h p (by simp at hp ⊢; tauto) q (by simp at hq ⊢; tauto)]

theorem minLoop_congr {c c' : T → T → Option Int} : ∀ (l : List T) (x : T),
    (∀ a ∈ x :: l, ∀ b ∈ x :: l, c' a b = c a b) → minLoop c' x l = minLoop c x l := by
  intro l
  induction l with
  | nil => intro x _; rfl
  | cons a l ih =>
    intro x h
    unfold minLoop
    rw [h a (by simp) x (by simp), ih a fun p hp q hq => h p (by simp at hp ⊢; tauto) q (by simp at hq ⊢; tauto),
      ih x fun p hp q hq => h p (by simp at hp ⊢; tauto) q (by simp at hq ⊢; tauto)]

theorem compareLoop_congr {c c' : T → T → Option Int} : ∀ l l' : List T,
    (∀ a ∈ l, ∀ b ∈ l', c' a b = c a b) → compareLoop c' l l' = compareLoop c l l' := by
  intro l
  induction l with
  | nil => intro l' _; cases l' <;> rfl
  | cons a l ih =>
    intro l' h
    cases l' with
    | nil => rfl
    | cons b l' =>
      simp only [compareLoop]
      rw [h a (by simp) b (by simp), ih l' fun p hp q hq => h p (by simp [hp]) q (by simp [hq])]

theorem LexLt.congr {l l' : List T} (h : ∀ a ∈ l, ∀ b ∈ l', lt' a b = lt a b ∧ eq' a b = eq a b) :
    LexLt lt' eq' l l' ↔ LexLt lt eq l l' := by
  have one : ∀ {lt eq lt' eq' : T → T → Bool} {l l' : List T}, LexLt lt' eq' l l' →
      (∀ a ∈ l, ∀ b ∈ l', lt' a b = lt a b ∧ eq' a b = eq a b) → LexLt lt eq l l' := by
    intro lt eq lt' eq' l l' hl
    induction hl with
    | nil => intro _; exact .nil ..
    | head hab => intro h; exact .head (by rw [← (h _ (by simp) _ (by simp)).1]; exact hab)
    | tail hab _ ih =>
      intro h
      exact .tail (by rw [← (h _ (by simp) _ (by simp)).2]; exact hab)
        (ih fun a ha b hb => h a (by simp [ha]) b (by simp [hb]))
  exact ⟨fun hl => one hl h, fun hl => one hl fun a ha b hb => ⟨(h a ha b hb).1.symm, (h a ha b hb).2.symm⟩⟩

theorem forall₂_congr {l l' : List T} (h : ∀ a ∈ l, ∀ b ∈ l', eq' a b = eq a b) :
    List.Forall₂ (fun a b => eq' a b = true) l l' ↔ List.Forall₂ (fun a b => eq a b = true) l l' := by
  induction l generalizing l' with
  | nil => cases l' <;> simp
  | cons a l ih =>
    cases l' with
    | nil => simp
    | cons b l' =>
      rw [List.forall₂_cons, List.forall₂_cons, h a (by simp) b (by simp),
        ih fun a ha b hb => h a (by simp [ha]) b (by simp [hb])]

end

/-- C55 for an order on the elements of the vector and the target. -/
theorem C55_binarySearch_on {v : Nat} {l : List T} (hl : Shows E g m v l) {lt eq : T → T → Bool} (t : T)
    (o : OrderOn lt eq (· ∈ t :: l)) (h1 : m.less E v = some lt) (h2 : m.eq E v = some eq)
    (hs : l.Pairwise (fun a b => lt b a = false)) :
    ∃ r b, m.binarySearch E v t = some (r, b) ∧ r ≤ l.length ∧
      (∀ k x, l[k]? = some x → (lt x t = true ↔ k < r)) ∧
      (b = true ↔ ∃ x ∈ l, eq x t = true) ∧ (b = true → ∃ x, l[r]? = some x ∧ eq x t = true) := by
  obtain ⟨lt', eq', o', he⟩ := o.extend
  have hmem : ∀ {x}, x ∈ l → x ∈ t :: l := fun hx => List.mem_cons_of_mem _ hx
  have hc : ∀ x ∈ l, three? (some lt') (some eq') x t = three? (some lt) (some eq) x t :=
    fun x hx => three_congr (he x t (hmem hx) (by simp))
  have hs' : l.Pairwise (fun a b => lt' b a = false) :=
    (pairwise_ext fun a b ha hb => (he a b (hmem ha) (hmem hb)).1).2 hs
  obtain ⟨r, b, e1, e2, e3, e4, e5⟩ := binarySearch_list o' hs' t
  rw [binarySearchFunc_congr hc] at e1
  have hlt : ∀ x ∈ l, lt' x t = lt x t := fun x hx => (he x t (hmem hx) (by simp)).1
  have heq : ∀ x ∈ l, eq' x t = eq x t := fun x hx => (he x t (hmem hx) (by simp)).2
  refine ⟨r, b, by rw [VMem.binarySearch, hl.list, h1, h2]; exact e1, e2, ?_, ?_, ?_⟩
  · intro k x hx
    rw [← hlt x (List.mem_of_getElem? hx)]; exact e3 k x hx
  · rw [e4]
    exact exists_congr fun x => and_congr_right fun hx => by rw [heq x hx]
  · intro hb
    obtain ⟨x, hx, hxe⟩ := e5 hb
    exact ⟨x, hx, by rw [← heq x (List.mem_of_getElem? hx)]; exact hxe⟩

/-- C58 for an order on the elements of the vector; also for comparisons given by the caller. -/
theorem C58_func_on {v : Nat} {l : List T} (hl : Shows E g m v l) {lt eq : T → T → Bool} (o : OrderOn lt eq (· ∈ l)) :
    (l ≠ [] → (∃ x, m.maxFunc v (some lt) (some eq) = some x ∧ x ∈ l ∧ ∀ y ∈ l, lt x y = false) ∧
      (∃ x, m.minFunc v (some lt) (some eq) = some x ∧ x ∈ l ∧ ∀ y ∈ l, lt y x = false)) ∧
    (l = [] → m.maxFunc v (some lt) (some eq) = none ∧ m.minFunc v (some lt) (some eq) = none) := by
  unfold VMem.maxFunc VMem.minFunc
  rw [hl.list]
  cases l with
  | nil => simp [maxFunc, minFunc]
  | cons a l =>
    obtain ⟨lt', eq', o', he⟩ := o.extend
    have hc : ∀ p ∈ a :: l, ∀ q ∈ a :: l, three? (some lt') (some eq') p q = three? (some lt) (some eq) p q :=
      fun p hp q hq => three_congr (he p q hp hq)
    refine ⟨fun _ => ⟨?_, ?_⟩, by simp⟩
    · obtain ⟨x, e1, e2, e3⟩ := maxLoop_spec o' l a
      rw [maxLoop_congr l a hc] at e1
      exact ⟨x, e1, e2, fun y hy => by rw [← (he x y e2 hy).1]; exact e3 y hy⟩
    · obtain ⟨x, e1, e2, e3⟩ := minLoop_spec o' l a
      rw [minLoop_congr l a hc] at e1
      exact ⟨x, e1, e2, fun y hy => by rw [← (he y x hy e2).1]; exact e3 y hy⟩

theorem C58_extremes_on {v : Nat} {l : List T} (hl : Shows E g m v l) {lt eq : T → T → Bool} (o : OrderOn lt eq (· ∈ l))
    (h1 : m.less E v = some lt) (h2 : m.eq E v = some eq) :
    (l ≠ [] → (∃ x, m.max E v = some x ∧ x ∈ l ∧ ∀ y ∈ l, lt x y = false) ∧
      (∃ x, m.min E v = some x ∧ x ∈ l ∧ ∀ y ∈ l, lt y x = false)) ∧
    (l = [] → m.max E v = none ∧ m.min E v = none) := by
  unfold VMem.max VMem.min
  rw [h1, h2]
  exact C58_func_on hl o

/-- C60 for an order on the elements of the two vectors. -/
theorem C60_compare_on {v w : Nat} {l l' : List T} (hl : Shows E g m v l) (hl' : Shows E g m w l')
    {lt eq : T → T → Bool} (o : OrderOn lt eq (fun x => x ∈ l ∨ x ∈ l')) (h1 : m.less E v = some lt)
    (h2 : m.eq E v = some eq) :
    ∃ c, m.compare E v w = some c ∧ (c = -1 ∨ c = 0 ∨ c = 1) ∧ (c = -1 ↔ LexLt lt eq l l') ∧
      (c = 0 ↔ List.Forall₂ (fun a b => eq a b = true) l l') ∧ (c = 1 ↔ LexLt lt eq l' l) := by
  obtain ⟨lt', eq', o', he⟩ := o.extend
  unfold VMem.compare VMem.compareFunc
  rw [h1, h2, hl.list, hl'.list]
  rw [← compareLoop_congr (c' := three? (some lt') (some eq')) l l' fun a ha b hb =>
    three_congr (he a b (.inl ha) (.inr hb))]
  rw [← LexLt.congr (lt' := lt') (eq' := eq') (l := l) (l' := l') fun a ha b hb => he a b (.inl ha) (.inr hb),
    ← LexLt.congr (lt' := lt') (eq' := eq') (l := l') (l' := l) fun a ha b hb => he a b (.inr ha) (.inl hb),
    ← forall₂_congr (eq' := eq') fun a ha b hb => (he a b (.inl ha) (.inr hb)).2]
  exact compare_list o' l l'

end Verif.Vec
