import Verif.Heap.Lemmas
/-!
# Properties C22–C26 of package `heap`
-/
namespace Verif.Heap
variable {T : Type}

/-! ## C24: permutation of the contents (no law on `lt` assumed) -/

/-- C24 (Init): `Init` never panics and only permutes the elements. -/
theorem C24_init_perm (lt : T → T → Bool) (l : List T) :
    ∃ l', init lt l = some l' ∧ l'.Perm l :=
  let ⟨l', h, p, _⟩ := init_spec l; ⟨l', h, p⟩

/-- C24 (Push): `Push` never panics and adds exactly the pushed element. -/
theorem C24_push_perm (lt : T → T → Bool) (l : List T) (x : T) :
    ∃ l', push lt l x = some l' ∧ l'.Perm (x :: l) :=
  let ⟨l', h, p, _⟩ := push_spec l x; ⟨l', h, p⟩

/-- C24 (Pop): on a nonempty heap `Pop` takes out exactly the returned element; on an empty heap it
panics. -/
theorem C24_pop_perm (lt : T → T → Bool) (l : List T) :
    (l = [] → pop lt l = none) ∧
    (l ≠ [] → ∃ x l', pop lt l = some (x, l') ∧ l.Perm (x :: l')) := by
  refine ⟨fun h => by subst h; rfl, fun h => ?_⟩
  obtain ⟨x, l', h1, h2, _⟩ := pop_spec (lt := lt) l (List.length_pos_iff.2 h)
  exact ⟨x, l', h1, h2⟩

/-- C24 (Remove): `Remove(i)` returns the element at index `i` and takes out exactly it; out of
range it panics. -/
theorem C24_remove_perm (lt : T → T → Bool) (l : List T) (i : Int) :
    (∀ (_ : 0 ≤ i) (h1 : i.toNat < l.length),
      ∃ l', remove lt l i = some (l[i.toNat], l') ∧ l.Perm (l[i.toNat] :: l')) ∧
    (i < 0 ∨ (l.length : Int) ≤ i → remove lt l i = none) := by
  refine ⟨fun h0 h1 => ?_, fun h => ?_⟩
  · obtain ⟨x, l', e1, e2, e3, _⟩ := remove_spec (lt := lt) l i.toNat h1
    rw [List.getElem?_eq_getElem h1] at e2
    cases e2
    rw [Int.toNat_of_nonneg h0] at e1
    exact ⟨l', e1, e3⟩
  · unfold remove
    by_cases hc : i < 0 ∨ l.length = 0
    · rw [if_pos hc]
    · rw [if_neg hc]
      have : l.length - 1 ≠ i.toNat := by omega
      simp only [ne_eq, this, not_false_eq_true, if_true]
      have hs : swap l i.toNat (l.length - 1) = none := by
        have : l[i.toNat]? = none := List.getElem?_eq_none (by omega)
        simp [swap, this]
      simp [hs]

/-- C24 (Fix): in range, `Fix` never panics and only permutes the elements. -/
theorem C24_fix_perm (lt : T → T → Bool) (l : List T) (i : Nat) (hi : i < l.length) :
    ∃ l', fix lt l i = some l' ∧ l'.Perm l :=
  let ⟨l', h, p, _⟩ := fix_spec l i hi; ⟨l', h, p⟩

/-! ## C22: heap order -/

/-- C22 (Init). -/
theorem C22_init_heap {lt : T → T → Bool} (sw : StrictWeak lt) (l l' : List T)
    (h : init lt l = some l') : IsHeap lt l' := by
  obtain ⟨l'', h1, _, h2⟩ := init_spec (lt := lt) l
  rw [h1] at h; cases h; exact h2 sw

/-- The heap operations a client can apply to an existing heap (`update i x` is the client's own
assignment `h[i] = x` followed by `Fix(h, i)`). -/
inductive Op (T : Type) where
  | push (x : T) | pop | remove (i : Int) | update (i : Nat) (x : T)

/-- Effect of a client operation on the contents; `none` is a panic. -/
def exec (lt : T → T → Bool) (l : List T) : Op T → Option (List T)
  | .push x => push lt l x
  | .pop => (pop lt l).map (·.2)
  | .remove i => (remove lt l i).map (·.2)
  | .update i x => if i < l.length then fix lt (l.set i x) i else none

/-- A run of client operations, stopping at a panic. -/
def execAll (lt : T → T → Bool) : List T → List (Op T) → Option (List T)
  | l, [] => some l
  | l, o :: os => match exec lt l o with
    | none => none
    | some l' => execAll lt l' os

theorem exec_heap {lt : T → T → Bool} (sw : StrictWeak lt) (l l' : List T) (o : Op T)
    (hh : IsHeap lt l) (h : exec lt l o = some l') : IsHeap lt l' := by
  cases o with
  | push x =>
    obtain ⟨l'', h1, _, h2⟩ := push_spec (lt := lt) l x
    rw [exec, h1] at h; cases h; exact h2 sw hh
  | pop =>
    by_cases h0 : l = []
    · subst h0; simp [exec, pop] at h
    · obtain ⟨x, l'', h1, _, _, h2⟩ := pop_spec (lt := lt) l (List.length_pos_iff.2 h0)
      simp [exec, h1] at h; subst h; exact h2 sw hh
  | remove i =>
    by_cases hr : i < 0 ∨ (l.length : Int) ≤ i
    · simp [exec, (C24_remove_perm lt l i).2 hr] at h
    · obtain ⟨x, l'', h1, _, _, h2⟩ := remove_spec (lt := lt) l i.toNat (by omega)
      rw [Int.toNat_of_nonneg (by omega)] at h1
      simp [exec, h1] at h; subst h; exact h2 sw hh
  | update i x =>
    by_cases hi : i < l.length
    · obtain ⟨l'', h1, _, h2⟩ := fix_spec (lt := lt) (l.set i x) i (by simpa using hi)
      simp [exec, hi, h1] at h; subst h
      exact h2 sw l hh (by simp) (fun k hk => by simp [Ne.symm hk])
    · simp [exec, hi] at h

/-- C22: every state reached from `Init` of any contents (or from the empty heap) by any sequence of
`Push`, `Pop`, `Remove` and in-place update + `Fix` is in heap order. -/
theorem C22_reachable_heap {lt : T → T → Bool} (sw : StrictWeak lt) (l0 l1 l2 : List T)
    (ops : List (Op T)) (h0 : init lt l0 = some l1) (h1 : execAll lt l1 ops = some l2) :
    IsHeap lt l2 := by
  have hh := C22_init_heap sw _ _ h0
  clear h0
  induction ops generalizing l1 with
  | nil => simp [execAll] at h1; subst h1; exact hh
  | cons o os ih =>
    unfold execAll at h1
    split at h1
    · simp at h1
    · next l' hl' => exact ih l' h1 (exec_heap sw _ _ _ hh hl')

/-! ## C23: Pop returns a minimum -/

/-- C23. -/
theorem C23_pop_least {lt : T → T → Bool} (sw : StrictWeak lt) (l l' : List T) (x : T)
    (hh : IsHeap lt l) (h : pop lt l = some (x, l')) : IsLeast lt x l := by
  by_cases h0 : l = []
  · subst h0; simp [pop] at h
  · obtain ⟨y, l'', h1, h2, h3, _⟩ := pop_spec (lt := lt) l (List.length_pos_iff.2 h0)
    rw [h1] at h; cases h
    exact ⟨h2.mem_iff.2 (by simp), root_least sw hh h3⟩

/-! ## C25: Fix after an arbitrary change at one index -/

/-- C25: changing one element of a heap to any value and calling `Fix` there restores the heap order
with the changed multiset of elements. -/
theorem C25_fix_restores {lt : T → T → Bool} (sw : StrictWeak lt) (l : List T) (hh : IsHeap lt l)
    (i : Nat) (hi : i < l.length) (x : T) :
    ∃ l', fix lt (l.set i x) i = some l' ∧ IsHeap lt l' ∧ l'.Perm (l.set i x) := by
  obtain ⟨l', h1, h2, h3⟩ := fix_spec (lt := lt) (l.set i x) i (by simpa using hi)
  exact ⟨l', h1, h3 sw l hh (by simp) (fun k hk => by simp [Ne.symm hk]), h2⟩

/-! ## C26: draining yields sorted order -/

/-- C26: `Init` followed by popping until empty lists exactly the given elements, sorted. -/
theorem C26_init_drain_sorted {lt : T → T → Bool} (sw : StrictWeak lt) (l : List T) :
    ∃ l1 xs, init lt l = some l1 ∧ drain lt l1.length l1 = some xs ∧ xs.Perm l ∧ Sorted lt xs := by
  obtain ⟨l1, h1, h2, h3⟩ := init_spec (lt := lt) l
  obtain ⟨xs, g1, g2, g3⟩ := drain_spec (lt := lt) l1.length l1 (Nat.le_refl _)
  exact ⟨l1, xs, h1, g1, g2.trans h2, g3 sw (h3 sw)⟩

/-- Push a list of elements one after another. -/
def pushAll (lt : T → T → Bool) : List T → List T → Option (List T)
  | l, [] => some l
  | l, x :: xs => match push lt l x with
    | none => none
    | some l' => pushAll lt l' xs

/-- C26: pushing any elements onto an empty heap and popping until empty sorts them. -/
theorem C26_push_drain_sorted {lt : T → T → Bool} (sw : StrictWeak lt) (l : List T) :
    ∃ l1 xs, pushAll lt [] l = some l1 ∧ drain lt l1.length l1 = some xs ∧ xs.Perm l ∧
      Sorted lt xs := by
  have key : ∀ (l acc : List T), IsHeap lt acc → ∃ l1, pushAll lt acc l = some l1 ∧
      l1.Perm (l ++ acc) ∧ IsHeap lt l1 := by
    intro l
    induction l with
    | nil => intro acc h; exact ⟨acc, rfl, .refl _, h⟩
    | cons x l ih =>
      intro acc h
      obtain ⟨a, h1, h2, h3⟩ := push_spec (lt := lt) acc x
      obtain ⟨l1, g1, g2, g3⟩ := ih a (h3 sw h)
      refine ⟨l1, by simp [pushAll, h1, g1], g2.trans ?_, g3⟩
      exact (h2.append_left l).trans List.perm_middle
  obtain ⟨l1, h1, h2, h3⟩ := key l [] (fun k _ x p h => by simp at h)
  obtain ⟨xs, g1, g2, g3⟩ := drain_spec (lt := lt) l1.length l1 (Nat.le_refl _)
  exact ⟨l1, xs, h1, g1, g2.trans (by simpa using h2), g3 sw h3⟩

/-- The order of `MinHeap[int]` is a strict weak order, so the theorems apply to it. -/
theorem minLess_strictWeak : StrictWeak (minLess (α := Int)) :=
  ⟨by simp [minLess], by simp only [minLess, decide_eq_true_eq]; omega,
   by simp only [minLess, decide_eq_false_iff_not]; omega⟩

/-- The order of `MaxHeap[int]` is a strict weak order. -/
theorem maxLess_strictWeak : StrictWeak (maxLess (α := Int)) :=
  ⟨by simp [maxLess], by simp only [maxLess, decide_eq_true_eq]; omega,
   by simp only [maxLess, decide_eq_false_iff_not]; omega⟩

/-- C26 for `MinHeap`: the drained sequence is nondecreasing. -/
theorem C26_minheap (l : List Int) :
    ∃ l1 xs, init minLess l = some l1 ∧ drain minLess l1.length l1 = some xs ∧ xs.Perm l ∧
      xs.Pairwise (· ≤ ·) := by
  obtain ⟨l1, xs, a, b, c, d⟩ := C26_init_drain_sorted minLess_strictWeak l
  exact ⟨l1, xs, a, b, c, d.imp (by simp only [minLess, decide_eq_false_iff_not]; omega)⟩

/-- C26 for `MaxHeap`: the drained sequence is nonincreasing. -/
theorem C26_maxheap (l : List Int) :
    ∃ l1 xs, init maxLess l = some l1 ∧ drain maxLess l1.length l1 = some xs ∧ xs.Perm l ∧
      xs.Pairwise (· ≥ ·) := by
  obtain ⟨l1, xs, a, b, c, d⟩ := C26_init_drain_sorted maxLess_strictWeak l
  exact ⟨l1, xs, a, b, c, d.imp (by simp only [maxLess, decide_eq_false_iff_not]; omega)⟩

/-! ## Non-vacuity: concrete heaps meet the hypotheses -/

example : init minLess [5, 3, 8, 1, (2 : Int)] = some [1, 2, 8, 3, 5] := by
  simp [init, initLoop, down, downLoop, less, swap, minLess]
example : execAll minLess [1, 2, 8, 3, (5 : Int)] [.push 0, .pop, .update 0 9, .remove 1]
    = some [2, 5, 8, 9] := by
  simp [execAll, exec, push, pop, remove, fix, rawPush, rawPop, up, down, downLoop, less, swap,
    minLess]
example : IsHeap minLess [1, 2, 8, 3, (5 : Int)] :=
  C22_init_heap minLess_strictWeak [5, 3, 8, 1, 2] _ (by
    simp [init, initLoop, down, downLoop, less, swap, minLess])

end Verif.Heap
