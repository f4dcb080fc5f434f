import Verif.Heap.Cost

/-!
# Package `heap` when `Less` panics, answers inconsistently, or has effects

The functions of heap.go take any `heap.Interface`, and the one method of it a program is expected to
write for itself is `Less` (heap/example_pq_test.go:24-27 for instance, which reads through pointers and
panics on a nil one).  The model below is that of Model.lean with the comparison replaced by an arbitrary
function of the elements compared and of a state `A` of its own, which either answers or panics.  What
a panic leaves behind — the caller may recover — is part of the result.

Out-of-range indices are as in Model.lean (`remove`, `fix` with the indices heap.go accepts; `pop` of a
heap that is not empty); `Swap`, `Push` and `Pop` of the interface are the slice ones and do not panic.
-/
namespace Verif.Heap

variable {T A : Type}

namespace Panic

/-- What `Less(i, j)` may do: from its own state and the two elements, a new state and an answer, or a
panic (`none`). -/
abbrev Cmp (A T : Type) := A → T → T → A × Option Bool

/-- `h.Less(i, j)` on a slice, cf. `Heap.less`. -/
def less (c : Cmp A T) (l : List T) (a : A) (i j : Nat) : A × Option Bool :=
  match l[i]?, l[j]? with
  | some x, some y => c a x y
  | _, _ => (a, none)

/-- `up(h, j)`: heap.go:49-58. The contents and the state of `Less` left, and whether it returned. -/
def up (c : Cmp A T) (l : List T) (a : A) (j : Nat) : List T × A × Bool :=
  let i := (j - 1) / 2
  if _h : i = j then (l, a, true)
  else
    match less c l a j i with
    | (a, none) => (l, a, false)
    | (a, some false) => (l, a, true)
    | (a, some true) =>
      match swap l i j with
      | none => (l, a, false)
      | some l' => up c l' a i
termination_by j
decreasing_by omega

/-- The loop of `down(h, i0, n)`: heap.go:62-76; the last component is the final `i`, `none` after a panic. -/
def downLoop (c : Cmp A T) (l : List T) (a : A) (i n : Nat) : List T × A × Option Nat :=
  let j1 := 2 * i + 1
  if _h : j1 ≥ n then (l, a, some i)
  else
    match (if j1 + 1 < n then less c l a (j1 + 1) j1 else (a, some false)) with
    | (a, none) => (l, a, none)
    | (a, some b) =>
      let j := if b then j1 + 1 else j1
      match less c l a j i with
      | (a, none) => (l, a, none)
      | (a, some false) => (l, a, some i)
      | (a, some true) =>
        match swap l i j with
        | none => (l, a, none)
        | some l' => downLoop c l' a j n
termination_by n - i
decreasing_by
  have _h1 : ¬ (2 * i + 1 ≥ n) := _h
  have h2 : i < (if b = true then 2 * i + 1 + 1 else 2 * i + 1) := by split <;> omega
  show n - (if b = true then 2 * i + 1 + 1 else 2 * i + 1) < n - i
  omega

/-- `down(h, i0, n)`: heap.go:60-78; the answer is `i > i0`. -/
def down (c : Cmp A T) (l : List T) (a : A) (i0 n : Nat) : List T × A × Option Bool :=
  match downLoop c l a i0 n with
  | (l, a, none) => (l, a, none)
  | (l, a, some i) => (l, a, some (decide (i > i0)))

/-- `for i := ...; i >= 0; i-- { down(h, i, n) }`, called with `k = i+1`: heap.go:15-17. -/
def initLoop (c : Cmp A T) (l : List T) (a : A) (n : Nat) : Nat → List T × A × Bool
  | 0 => (l, a, true)
  | k + 1 =>
    match down c l a k n with
    | (l, a, none) => (l, a, false)
    | (l, a, some _) => initLoop c l a n k

/-- `Init(h)`: heap.go:13-18. -/
def init (c : Cmp A T) (l : List T) (a : A) : List T × A × Bool := initLoop c l a l.length (l.length / 2)

/-- `Push(h, x)`: heap.go:20-23. -/
def push (c : Cmp A T) (l : List T) (a : A) (x : T) : List T × A × Bool :=
  up c (rawPush l x) a ((rawPush l x).length - 1)

/-- `return h.Pop()`: heap.go:29, 40. -/
def ret (l : List T) (a : A) : List T × A × Option T :=
  match rawPop l with
  | none => (l, a, none)
  | some (x, l) => (l, a, some x)

/-- `Pop(h)`: heap.go:25-30. On an empty heap `h.Swap(0, -1)` panics. -/
def pop (c : Cmp A T) (l : List T) (a : A) : List T × A × Option T :=
  if l.length = 0 then (l, a, none)
  else
    match swap l 0 (l.length - 1) with
    | none => (l, a, none)
    | some l1 =>
      match down c l1 a 0 (l.length - 1) with
      | (l2, a, none) => (l2, a, none)
      | (l2, a, some _) => ret l2 a

/-- `if !down(h, i, n) { up(h, i) }`: heap.go:36-38, 44-46. -/
def downUp (c : Cmp A T) (l : List T) (a : A) (i n : Nat) : List T × A × Bool :=
  match down c l a i n with
  | (l, a, none) => (l, a, false)
  | (l, a, some true) => (l, a, true)
  | (l, a, some false) => up c l a i

/-- `Remove(h, i)`: heap.go:32-41. Negative indices panic before anything is done, see `Heap.remove`. -/
def remove (c : Cmp A T) (l : List T) (a : A) (i : Int) : List T × A × Option T :=
  if i < 0 ∨ l.length = 0 then (l, a, none)
  else
    if l.length - 1 ≠ i.toNat then
      match swap l i.toNat (l.length - 1) with
      | none => (l, a, none)
      | some l1 =>
        match downUp c l1 a i.toNat (l.length - 1) with
        | (l2, a, false) => (l2, a, none)
        | (l2, a, true) => ret l2 a
    else ret l a

/-- `Fix(h, i)`: heap.go:43-47, see `Heap.fix` for negative indices. -/
def fix (c : Cmp A T) (l : List T) (a : A) (i : Int) : List T × A × Bool :=
  if i < 0 then (l, a, decide (i = -1)) else downUp c l a i.toNat l.length

/-! ## Nothing is lost -/

/-- The loops permute the positions below `n` of a list at least that long. -/
def Keeps (n : Nat) (l l' : List T) : Prop := l'.Perm l ∧ ∀ k, n ≤ k → l'[k]? = l[k]?

theorem Keeps.refl (n : Nat) (l : List T) : Keeps n l l := ⟨.refl _, fun _ _ => rfl⟩
theorem Keeps.trans {n : Nat} {l l1 l2 : List T} (h : Keeps n l l1) (h' : Keeps n l1 l2) : Keeps n l l2 :=
  ⟨h'.1.trans h.1, fun k hk => (h'.2 k hk).trans (h.2 k hk)⟩

theorem up_keeps (c : Cmp A T) (n : Nat) (j : Nat) : ∀ (l : List T) (a : A), j < n → n ≤ l.length →
    Keeps n l (up c l a j).1 := by
  induction j using Nat.strongRecOn with
  | _ j ih =>
    intro l a hj hn
    unfold up
    simp only
    split
    · exact .refl _ _
    next hij =>
      split
      · exact .refl _ _
      · exact .refl _ _
      · obtain ⟨l1, hs, hlen, hperm, hget⟩ := swap_spec (l := l) (i := (j - 1) / 2) (j := j) (by omega) (by omega)
        rw [hs]
        refine Keeps.trans ⟨hperm, fun k hk => ?_⟩ (ih _ (by omega) l1 _ (by omega) (by omega))
        rw [hget, if_neg (by omega), if_neg (by omega)]

theorem downLoop_keeps (c : Cmp A T) (n : Nat) (m : Nat) : ∀ (i : Nat) (l : List T) (a : A), n - i = m → n ≤ l.length →
    Keeps n l (downLoop c l a i n).1 ∧ ∀ i', (downLoop c l a i n).2.2 = some i' → i ≤ i' ∧ (i' = i → (downLoop c l a i n).1 = l) := by
  induction m using Nat.strongRecOn with
  | _ m ih =>
    intro i l a hm hn
    unfold downLoop
    simp only
    split
    · exact ⟨.refl _ _, fun i' h => by cases h; exact ⟨Nat.le_refl _, fun _ => rfl⟩⟩
    next hj1 =>
      split
      · exact ⟨.refl _ _, fun i' h => by cases h⟩
      next a1 b hb =>
        have hb' : b = true → 2 * i + 1 + 1 < n := by
          intro h
          subst h
          by_cases h2 : 2 * i + 1 + 1 < n
          · exact h2
          · rw [if_neg h2] at hb; cases hb
        have hj : ∃ j, (if b = true then 2 * i + 1 + 1 else 2 * i + 1) = j := ⟨_, rfl⟩
        obtain ⟨j, hjd⟩ := hj
        rw [hjd]
        have hjn : j < n := by
          rw [← hjd]; split
          · next h => exact hb' h
          · omega
        have hij : i < j := by rw [← hjd]; split <;> omega
        split
        · exact ⟨.refl _ _, fun i' h => by cases h⟩
        · exact ⟨.refl _ _, fun i' h => by cases h; exact ⟨Nat.le_refl _, fun _ => rfl⟩⟩
        · obtain ⟨l1, hs, hlen, hperm, hget⟩ := swap_spec (l := l) (i := i) (j := j) (by omega) (by omega)
          simp only [hs]
          obtain ⟨h1, h2⟩ := ih (n - j) (by omega) j l1 _ rfl (by omega)
          refine ⟨Keeps.trans ⟨hperm, fun k hk => ?_⟩ h1, fun i' h => ?_⟩
          · rw [hget, if_neg (by omega), if_neg (by omega)]
          · have := (h2 i' h).1
            exact ⟨by omega, fun h => by omega⟩

theorem down_keeps (c : Cmp A T) (l : List T) (a : A) (i n : Nat) (hn : n ≤ l.length) :
    Keeps n l (down c l a i n).1 ∧ ((down c l a i n).2.2 = some false → (down c l a i n).1 = l) := by
  obtain ⟨h1, h2⟩ := downLoop_keeps c n _ i l a rfl hn
  unfold down
  rcases h : downLoop c l a i n with ⟨l', a', _ | i'⟩
  · rw [h] at h1; exact ⟨h1, fun h => by cases h⟩
  · rw [h] at h1 h2
    refine ⟨h1, fun hb => (h2 i' rfl).2 ?_⟩
    have := (h2 i' rfl).1
    simp at hb
    omega

theorem downUp_keeps (c : Cmp A T) (l : List T) (a : A) (i n : Nat) (hi : i < n) (hn : n ≤ l.length) :
    Keeps n l (downUp c l a i n).1 := by
  have h1 := down_keeps c l a i n hn
  unfold downUp
  rcases h : down c l a i n with ⟨l', a', _ | _ | _⟩
  · rw [h] at h1; exact h1.1
  · rw [h] at h1
    have : l' = l := h1.2 rfl
    subst this
    exact up_keeps c n i l' a' hi hn
  · rw [h] at h1; exact h1.1

theorem initLoop_perm (c : Cmp A T) (n k : Nat) : ∀ (l : List T) (a : A), l.length = n →
    (initLoop c l a n k).1.Perm l := by
  induction k with
  | zero => intro l a _; exact .refl _
  | succ k ih =>
    intro l a hl
    have h1 := (down_keeps c l a k n (by omega)).1.1
    unfold initLoop
    rcases h : down c l a k n with ⟨l', a', _ | b⟩
    · rw [h] at h1; exact h1
    · rw [h] at h1
      exact (ih l' a' (by rw [h1.length_eq, hl])).trans h1

theorem ret_spec (l : List T) (a : A) (n : Nat) (h : l.length = n + 1) :
    ∃ x, l[n]? = some x ∧ ret l a = (l.take n, a, some x) ∧ l = l.take n ++ [x] := by
  obtain ⟨x, h1, h2, h3⟩ := rawPop_spec h
  exact ⟨x, h1, by simp [ret, h2], h3⟩

theorem append_perm (l : List T) (x : T) : (l ++ [x]).Perm (x :: l) := by simp

/-- C144: nothing is lost or duplicated, whatever `Less` answers, whether or not it panics: `Init` and `Fix` leave a
rearrangement of the contents. -/
theorem C144_init (c : Cmp A T) (l : List T) (a : A) : (init c l a).1.Perm l :=
  initLoop_perm c _ _ l a rfl

theorem C144_fix (c : Cmp A T) (l : List T) (a : A) (i : Nat) (hi : i < l.length) : (fix c l a i).1.Perm l := by
  unfold fix
  rw [if_neg (by omega)]
  exact (downUp_keeps c l a _ _ (by simpa using hi) (Nat.le_refl _)).1

/-- C144: `Push` has added its element, also if it panicked. -/
theorem C144_push (c : Cmp A T) (l : List T) (a : A) (x : T) : (push c l a x).1.Perm (x :: l) := by
  have h := up_keeps c (l.length + 1) l.length (rawPush l x) a (by omega) (by simp [rawPush])
  unfold push
  rw [show (rawPush l x).length - 1 = l.length by simp [rawPush]]
  exact h.1.trans (append_perm l x)

/-- C144: a `Pop` that panics has removed nothing; one that returns has removed the element it returns, the one that
was at the root. -/
theorem C144_pop (c : Cmp A T) (l l' : List T) (a a' : A) (hl : l ≠ []) :
    (pop c l a = (l', a', none) → l'.Perm l ∧ l'.getLast? = l[0]?) ∧
    (∀ x, pop c l a = (l', a', some x) → l.Perm (x :: l') ∧ l[0]? = some x) := by
  have hpos : 0 < l.length := List.length_pos_iff.2 hl
  obtain ⟨l1, hs, hlen, hperm, hget⟩ := swap_spec (l := l) (i := 0) (j := l.length - 1) (by omega) (by omega)
  have hk := (down_keeps c l1 a 0 (l.length - 1) (by omega)).1
  unfold pop
  rw [if_neg (by omega), hs]
  simp only
  rcases h : down c l1 a 0 (l.length - 1) with ⟨l2, a2, _ | b⟩
  · rw [h] at hk
    refine ⟨fun e => ?_, fun x e => by cases e⟩
    cases e
    refine ⟨hk.1.trans hperm, ?_⟩
    rw [List.getLast?_eq_getElem?, (hk.1.trans hperm).length_eq, hk.2 _ (Nat.le_refl _), hget, if_pos rfl]
  · rw [h] at hk
    have h2 : l2.length = l.length - 1 + 1 := by have := (hk.1.trans hperm).length_eq; simp only at this; omega
    obtain ⟨x, hx, hr, he⟩ := ret_spec l2 a2 _ h2
    simp only [hr]
    refine ⟨fun e => (by cases e), fun y e => ?_⟩
    cases e
    refine ⟨(hk.1.trans hperm).symm.trans ?_, ?_⟩
    · conv => lhs; rw [he]
      exact append_perm _ _
    · have := hk.2 _ (Nat.le_refl _)
      simp only at this
      rw [hx, hget, if_pos rfl] at this
      exact this.symm

/-- C144: the same of `Remove`, with the element at its index. -/
theorem C144_remove (c : Cmp A T) (l l' : List T) (a a' : A) (i : Nat) (hi : i < l.length) :
    (remove c l a i = (l', a', none) → l'.Perm l ∧ l'.getLast? = l[i]?) ∧
    (∀ x, remove c l a i = (l', a', some x) → l.Perm (x :: l') ∧ l[i]? = some x) := by
  unfold remove
  rw [if_neg (by omega)]
  simp only [Int.toNat_natCast]
  by_cases hin : l.length - 1 = i
  · rw [if_neg (by omega)]
    obtain ⟨x, hx, hr, he⟩ := ret_spec l a i (by omega)
    rw [hr]
    refine ⟨fun e => (by cases e), fun y e => ?_⟩
    cases e
    refine ⟨?_, hx⟩
    conv => lhs; rw [he]
    exact append_perm _ _
  · rw [if_pos hin]
    obtain ⟨l1, hs, hlen, hperm, hget⟩ := swap_spec (l := l) (i := i) (j := l.length - 1) (by omega) (by omega)
    have hk := downUp_keeps c l1 a i (l.length - 1) (by omega) (by omega)
    simp only [hs]
    rcases h : downUp c l1 a i (l.length - 1) with ⟨l2, a2, _ | _⟩
    · rw [h] at hk
      refine ⟨fun e => ?_, fun x e => (by cases e)⟩
      cases e
      refine ⟨hk.1.trans hperm, ?_⟩
      rw [List.getLast?_eq_getElem?, (hk.1.trans hperm).length_eq, hk.2 _ (Nat.le_refl _), hget, if_pos rfl]
    · rw [h] at hk
      have h2 : l2.length = l.length - 1 + 1 := by have := (hk.1.trans hperm).length_eq; simp only at this; omega
      obtain ⟨x, hx, hr, he⟩ := ret_spec l2 a2 _ h2
      simp only [hr]
      refine ⟨fun e => (by cases e), fun y e => ?_⟩
      cases e
      refine ⟨(hk.1.trans hperm).symm.trans ?_, ?_⟩
      · conv => lhs; rw [he]
        exact append_perm _ _
      · have := hk.2 _ (Nat.le_refl _)
        simp only at this
        rw [hx, hget, if_pos rfl] at this
        exact this.symm

/-! ## A comparison that never panics -/

/-- `Less` never panics. -/
def Total (c : Cmp A T) : Prop := ∀ a x y, (c a x y).2 ≠ none

theorem less_total {c : Cmp A T} (ht : Total c) (l : List T) (a : A) {i j : Nat} (hi : i < l.length) (hj : j < l.length) :
    (less c l a i j).2 ≠ none := by
  unfold less
  rw [List.getElem?_eq_getElem hi, List.getElem?_eq_getElem hj]
  exact ht _ _ _

theorem up_total {c : Cmp A T} (ht : Total c) (j : Nat) : ∀ (l : List T) (a : A), j < l.length → (up c l a j).2.2 = true := by
  induction j using Nat.strongRecOn with
  | _ j ih =>
    intro l a hj
    unfold up
    simp only
    split
    · rfl
    next hij =>
      have h1 := less_total ht l a (i := j) (j := (j - 1) / 2) hj (by omega)
      rcases h : less c l a j ((j - 1) / 2) with ⟨a', _ | _ | _⟩
      · rw [h] at h1; exact (h1 rfl).elim
      · rfl
      · obtain ⟨l1, hs, hlen, _, _⟩ := swap_spec (l := l) (i := (j - 1) / 2) (j := j) (by omega) (by omega)
        simp only [hs]
        exact ih _ (by omega) l1 a' (by omega)

theorem downLoop_total {c : Cmp A T} (ht : Total c) (n m : Nat) : ∀ (i : Nat) (l : List T) (a : A), n - i = m → n ≤ l.length →
    (downLoop c l a i n).2.2 ≠ none := by
  induction m using Nat.strongRecOn with
  | _ m ih =>
    intro i l a hm hn
    unfold downLoop
    simp only
    split
    · simp
    next hj1 =>
      have h1 : (if 2 * i + 1 + 1 < n then less c l a (2 * i + 1 + 1) (2 * i + 1) else (a, some false)).2 ≠ none := by
        split
        · exact less_total ht _ _ (by omega) (by omega)
        · simp
      rcases hb : (if 2 * i + 1 + 1 < n then less c l a (2 * i + 1 + 1) (2 * i + 1) else (a, some false)) with ⟨a1, _ | b⟩
      · rw [hb] at h1; exact (h1 rfl).elim
      · have hb' : b = true → 2 * i + 1 + 1 < n := by
          intro h
          subst h
          by_cases h2 : 2 * i + 1 + 1 < n
          · exact h2
          · rw [if_neg h2] at hb; cases hb
        obtain ⟨j, hjd⟩ : ∃ j, (if b = true then 2 * i + 1 + 1 else 2 * i + 1) = j := ⟨_, rfl⟩
        simp only [hjd]
        have hjn : j < n := by
          rw [← hjd]; split
          · next h => exact hb' h
          · omega
        have hij : i < j := by rw [← hjd]; split <;> omega
        have h3 := less_total ht l a1 (i := j) (j := i) (by omega) (by omega)
        rcases h : less c l a1 j i with ⟨a', _ | _ | _⟩
        · rw [h] at h3; exact (h3 rfl).elim
        · simp
        · obtain ⟨l1, hs, hlen, _, _⟩ := swap_spec (l := l) (i := i) (j := j) (by omega) (by omega)
          simp only [hs]
          exact ih _ (by omega) j l1 a' rfl (by omega)

theorem down_total {c : Cmp A T} (ht : Total c) (l : List T) (a : A) (i n : Nat) (hn : n ≤ l.length) : (down c l a i n).2.2 ≠ none := by
  have h := downLoop_total ht n _ i l a rfl hn
  unfold down
  rcases hd : downLoop c l a i n with ⟨l', a', _ | _⟩
  · rw [hd] at h; exact (h rfl).elim
  · simp

theorem downUp_total {c : Cmp A T} (ht : Total c) (l : List T) (a : A) (i n : Nat) (hi : i < n) (hn : n ≤ l.length) :
    (downUp c l a i n).2.2 = true := by
  have h := down_total ht l a i n hn
  have hk := (down_keeps c l a i n hn).1.1.length_eq
  unfold downUp
  rcases hd : down c l a i n with ⟨l', a', _ | _ | _⟩
  · rw [hd] at h; exact (h rfl).elim
  · rw [hd] at hk
    exact up_total ht i l' a' (by simp only at hk; omega)
  · rfl

theorem initLoop_total {c : Cmp A T} (ht : Total c) (n k : Nat) : ∀ (l : List T) (a : A), l.length = n →
    (initLoop c l a n k).2.2 = true := by
  induction k with
  | zero => intro l a _; rfl
  | succ k ih =>
    intro l a hl
    have h := down_total ht l a k n (by omega)
    have hk := (down_keeps c l a k n (by omega)).1.1.length_eq
    unfold initLoop
    rcases hd : down c l a k n with ⟨l', a', _ | _⟩
    · rw [hd] at h; exact (h rfl).elim
    · rw [hd] at hk
      exact ih l' a' (by simp only at hk; omega)

/-- C144: if `Less` does not panic nothing does, however inconsistent its answers (given an element to remove). -/
theorem C144_total {c : Cmp A T} (ht : Total c) (l : List T) (a : A) :
    (init c l a).2.2 = true ∧ (∀ x, (push c l a x).2.2 = true) ∧ (l ≠ [] → (pop c l a).2.2 ≠ none) ∧
    (∀ i : Nat, i < l.length → (remove c l a i).2.2 ≠ none) ∧ (∀ i : Nat, i < l.length → (fix c l a i).2.2 = true) := by
  have hret : ∀ (l : List T) (a : A), 0 < l.length → (ret l a).2.2 ≠ none := by
    intro l a h
    obtain ⟨x, _, h2, _⟩ := ret_spec l a (l.length - 1) (by omega)
    rw [h2]
    simp
  refine ⟨initLoop_total ht _ _ l a rfl, fun x => up_total ht _ _ _ (by simp [rawPush]), fun hl => ?_, fun i hi => ?_, fun i hi => ?_⟩
  · have hpos : 0 < l.length := List.length_pos_iff.2 hl
    obtain ⟨l1, hs, hlen, _, _⟩ := swap_spec (l := l) (i := 0) (j := l.length - 1) (by omega) (by omega)
    have h := down_total ht l1 a 0 (l.length - 1) (by omega)
    have hk := (down_keeps c l1 a 0 (l.length - 1) (by omega)).1.1.length_eq
    unfold pop
    rw [if_neg (by omega), hs]
    simp only
    rcases hd : down c l1 a 0 (l.length - 1) with ⟨l', a', _ | _⟩
    · rw [hd] at h; exact (h rfl).elim
    · rw [hd] at hk
      exact hret l' a' (by simp only at hk; omega)
  · unfold remove
    rw [if_neg (by omega)]
    simp only [Int.toNat_natCast]
    split
    · obtain ⟨l1, hs, hlen, _, _⟩ := swap_spec (l := l) (i := i) (j := l.length - 1) (by omega) (by omega)
      have h := downUp_total ht l1 a i (l.length - 1) (by omega) (by omega)
      have hk := (downUp_keeps c l1 a i (l.length - 1) (by omega) (by omega)).1.length_eq
      simp only [hs]
      rcases hd : downUp c l1 a i (l.length - 1) with ⟨l', a', _ | _⟩
      · rw [hd] at h; cases h
      · rw [hd] at hk
        exact hret l' a' (by simp only at hk; omega)
    · exact hret l a (by omega)
  · unfold fix
    rw [if_neg (by omega)]
    exact downUp_total ht l a _ _ (by simpa using hi) (Nat.le_refl _)

/-! ## A comparison that answers truthfully when it answers -/

/-- `Less` answers as `lt` whenever it answers. -/
def Truthful (c : Cmp A T) (lt : T → T → Bool) : Prop := ∀ a x y b, (c a x y).2 = some b → b = lt x y

theorem less_truth {c : Cmp A T} {lt : T → T → Bool} (ht : Truthful c lt) {l : List T} {a a' : A} {i j : Nat} {b : Bool}
    (h : less c l a i j = (a', some b)) : Heap.less lt l i j = some b := by
  unfold less at h
  unfold Heap.less
  split at h
  · next x y hx hy => rw [hx, hy, ht a x y b (by rw [h])]
  · cases h

theorem up_truth {c : Cmp A T} {lt : T → T → Bool} (ht : Truthful c lt) (j : Nat) : ∀ (l : List T) (a : A),
    (up c l a j).2.2 = true → Heap.up lt l j = some (up c l a j).1 := by
  induction j using Nat.strongRecOn with
  | _ j ih =>
    intro l a
    unfold up Heap.up
    simp only
    split
    · exact fun _ => rfl
    next hij =>
      rcases h : less c l a j ((j - 1) / 2) with ⟨a', _ | _ | _⟩
      · intro h; cases h
      · rw [less_truth ht h]; exact fun _ => rfl
      · rw [less_truth ht h]
        simp only
        rcases hs : swap l ((j - 1) / 2) j with _ | l'
        · intro h; cases h
        · exact ih _ (by omega) l' a'

theorem downLoop_truth {c : Cmp A T} {lt : T → T → Bool} (ht : Truthful c lt) (n m : Nat) : ∀ (i : Nat) (l : List T) (a : A) (i' : Nat),
    n - i = m → (downLoop c l a i n).2.2 = some i' → Heap.downLoop lt l i n = some ((downLoop c l a i n).1, i') := by
  induction m using Nat.strongRecOn with
  | _ m ih =>
    intro i l a i' hm
    unfold downLoop Heap.downLoop
    simp only
    split
    · intro h; cases h; rfl
    next hj1 =>
      rcases hb : (if 2 * i + 1 + 1 < n then less c l a (2 * i + 1 + 1) (2 * i + 1) else (a, some false)) with ⟨a1, _ | b⟩
      · intro h; cases h
      · have hb' : (if 2 * i + 1 + 1 < n then Heap.less lt l (2 * i + 1 + 1) (2 * i + 1) else some false) = some b := by
          by_cases h2 : 2 * i + 1 + 1 < n
          · rw [if_pos h2] at hb ⊢; exact less_truth ht hb
          · rw [if_neg h2] at hb ⊢; cases hb; rfl
        rw [hb']
        simp only
        have hij : i < (if b = true then 2 * i + 1 + 1 else 2 * i + 1) := by split <;> omega
        rcases h : less c l a1 (if b = true then 2 * i + 1 + 1 else 2 * i + 1) i with ⟨a', _ | _ | _⟩
        · intro h; cases h
        · rw [less_truth ht h]; intro h; cases h; rfl
        · rw [less_truth ht h]
          simp only
          rcases hs : swap l i (if b = true then 2 * i + 1 + 1 else 2 * i + 1) with _ | l'
          · intro h; cases h
          · exact ih _ (by omega) _ l' a' i' rfl

theorem down_truth {c : Cmp A T} {lt : T → T → Bool} (ht : Truthful c lt) {l l' : List T} {a a' : A} {i n : Nat} {b : Bool}
    (h : down c l a i n = (l', a', some b)) : Heap.down lt l i n = some (l', b) := by
  have := downLoop_truth ht n (n - i) i l a
  unfold down at h
  unfold Heap.down
  rcases hd : downLoop c l a i n with ⟨l2, a2, _ | i'⟩
  · rw [hd] at h; cases h
  · rw [hd] at h this
    rw [this i' rfl rfl]
    cases h
    rfl

theorem initLoop_truth {c : Cmp A T} {lt : T → T → Bool} (ht : Truthful c lt) (n k : Nat) : ∀ (l : List T) (a : A),
    (initLoop c l a n k).2.2 = true → Heap.initLoop lt l n k = some (initLoop c l a n k).1 := by
  induction k with
  | zero => intro l a _; rfl
  | succ k ih =>
    intro l a
    unfold initLoop Heap.initLoop
    rcases h : down c l a k n with ⟨l', a', _ | b⟩
    · intro h; cases h
    · rw [down_truth ht h]; exact ih l' a'

/-- C144: a call that returns has done what it does with a `Less` that cannot panic: `Init`, -/
theorem C144_init_returns {c : Cmp A T} {lt : T → T → Bool} (ht : Truthful c lt) (l : List T) (a : A)
    (h : (init c l a).2.2 = true) : Heap.init lt l = some (init c l a).1 := initLoop_truth ht _ _ l a h

/-- `Push`, -/
theorem C144_push_returns {c : Cmp A T} {lt : T → T → Bool} (ht : Truthful c lt) (l : List T) (a : A) (x : T)
    (h : (push c l a x).2.2 = true) : Heap.push lt l x = some (push c l a x).1 := up_truth ht _ _ a h

theorem ret_some {l l' : List T} {a a' : A} {x : T} (h : ret l a = (l', a', some x)) : rawPop l = some (x, l') := by
  unfold ret at h
  rcases hr : rawPop l with _ | ⟨y, l2⟩
  · rw [hr] at h; cases h
  · rw [hr] at h; cases h; rfl

/-- `Pop`, -/
theorem C144_pop_returns {c : Cmp A T} {lt : T → T → Bool} (ht : Truthful c lt) {l l' : List T} {a a' : A} {x : T}
    (h : pop c l a = (l', a', some x)) : Heap.pop lt l = some (x, l') := by
  unfold pop at h
  unfold Heap.pop
  split at h
  · cases h
  next h0 =>
    rw [if_neg h0]
    simp only
    rcases hs : swap l 0 (l.length - 1) with _ | l1
    · rw [hs] at h; cases h
    · rw [hs] at h
      simp only at h ⊢
      rcases hd : down c l1 a 0 (l.length - 1) with ⟨l2, a2, _ | b⟩
      · rw [hd] at h; cases h
      · rw [hd] at h
        rw [down_truth ht hd]
        exact ret_some h

theorem downUp_truth {c : Cmp A T} {lt : T → T → Bool} (ht : Truthful c lt) {l l' : List T} {a a' : A} {i n : Nat}
    (h : downUp c l a i n = (l', a', true)) : Heap.down lt l i n = some (l', true) ∨
      ∃ l1, Heap.down lt l i n = some (l1, false) ∧ Heap.up lt l1 i = some l' := by
  unfold downUp at h
  rcases hd : down c l a i n with ⟨l2, a2, _ | _ | _⟩
  · rw [hd] at h; cases h
  · rw [hd] at h
    simp only at h
    have := up_truth ht i l2 a2
    rw [h] at this
    exact .inr ⟨l2, down_truth ht hd, this rfl⟩
  · rw [hd] at h
    cases h
    exact .inl (down_truth ht hd)

/-- `Remove` -/
theorem C144_remove_returns {c : Cmp A T} {lt : T → T → Bool} (ht : Truthful c lt) {l l' : List T} {a a' : A} {i : Int} {x : T}
    (h : remove c l a i = (l', a', some x)) : Heap.remove lt l i = some (x, l') := by
  unfold remove at h
  unfold Heap.remove
  split at h
  · cases h
  next h0 =>
    rw [if_neg h0]
    simp only
    split at h
    next h1 =>
      rw [if_pos h1]
      rcases hs : swap l i.toNat (l.length - 1) with _ | l1
      · rw [hs] at h; cases h
      · rw [hs] at h
        simp only at h ⊢
        rcases hd : downUp c l1 a i.toNat (l.length - 1) with ⟨l2, a2, _ | _⟩
        · rw [hd] at h; cases h
        · rw [hd] at h
          rcases downUp_truth ht hd with e | ⟨l3, e, e'⟩
          · rw [e]; exact ret_some h
          · rw [e]; simp only [e']; exact ret_some h
    next h1 =>
      rw [if_neg h1]
      exact ret_some h

/-- and `Fix`. -/
theorem C144_fix_returns {c : Cmp A T} {lt : T → T → Bool} (ht : Truthful c lt) {l l' : List T} {a a' : A} {i : Int}
    (h : fix c l a i = (l', a', true)) : Heap.fix lt l i = some l' := by
  unfold fix at h
  unfold Heap.fix
  split at h
  next h0 =>
    rw [if_pos h0]
    injection h with h1 h2
    injection h2 with h2 h3
    rw [if_pos (by simpa using h3), h1]
  next h0 =>
    rw [if_neg h0]
    rcases downUp_truth ht h with e | ⟨l3, e, e'⟩
    · rw [e]
    · rw [e]; exact e'

/-! ## What a panic leaves of the order -/

/-- The first `n` elements would be a heap with some other element at `i`. -/
def But (lt : T → T → Bool) (l : List T) (n i : Nat) : Prop := ∃ v, Ord lt (l.set i v) n 0 (fun _ => False)

/-- Everything not involving position `i` is in order, and so are its children with its parent. -/
def Loose (lt : T → T → Bool) (l : List T) (n i : Nat) : Prop :=
  Ord lt l n 0 (fun k => (k - 1) / 2 = i ∨ k = i) ∧
  ∀ k, 0 < k → k < n → (k - 1) / 2 = i → 0 < i → ∀ x p : T, l[k]? = some x → l[(i - 1) / 2]? = some p → lt x p = false

theorem Loose.fill {lt : T → T → Bool} (sw : StrictWeak lt) {l : List T} {n i : Nat} (hi : i < n) (hn : n ≤ l.length)
    (h : Loose lt l n i) : But lt l n i := by
  -- an element not above any child and not below the parent will do
  have key : ∀ v, (∀ k, 0 < k → k < n → (k - 1) / 2 = i → ∀ x, l[k]? = some x → lt x v = false) →
      (0 < i → ∀ p, l[(i - 1) / 2]? = some p → lt v p = false) → But lt l n i := by
    intro v h1 h2
    refine ⟨v, fun k hk hkn _ _ x p hx hp => ?_⟩
    rw [List.getElem?_set] at hx hp
    by_cases hki : i = k
    · subst hki
      rw [if_neg (by omega)] at hp
      rw [if_pos rfl, if_pos (by omega)] at hx
      cases hx
      exact h2 hk p hp
    · rw [if_neg hki] at hx
      by_cases hkp : i = (k - 1) / 2
      · rw [if_pos hkp, if_pos (by omega)] at hp
        cases hp
        exact h1 k hk hkn hkp.symm x hx
      · rw [if_neg hkp] at hp
        exact h.1 k hk hkn (by omega) (by omega) x p hx hp
  by_cases hi0 : 0 < i
  · refine key (l[(i - 1) / 2]'(by omega)) (fun k hk hkn hki x hx => ?_) (fun _ p hp => ?_)
    · exact h.2 k hk hkn hki hi0 x _ hx (List.getElem?_eq_getElem _)
    · rw [List.getElem?_eq_getElem (by omega)] at hp
      cases hp
      exact sw.irrefl _
  · have hi0 : i = 0 := by omega
    subst hi0
    by_cases h1 : n ≤ 1
    · exact key (l[0]'(by omega)) (fun k hk hkn => by omega) (fun h => by omega)
    · by_cases h2 : n ≤ 2
      · refine key (l[1]'(by omega)) (fun k hk hkn hkp x hx => ?_) (fun h => by omega)
        have : k = 1 := by omega
        subst this
        rw [List.getElem?_eq_getElem (by omega)] at hx
        cases hx
        exact sw.irrefl _
      · rcases hlt : lt (l[2]'(by omega)) (l[1]'(by omega)) with _ | _
        · refine key (l[1]'(by omega)) (fun k hk hkn hkp x hx => ?_) (fun h => by omega)
          have : k = 1 ∨ k = 2 := by omega
          rcases this with rfl | rfl
          all_goals rw [List.getElem?_eq_getElem (by omega)] at hx; cases hx
          · exact sw.irrefl _
          · exact hlt
        · refine key (l[2]'(by omega)) (fun k hk hkn hkp x hx => ?_) (fun h => by omega)
          have : k = 1 ∨ k = 2 := by omega
          rcases this with rfl | rfl
          all_goals rw [List.getElem?_eq_getElem (by omega)] at hx; cases hx
          · exact StrictWeak_asymm sw hlt
          · exact sw.irrefl _

/-- As `Loose`, the children of `i` not being below it. -/
def Tight (lt : T → T → Bool) (l : List T) (n j : Nat) : Prop :=
  Ord lt l n 0 (fun k => k = j) ∧
  ∀ k, 0 < k → k < n → (k - 1) / 2 = j → 0 < j → ∀ x p : T, l[k]? = some x → l[(j - 1) / 2]? = some p → lt x p = false

theorem Tight.loose {lt : T → T → Bool} {l : List T} {n j : Nat} (h : Tight lt l n j) : Loose lt l n j :=
  ⟨fun k hk hkn hlo hE => h.1 k hk hkn hlo (fun e => hE (.inr e)), h.2⟩

/-- What a step of `up` needs of the order; elements above which there is nothing (NaN) may be incomparable with all. -/
structure Mid (lt : T → T → Bool) : Prop where
  asymm : ∀ {a b}, lt a b = true → lt b a = false
  negTrans : ∀ a b c, (∃ z, lt z b = true) → lt a b = false → lt b c = false → lt a c = false

theorem Mid.of {lt : T → T → Bool} (sw : StrictWeak lt) : Mid lt := ⟨StrictWeak_asymm sw, fun a b c _ => sw.negTrans a b c⟩

theorem Tight.step {lt : T → T → Bool} (sw : Mid lt) {l l1 : List T} {n j : Nat} (hj : j < n) (hn : n ≤ l.length)
    (hij : ¬ (j - 1) / 2 = j) (hlt : lt (l[j]'(by omega)) (l[(j - 1) / 2]'(by omega)) = true) (h : Tight lt l n j)
    (hget : ∀ k, l1[k]? = if k = j then l[(j - 1) / 2]? else if k = (j - 1) / 2 then l[j]? else l[k]?) :
    Tight lt l1 n ((j - 1) / 2) := by
  obtain ⟨hord, hgp⟩ := h
  constructor
  · intro k hk hkn hlo hE x p hx hp
    rw [hget] at hx hp
    have hlj : l[j]? = some l[j] := List.getElem?_eq_getElem (by omega)
    have hlp : l[(j - 1) / 2]? = some l[(j - 1) / 2] := List.getElem?_eq_getElem (by omega)
    by_cases hkj : k = j
    · subst hkj
      simp [show (k - 1) / 2 ≠ k by omega] at hx hp
      simp [hlp] at hx
      rw [hlj] at hp
      cases hx; cases hp
      exact sw.asymm hlt
    · simp [hkj, hE] at hx
      by_cases hpj : (k - 1) / 2 = j
      · simp [hpj] at hp
        exact hgp k hk hkn hpj (by omega) x p hx hp
      · by_cases hpp : (k - 1) / 2 = (j - 1) / 2
        · simp [hpp, show (j - 1) / 2 ≠ j by omega] at hp
          rw [hlj] at hp
          cases hp
          have := hord k hk hkn hlo hkj x _ hx (by rw [hpp]; exact hlp)
          exact sw.negTrans _ _ _ ⟨_, hlt⟩ this (sw.asymm hlt)
        · simp [hpj, hpp] at hp
          exact hord k hk hkn hlo hkj x p hx hp
  · intro k hk hkn hpk hpos x p hx hp
    rw [hget] at hx hp
    have hlp : l[(j - 1) / 2]? = some l[(j - 1) / 2] := List.getElem?_eq_getElem (by omega)
    have hg : lt l[(j - 1) / 2] p = false := by
      simp [show ((j - 1) / 2 - 1) / 2 ≠ j by omega,
        show ((j - 1) / 2 - 1) / 2 ≠ (j - 1) / 2 by omega] at hp
      exact hord _ hpos (by omega) (by omega) (by omega) _ p hlp hp
    by_cases hkj : k = j
    · simp [hkj] at hx
      rw [hlp] at hx
      cases hx
      exact hg
    · simp [hkj, show k ≠ (j - 1) / 2 by omega] at hx
      have := hord k hk hkn (by omega) hkj x _ hx (by rw [hpk]; exact hlp)
      exact sw.negTrans _ _ _ ⟨_, hlt⟩ this hg

theorem less_true {c : Cmp A T} {lt : T → T → Bool} (ht : Truthful c lt) {l : List T} {a a' : A} {i j : Nat} {b : Bool}
    (hi : i < l.length) (hj : j < l.length) (h : less c l a i j = (a', some b)) : lt l[i] l[j] = b := by
  have := less_truth ht h
  rw [less_spec hi hj] at this
  cases this
  rfl

theorem up_panics {c : Cmp A T} {lt : T → T → Bool} (ht : Truthful c lt) (sw : StrictWeak lt) (n j : Nat) : ∀ (l : List T) (a : A),
    j < n → n ≤ l.length → Tight lt l n j → (up c l a j).2.2 = false →
    ∃ i, i < n ∧ (up c l a j).1[i]? = l[j]? ∧ But lt (up c l a j).1 n i := by
  induction j using Nat.strongRecOn with
  | _ j ih =>
    intro l a hj hn hord
    unfold up
    simp only
    split
    · intro h; cases h
    next hij =>
      rcases h : less c l a j ((j - 1) / 2) with ⟨a', _ | _ | _⟩
      · exact fun _ => ⟨j, hj, rfl, hord.loose.fill sw hj hn⟩
      · intro h; cases h
      · obtain ⟨l1, hs, hlen, hperm, hget⟩ := swap_spec (l := l) (i := (j - 1) / 2) (j := j) (by omega) (by omega)
        simp only [hs]
        intro hp
        obtain ⟨i, h1, h2, h3⟩ := ih _ (by omega) l1 a' (by omega) (by omega)
          (hord.step (.of sw) hj hn hij (less_true ht (by omega) (by omega) h) hget) hp
        refine ⟨i, h1, h2.trans ?_, h3⟩
        rw [hget, if_neg (by omega), if_pos rfl]

theorem Loose.step {lt : T → T → Bool} {l l1 : List T} {n i j : Nat} (hn : n ≤ l.length) (hjn : j < n)
    (hij : i < j) (hjp : (j - 1) / 2 = i)
    (hmin : ∀ k, 0 < k → k < n → (k - 1) / 2 = i → ∀ x y, l[k]? = some x → l[j]? = some y → lt x y = false)
    (hlt : lt (l[j]'(by omega)) (l[i]'(by omega)) = true) (h : Loose lt l n i)
    (hget : ∀ k, l1[k]? = if k = j then l[i]? else if k = i then l[j]? else l[k]?) : Loose lt l1 n j := by
  obtain ⟨hord, hgp⟩ := h
  have hli : l[i]? = some l[i] := List.getElem?_eq_getElem (by omega)
  have hlj : l[j]? = some l[j] := List.getElem?_eq_getElem (by omega)
  constructor
  · intro k hk hkn hlok hE x p hx hp
    rw [hget] at hx hp
    have hkj : k ≠ j := fun e => hE (.inr e)
    have hkpj : (k - 1) / 2 ≠ j := fun e => hE (.inl e)
    by_cases hki : k = i
    · subst hki
      simp [show k ≠ j by omega] at hx
      have hne : (k - 1) / 2 ≠ k := by omega
      simp [show (k - 1) / 2 ≠ j by omega, hne] at hp
      exact hgp j (by omega) hjn hjp hk x p hx hp
    · simp [hkj, hki] at hx
      by_cases hkp : (k - 1) / 2 = i
      · simp [hkp, show i ≠ j by omega] at hp
        exact hmin k hk hkn hkp x p hx hp
      · simp [hkp, hkpj] at hp
        exact hord k hk hkn hlok (by simp [hkp, hki]) x p hx hp
  · intro k hk hkn hkj _ x p hx hp
    rw [hget] at hx hp
    simp [show k ≠ j by omega, show k ≠ i by omega] at hx
    simp [hjp, show i ≠ j by omega] at hp
    exact hord k hk hkn (by omega) (by omega) x p hx (by rw [hkj]; exact hp)

theorem downLoop_panics {c : Cmp A T} {lt : T → T → Bool} (ht : Truthful c lt) (sw : StrictWeak lt) (n m : Nat) :
    ∀ (i : Nat) (l : List T) (a : A), n - i = m → n ≤ l.length → Loose lt l n i → (downLoop c l a i n).2.2 = none →
    ∃ j, j < n ∧ (downLoop c l a i n).1[j]? = l[i]? ∧ But lt (downLoop c l a i n).1 n j := by
  induction m using Nat.strongRecOn with
  | _ m ih =>
    intro i l a hm hn hord
    unfold downLoop
    simp only
    split
    · intro h; cases h
    next hj1 =>
      rcases hb : (if 2 * i + 1 + 1 < n then less c l a (2 * i + 1 + 1) (2 * i + 1) else (a, some false)) with ⟨a1, _ | b⟩
      · exact fun _ => ⟨i, by omega, rfl, hord.fill sw (by omega) hn⟩
      · have hb1 : b = true → 2 * i + 1 + 1 < n := by
          intro h
          subst h
          by_cases h2 : 2 * i + 1 + 1 < n
          · exact h2
          · rw [if_neg h2] at hb; cases hb
        have hb2 : ∀ (h1 : 2 * i + 1 < l.length) (h2 : 2 * i + 1 + 1 < l.length), 2 * i + 1 + 1 < n →
            lt (l[2 * i + 1 + 1]) (l[2 * i + 1]) = b := by
          intro h1 h2 h3
          rw [if_pos h3] at hb
          exact less_true ht h2 h1 hb
        simp only
        have hj : ∃ j, (if b = true then 2 * i + 1 + 1 else 2 * i + 1) = j := ⟨_, rfl⟩
        obtain ⟨j, hjd⟩ := hj
        rw [hjd]
        have hjn : j < n := by
          rw [← hjd]; split
          · next h => exact hb1 h
          · omega
        have hjp : (j - 1) / 2 = i := by rw [← hjd]; split <;> omega
        have hij : i < j := by rw [← hjd]; split <;> omega
        have hmin : ∀ k, 0 < k → k < n → (k - 1) / 2 = i → ∀ x y, l[k]? = some x → l[j]? = some y → lt x y = false := by
          intro k hk hkn hki x y hx hy
          have : k = 2 * i + 1 ∨ k = 2 * i + 1 + 1 := by omega
          rw [List.getElem?_eq_getElem (by omega)] at hx hy
          cases hx; cases hy
          by_cases hkj : k = j
          · subst hkj; exact sw.irrefl _
          · cases b with
            | true =>
              simp at hjd
              have hk1 : k = 2 * i + 1 := by omega
              subst hk1; subst hjd
              exact StrictWeak_asymm sw (hb2 (by omega) (by omega) hjn)
            | false =>
              simp at hjd
              have hk1 : k = 2 * i + 1 + 1 := by omega
              subst hk1; subst hjd
              exact hb2 (by omega) (by omega) hkn
        rcases h : less c l a1 j i with ⟨a', _ | _ | _⟩
        · exact fun _ => ⟨i, by omega, rfl, hord.fill sw (by omega) hn⟩
        · intro h; cases h
        · obtain ⟨l1, hs, hlen, hperm, hget⟩ := swap_spec (l := l) (i := i) (j := j) (by omega) (by omega)
          simp only [hs]
          intro hp
          obtain ⟨j', g1, g2, g3⟩ := ih _ (by omega) j l1 a' rfl (by omega)
            (hord.step hn hjn hij hjp hmin (less_true ht (by omega) (by omega) h) hget) hp
          refine ⟨j', g1, g2.trans ?_, g3⟩
          rw [hget, if_pos rfl]

theorem down_panics {c : Cmp A T} {lt : T → T → Bool} (ht : Truthful c lt) (sw : StrictWeak lt) {n i : Nat} {l : List T} {a : A}
    (hn : n ≤ l.length) (hord : Loose lt l n i) (h : (down c l a i n).2.2 = none) :
    ∃ j, j < n ∧ (down c l a i n).1[j]? = l[i]? ∧ But lt (down c l a i n).1 n j := by
  have := downLoop_panics ht sw n _ i l a rfl hn hord
  unfold down at h ⊢
  rcases hd : downLoop c l a i n with ⟨l2, a2, _ | i'⟩
  · rw [hd] at this; exact this rfl
  · rw [hd] at h; cases h

theorem downUp_panics {c : Cmp A T} {lt : T → T → Bool} (ht : Truthful c lt) (sw : StrictWeak lt) {n i : Nat} {l : List T} {a : A}
    (hi : i < n) (hn : n ≤ l.length) (hord : Loose lt l n i) (h : (downUp c l a i n).2.2 = false) :
    ∃ j, j < n ∧ (downUp c l a i n).1[j]? = l[i]? ∧ But lt (downUp c l a i n).1 n j := by
  have hp := @down_panics T A c lt ht sw n i l a hn hord
  have hk := down_keeps c l a i n hn
  unfold downUp at h ⊢
  rcases hd : down c l a i n with ⟨l2, a2, _ | _ | _⟩
  · rw [hd] at hp; exact hp rfl
  · rw [hd] at h hk
    have e : l2 = l := hk.2 rfl
    subst e
    obtain ⟨l3, b, g1, _, _, _, _, _, g⟩ := down_spec (lt := lt) n 0 i l2 hn
    rw [down_truth ht hd] at g1
    cases g1
    refine up_panics ht sw n i l2 a2 hi hn ⟨?_, hord.2⟩ h
    exact (g sw (by omega) hord.1 (fun k a b c d _ => hord.2 k a b c d)).1 rfl
  · rw [hd] at h; cases h

theorem loose_of_heap {lt : T → T → Bool} (sw : StrictWeak lt) {l0 l : List T} {n i : Nat} (hin : i < n) (hn : n ≤ l0.length) (hh : IsHeap lt l0)
    (hk : ∀ k, k < n → k ≠ i → l[k]? = l0[k]?) : Loose lt l n i := by
  constructor
  · intro k hk0 hkn _ hE x p hx hp
    simp only [not_or] at hE
    rw [hk _ hkn hE.2] at hx
    rw [hk _ (by omega) hE.1] at hp
    exact hh k hk0 x p hx hp
  · intro k hk0 hkn hki hi0 x p hx hp
    rw [hk _ (by omega) (by omega)] at hx hp
    have hy : l0[i]? = some l0[i] := List.getElem?_eq_getElem (by omega)
    exact sw.negTrans _ _ _ (hh k hk0 x _ hx (by rw [hki]; exact hy)) (hh i hi0 _ p hy hp)

theorem But.heap {lt : T → T → Bool} {l : List T} {i : Nat} (h : But lt l l.length i) : ∃ v, IsHeap lt (l.set i v) := by
  obtain ⟨v, h⟩ := h
  exact ⟨v, Ord_full_iff.1 (by rwa [List.length_set])⟩

/-- C144: a `Push` onto a heap that panics leaves the new element somewhere, everything else in heap order. -/
theorem C144_push_order {c : Cmp A T} {lt : T → T → Bool} (ht : Truthful c lt) (sw : StrictWeak lt) (l : List T) (a : A) (x : T)
    (hh : IsHeap lt l) (h : (push c l a x).2.2 = false) :
    ∃ i, (push c l a x).1[i]? = some x ∧ ∃ v, IsHeap lt ((push c l a x).1.set i v) := by
  have hlen : (rawPush l x).length = l.length + 1 := by simp [rawPush]
  have hk := up_keeps c (l.length + 1) l.length (rawPush l x) a (by omega) (by omega)
  have hp := up_panics ht sw (l.length + 1) l.length (rawPush l x) a (by omega) (by omega) ⟨by
    intro k hk hkn hlo hE a p ha hp
    refine hh k hk a p ?_ ?_
    · simpa [rawPush, List.getElem?_append_left (show k < l.length by omega)] using ha
    · simpa [rawPush, List.getElem?_append_left (show (k - 1) / 2 < l.length by omega)] using hp,
    fun k hk hkn hkp => by omega⟩
  unfold push at h ⊢
  rw [hlen, Nat.add_sub_cancel] at h ⊢
  obtain ⟨i, _, h2, h3⟩ := hp h
  refine ⟨i, by rw [h2]; simp [rawPush], But.heap ?_⟩
  rwa [hk.1.length_eq, hlen]

/-- The contents after a panic inside `Pop` or `Remove`: the element to be returned is last, the rest is a heap but for
the element that was last. -/
def Left (lt : T → T → Bool) (l l' : List T) (i : Nat) : Prop :=
  ∃ r m j y, l' = r ++ [m] ∧ l[i]? = some m ∧ r[j]? = some y ∧ l.getLast? = some y ∧ ∃ v, IsHeap lt (r.set j v)

theorem left_of {lt : T → T → Bool} {l l1 l' : List T} {n i j : Nat} (hl : l.length = n + 1) (hi : i < n)
    (hget : ∀ k, l1[k]? = if k = n then l[i]? else if k = i then l[n]? else l[k]?) (hlen : l1.length = l.length)
    (hk : Keeps n l1 l') (hj : j < n) (hy : l'[j]? = l1[i]?) (hb : But lt l' n j) : Left lt l l' i := by
  have hl' : l'.length = n + 1 := by rw [hk.1.length_eq, hlen, hl]
  obtain ⟨m, hm, _, he⟩ := rawPop_spec hl'
  refine ⟨l'.take n, m, j, l[n]'(by omega), he, ?_, ?_, ?_, ?_⟩
  · rw [← hm, hk.2 _ (Nat.le_refl _), hget, if_pos rfl]
  · rw [List.getElem?_take, if_pos hj, hy, hget, if_neg (by omega), if_pos rfl]
    exact List.getElem?_eq_getElem _
  · rw [List.getLast?_eq_getElem?, show l.length - 1 = n by omega]
    exact List.getElem?_eq_getElem _
  · obtain ⟨v, hv⟩ := hb
    refine ⟨v, ?_⟩
    have := Ord_take hv
    rwa [List.take_set] at this

/-- C144: a `Pop` of a heap that panics has put the least element last; the others are in heap order but for one. -/
theorem C144_pop_order {c : Cmp A T} {lt : T → T → Bool} (ht : Truthful c lt) (sw : StrictWeak lt) {l l' : List T} {a a' : A}
    (hl : l ≠ []) (hh : IsHeap lt l) (h : pop c l a = (l', a', none)) : Left lt l l' 0 := by
  have hpos : 0 < l.length := List.length_pos_iff.2 hl
  obtain ⟨l1, hs, hlen, hperm, hget⟩ := swap_spec (l := l) (i := 0) (j := l.length - 1) (by omega) (by omega)
  have hk := (down_keeps c l1 a 0 (l.length - 1) (by omega)).1
  unfold pop at h
  rw [if_neg (by omega), hs] at h
  simp only at h
  by_cases h1 : l.length - 1 = 0
  · exfalso
    rw [h1] at h
    unfold down downLoop at h
    simp only [Nat.mul_zero, Nat.zero_add, ge_iff_le, Nat.zero_le, dite_true] at h
    obtain ⟨x, _, hr, _⟩ := ret_spec l1 a 0 (by omega)
    rw [hr] at h
    cases h
  · have hp := @down_panics T A c lt ht sw (l.length - 1) 0 l1 a (by omega) (loose_of_heap sw (by omega) (by omega) hh
      (fun k hk hk0 => by rw [hget, if_neg (by omega), if_neg hk0]))
    rcases hd : down c l1 a 0 (l.length - 1) with ⟨l2, a2, _ | b⟩
    · rw [hd] at h hp hk
      cases h
      obtain ⟨j, g1, g2, g3⟩ := hp rfl
      exact left_of (by omega) (by omega) hget hlen hk g1 g2 g3
    · rw [hd] at h hk
      obtain ⟨x, _, hr, _⟩ := ret_spec l2 a2 (l.length - 1) (by have := (hk.1.trans hperm).length_eq; simp only at this; omega)
      simp only [hr] at h
      cases h

/-- C144: the same of `Remove`. -/
theorem C144_remove_order {c : Cmp A T} {lt : T → T → Bool} (ht : Truthful c lt) (sw : StrictWeak lt) {l l' : List T} {a a' : A}
    {i : Nat} (hi : i < l.length) (hh : IsHeap lt l) (h : remove c l a i = (l', a', none)) : Left lt l l' i := by
  unfold remove at h
  rw [if_neg (by omega)] at h
  simp only [Int.toNat_natCast] at h
  by_cases hin : l.length - 1 = i
  · rw [if_neg (by omega)] at h
    obtain ⟨x, hx, hr, he⟩ := ret_spec l a i (by omega)
    rw [hr] at h
    cases h
  · rw [if_pos hin] at h
    obtain ⟨l1, hs, hlen, hperm, hget⟩ := swap_spec (l := l) (i := i) (j := l.length - 1) (by omega) (by omega)
    have hk := downUp_keeps c l1 a i (l.length - 1) (by omega) (by omega)
    have hp := @downUp_panics T A c lt ht sw (l.length - 1) i l1 a (by omega) (by omega) (loose_of_heap sw (by omega) (by omega) hh
      (fun k hk hk0 => by rw [hget, if_neg (by omega), if_neg hk0]))
    simp only [hs] at h
    rcases hd : downUp c l1 a i (l.length - 1) with ⟨l2, a2, _ | b⟩
    · rw [hd] at h hp hk
      cases h
      obtain ⟨j, g1, g2, g3⟩ := hp rfl
      exact left_of (by omega) (by omega) hget hlen hk g1 g2 g3
    · rw [hd] at h hk
      obtain ⟨x, _, hr, _⟩ := ret_spec l2 a2 (l.length - 1) (by have := (hk.1.trans hperm).length_eq; simp only at this; omega)
      simp only [hr] at h
      cases h

/-- C144: and of `Fix` at a changed element: if it panics the changed element is the only one out of place still. -/
theorem C144_fix_order {c : Cmp A T} {lt : T → T → Bool} (ht : Truthful c lt) (sw : StrictWeak lt) (l0 : List T) (a : A) (i : Nat) (x : T)
    (hi : i < l0.length) (hh : IsHeap lt l0) (h : (fix c (l0.set i x) a i).2.2 = false) :
    ∃ j, (fix c (l0.set i x) a i).1[j]? = some x ∧ ∃ v, IsHeap lt ((fix c (l0.set i x) a i).1.set j v) := by
  have hp := @downUp_panics T A c lt ht sw l0.length i (l0.set i x) a hi (by simp) (loose_of_heap sw hi (Nat.le_refl _) hh
      (fun k hk hk0 => by rw [List.getElem?_set, if_neg (by omega)]))
  have hk := downUp_keeps c (l0.set i x) a i l0.length hi (by simp)
  unfold fix at h ⊢
  rw [if_neg (by omega)] at h ⊢
  simp only [Int.toNat_natCast, List.length_set] at h ⊢
  obtain ⟨j, g1, g2, g3⟩ := hp h
  refine ⟨j, by rw [g2]; simp [hi], But.heap ?_⟩
  rwa [hk.1.length_eq, List.length_set]

/-- C144: a caller that recovers can repair: after a `Push` or `Fix` that panicked, `Fix` at the position of that element
makes a heap of the contents. -/
theorem C144_repair {lt : T → T → Bool} (sw : StrictWeak lt) (l : List T) (i : Nat) (v : T) (hi : i < l.length)
    (h : IsHeap lt (l.set i v)) : ∃ l', Heap.fix lt l i = some l' ∧ l'.Perm l ∧ IsHeap lt l' := by
  obtain ⟨l', h1, h2, h3⟩ := fix_spec (lt := lt) l i hi
  exact ⟨l', h1, h2, h3 sw _ h (by simp) (fun k hk => by rw [List.getElem?_set, if_neg (Ne.symm hk)])⟩

/-! ## How often `Less` is called -/

/-- `f` goes up by at most one with every call of `Less`; a counter of the calls, for instance. -/
def Counts (f : A → Nat) (c : Cmp A T) : Prop := ∀ a x y, f (c a x y).1 ≤ f a + 1

theorem less_count {f : A → Nat} {c : Cmp A T} (hf : Counts f c) (l : List T) (a : A) (i j : Nat) :
    f (less c l a i j).1 ≤ f a + 1 := by
  unfold less
  split
  · exact hf _ _ _
  · exact Nat.le_succ _

theorem up_count {f : A → Nat} {c : Cmp A T} (hf : Counts f c) (j : Nat) : ∀ (l : List T) (a : A),
    f (up c l a j).2.1 ≤ f a + Nat.log2 (j + 1) := by
  induction j using Nat.strongRecOn with
  | _ j ih =>
    intro l a
    unfold up
    simp only
    split
    · exact Nat.le_add_right _ _
    next hij =>
      have hlog := log2_parent hij
      have h1 := less_count hf l a j ((j - 1) / 2)
      rcases h : less c l a j ((j - 1) / 2) with ⟨a', _ | _ | _⟩ <;> rw [h] at h1 <;> simp only at h1 ⊢
      · omega
      · omega
      · rcases hs : swap l ((j - 1) / 2) j with _ | l'
        · simp only; omega
        · have := ih ((j - 1) / 2) (by omega) l' a'
          simp only
          omega

theorem downLoop_count {f : A → Nat} {c : Cmp A T} (hf : Counts f c) (n m : Nat) : ∀ (i : Nat) (l : List T) (a : A), n - i = m →
    f (downLoop c l a i n).2.1 ≤ f a + 2 * Nat.log2 (n / (i + 1)) := by
  induction m using Nat.strongRecOn with
  | _ m ih =>
    intro i l a hm
    unfold downLoop
    simp only
    split
    · exact Nat.le_add_right _ _
    next hj1 =>
      have h2 : 1 ≤ Nat.log2 (n / (i + 1)) := by
        have := log2_child (m := n) (a := i) (j := 2 * i + 1) (by omega) (by omega)
        omega
      have h1 : f (if 2 * i + 1 + 1 < n then less c l a (2 * i + 1 + 1) (2 * i + 1) else (a, some false)).1 ≤ f a + 1 := by
        split
        · exact less_count hf _ _ _ _
        · exact Nat.le_succ _
      rcases hb : (if 2 * i + 1 + 1 < n then less c l a (2 * i + 1 + 1) (2 * i + 1) else (a, some false)) with ⟨a1, _ | b⟩ <;>
        rw [hb] at h1 <;> simp only at h1 ⊢
      · omega
      · obtain ⟨j, hjd⟩ : ∃ j, (if b = true then 2 * i + 1 + 1 else 2 * i + 1) = j := ⟨_, rfl⟩
        rw [hjd]
        have hj : 2 * i + 1 ≤ j := by rw [← hjd]; split <;> omega
        have hlog := log2_child (m := n) (a := i) (j := j) (by omega) hj
        have h3 := less_count hf l a1 j i
        rcases h : less c l a1 j i with ⟨a', _ | _ | _⟩ <;> rw [h] at h3 <;> simp only at h3 ⊢
        · omega
        · omega
        · rcases hs : swap l i j with _ | l'
          · simp only; omega
          · have := ih (n - j) (by omega) j l' a' rfl
            simp only
            omega

theorem down_count {f : A → Nat} {c : Cmp A T} (hf : Counts f c) (l : List T) (a : A) (i n : Nat) :
    f (down c l a i n).2.1 ≤ f a + 2 * Nat.log2 (n / (i + 1)) := by
  have h := downLoop_count hf n _ i l a rfl
  unfold down
  rcases hd : downLoop c l a i n with ⟨l', a', _ | _⟩ <;> rw [hd] at h <;> exact h

theorem downUp_count {f : A → Nat} {c : Cmp A T} (hf : Counts f c) (l : List T) (a : A) (i n : Nat) (hi : i < n) :
    f (downUp c l a i n).2.1 ≤ f a + 2 * Nat.log2 n := by
  have h0 : n / (i + 1) ≠ 0 := by have : 1 ≤ n / (i + 1) := (Nat.le_div_iff_mul_le (by omega)).2 (by omega); omega
  have hm : Nat.log2 (n / (i + 1)) + Nat.log2 (i + 1) ≤ Nat.log2 n :=
    Nat.le_trans (log2_add h0 (by omega)) (log2_mono (Nat.div_mul_le_self n (i + 1)))
  have h := down_count hf l a i n
  unfold downUp
  rcases hd : down c l a i n with ⟨l', a', _ | _ | _⟩ <;> rw [hd] at h <;> simp only at h ⊢
  · omega
  · have := up_count hf i l' a'
    omega
  · omega

theorem initLoop_count {f : A → Nat} {c : Cmp A T} (hf : Counts f c) (n : Nat) : ∀ (k : Nat) (l : List T) (a : A),
    f (initLoop c l a n k).2.1 ≤ f a + 2 * ((List.range k).map (fun a => Nat.log2 (n / (a + 1)))).sum := by
  intro k
  induction k with
  | zero => intro l a; exact Nat.le_add_right _ _
  | succ k ih =>
    intro l a
    have h := down_count hf l a k n
    unfold initLoop
    rw [List.range_succ]
    simp only [List.map_append, List.map_cons, List.map_nil, List.sum_append, List.sum_cons, List.sum_nil]
    rcases hd : down c l a k n with ⟨l', a', _ | _⟩ <;> rw [hd] at h <;> simp only at h ⊢
    · omega
    · have := ih l' a'
      omega

/-- C144: the bounds of C109 on the number of calls of `Less` hold whatever it answers and however the call ends. -/
theorem C144_calls {f : A → Nat} {c : Cmp A T} (hf : Counts f c) (l : List T) (a : A) :
    f (init c l a).2.1 ≤ f a + 2 * l.length ∧
    (∀ x, f (push c l a x).2.1 ≤ f a + Nat.log2 (l.length + 1)) ∧
    f (pop c l a).2.1 ≤ f a + 2 * Nat.log2 (l.length - 1) ∧
    (∀ i : Nat, i < l.length → f (remove c l a i).2.1 ≤ f a + 2 * Nat.log2 (l.length - 1)) ∧
    (∀ i : Nat, i < l.length → f (fix c l a i).2.1 ≤ f a + 2 * Nat.log2 l.length) := by
  have hret : ∀ (l : List T) (a : A), (ret l a).2.1 = a := by
    intro l a; unfold ret; split <;> rfl
  refine ⟨?_, fun x => ?_, ?_, fun i hi => ?_, fun i hi => ?_⟩
  · have h1 := initLoop_count hf l.length (l.length / 2) l a
    have h2 := sum_log2 l.length
    unfold init
    omega
  · have := up_count hf l.length (rawPush l x) a
    unfold push
    rwa [show (rawPush l x).length - 1 = l.length by simp [rawPush]]
  · unfold pop
    split
    · exact Nat.le_add_right _ _
    · rcases hs : swap l 0 (l.length - 1) with _ | l1
      · exact Nat.le_add_right _ _
      · have h := down_count hf l1 a 0 (l.length - 1)
        simp only [Nat.zero_add, Nat.div_one] at h
        rcases hd : down c l1 a 0 (l.length - 1) with ⟨l', a', _ | _⟩ <;> rw [hd] at h <;> simp only [hd] at h ⊢
        · exact h
        · rw [hret]; exact h
  · unfold remove
    rw [if_neg (by omega)]
    simp only [Int.toNat_natCast]
    split
    · rcases hs : swap l i (l.length - 1) with _ | l1
      · exact Nat.le_add_right _ _
      · have h := downUp_count hf l1 a i (l.length - 1) (by omega)
        rcases hd : downUp c l1 a i (l.length - 1) with ⟨l', a', _ | _⟩ <;> rw [hd] at h <;> simp only [hd] at h ⊢
        · exact h
        · rw [hret]; exact h
    · rw [hret]; exact Nat.le_add_right _ _
  · unfold fix
    rw [if_neg (by omega)]
    exact downUp_count hf l a _ _ (by simpa using hi)

/-! ## Example -/

/-- A comparison of integers that counts its calls and panics at the `k`-th. -/
def boom (k : Nat) : Cmp Nat Int := fun a x y => (a + 1, if a + 1 = k then none else some (decide (x < y)))

theorem boom_truthful (k : Nat) : Truthful (boom k) (fun x y => decide (x < y)) := by
  intro a x y b h
  unfold boom at h
  simp only at h
  split at h
  · cases h
  · cases h; rfl

theorem boom_counts (k : Nat) : Counts id (boom k) := fun _ _ _ => Nat.le_refl _

theorem lt_strictWeak : StrictWeak (fun x y : Int => decide (x < y)) where
  irrefl x := by simp
  trans x y z h1 h2 := by simp at *; omega
  negTrans x y z h1 h2 := by simp at *; omega

/-- A `Push` of 0 whose second comparison panics: 0 is at position 1, and `Fix(h, 1)` repairs. -/
example : push (boom 2) [1, 3, 2, 4, 6] 0 0 = ([1, 3, 0, 4, 6, 2], 2, false) := by
  simp [push, up, rawPush, less, swap, boom]
example : ∃ i, ([1, 3, 0, 4, 6, 2] : List Int)[i]? = some 0 ∧
    ∃ v, IsHeap (fun x y : Int => decide (x < y)) (([1, 3, 0, 4, 6, 2] : List Int).set i v) := by
  have e : push (boom 2) [1, 3, 2, 4, 6] 0 0 = ([1, 3, 0, 4, 6, 2], 2, false) := by
    simp [push, up, rawPush, less, swap, boom]
  have hh : IsHeap (fun x y : Int => decide (x < y)) [1, 3, 2, 4, 6] := by
    intro k hk x p hx hp
    match k, hk with
    | 1, _ | 2, _ | 3, _ | 4, _ => cases hx; cases hp; rfl
    | k + 5, _ => cases hx
  have := C144_push_order (boom_truthful 2) lt_strictWeak [1, 3, 2, 4, 6] 0 0 hh (by rw [e])
  rwa [e] at this

/-- A `Pop` whose third comparison panics: the least element is last, 6 is out of place at position 1. -/
example : pop (boom 3) [1, 2, 3, 4, 5, 6] 0 = ([2, 6, 3, 4, 5, 1], 3, none) := by
  simp [pop, down, downLoop, less, swap, boom]
/-- It returns if the fourth call would have panicked. -/
example : pop (boom 5) [1, 2, 3, 4, 5, 6] 0 = ([2, 4, 3, 6, 5], 4, some 1) := by
  simp [pop, down, downLoop, less, swap, boom, ret, rawPop]

/-- `Init` may leave a heap nowhere near in order, but with the same elements. -/
example : init (boom 1) [3, 2, 1] 0 = ([3, 2, 1], 1, false) := by
  simp [init, initLoop, down, downLoop, less, boom]

/-- A comparison that answers yes always: still nothing is lost. -/
example : pop (fun (a : Unit) (_ _ : Int) => (a, some true)) [1, 2, 3] () = ([2, 3], (), some 1) := by
  simp [pop, down, downLoop, less, swap, ret, rawPop]

end Panic

end Verif.Heap
