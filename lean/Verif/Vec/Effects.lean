import Verif.Vec.Local
/-!
# Searching with comparison functions that have effects (C126)

In `Model.lean` comparison functions are pure.  Here the methods that only look at a vector run with functions that may do
anything to a state `S` outside the vector, answer as they like, and may panic (`none`).  Counting is one such effect.
The vector itself does not change meanwhile: `l` is what it holds.
-/
namespace Verif.Vec

/-- The result of a piece of code with effects on `S`; `none`: it panics. -/
abbrev Act (S R : Type) := S → Option (R × S)

variable {T S : Type}

/-! ## The code -/

/-- `slices.IndexFunc` from index `i` on: `Search` (vec.go:172-176), `SearchFunc` (178-182), and
`Contains` (362-370), which tests whether the result is at least 0. -/
def indexE (p : T → Act S Bool) : List T → Nat → Act S Int
  | [], _, s => some (-1, s)
  | x :: l, i, s => match p x s with
    | none => none
    | some (true, s) => some ((i : Int), s)
    | some (false, s) => indexE p l (i + 1) s

/-- `SearchAllFunc`: vec.go:190-198; `SearchAll`: vec.go:184-188. -/
def searchAllE (p : T → Act S Bool) : List T → Nat → List Nat → Act S (List Nat)
  | [], _, acc, s => some (acc, s)
  | x :: l, i, acc, s => match p x s with
    | none => none
    | some (true, s) => searchAllE p l (i + 1) (acc ++ [i]) s
    | some (false, s) => searchAllE p l (i + 1) acc s

/-- The loop of `slices.BinarySearchFunc`. -/
def binE (cmp : T → Act S Int) (x : List T) (i j : Nat) (s : S) : Option (Nat × S) :=
  if _h : i < j then
    match x[(i + j) / 2]? with
    | none => none
    | some y => match cmp y s with
      | none => none
      | some (c, s) => if c < 0 then binE cmp x ((i + j) / 2 + 1) j s else binE cmp x i ((i + j) / 2) s
  else some (i, s)
termination_by j - i

/-- `slices.BinarySearchFunc`: `BinarySearch` (vec.go:206-216), `BinarySearchFunc` (218-220). -/
def binarySearchE (cmp : T → Act S Int) (x : List T) (s : S) : Option ((Nat × Bool) × S) :=
  match binE cmp x 0 x.length s with
  | none => none
  | some (i, s) => match x[i]? with
    | none => some ((i, false), s)
    | some y => match cmp y s with
      | none => none
      | some (c, s) => some ((i, decide (c = 0)), s)

/-- `slices.CompareFunc`: `Compare`, `CompareFunc` (vec.go:346-360). -/
def compareE (cmp : T → T → Act S Int) : List T → List T → Act S Int
  | [], [], s => some (0, s)
  | [], _ :: _, s => some (-1, s)
  | _ :: _, [], s => some (1, s)
  | a :: l, b :: l', s => match cmp a b s with
    | none => none
    | some (c, s) => if c ≠ 0 then some (c, s) else compareE cmp l l' s

/-- `slices.EqualFunc`, after the comparison of the lengths. -/
def equalLoopE (eq : T → T → Act S Bool) : List T → List T → Act S Bool
  | a :: l, b :: l', s => match eq a b s with
    | none => none
    | some (true, s) => equalLoopE eq l l' s
    | some (false, s) => some (false, s)
  | _, _, s => some (true, s)

/-- `slices.EqualFunc`: `EqualVec`, `EqualSlice` and the like (vec.go:376-390). -/
def equalE (eq : T → T → Act S Bool) (l l' : List T) : Act S Bool := fun s =>
  if l.length ≠ l'.length then some (false, s) else equalLoopE eq l l' s

/-- `slices.IsSortedFunc`, `i` from the end down to 1: `IsSorted`, `IsSortedFunc` (vec.go:400-414). -/
def sortedE (cmp : T → T → Act S Int) (x : List T) : Nat → Act S Bool
  | 0, s => some (true, s)
  | i + 1, s => match x[i + 1]?, x[i]? with
    | some a, some b => match cmp a b s with
      | none => none
      | some (c, s) => if c < 0 then some (false, s) else sortedE cmp x i s
    | _, _ => none

/-- The loop of `slices.MinFunc` (`keep c` is `c < 0`) and `slices.MaxFunc` (`c > 0`). -/
def extremeE (better : Int → Bool) (cmp : T → T → Act S Int) : T → List T → Act S T
  | m, [], s => some (m, s)
  | m, x :: l, s => match cmp x m s with
    | none => none
    | some (c, s) => extremeE better cmp (if better c then x else m) l s

/-- `slices.MinFunc`, `slices.MaxFunc`: `Min`, `Max` and the like (vec.go:416-446). -/
def extremeOfE (better : Int → Bool) (cmp : T → T → Act S Int) : List T → Act S T
  | [], _ => none
  | x :: l, s => extremeE better cmp x l s

/-- The three-way comparisons in vec.go:207-215, 351-359, 405-413, 421-429, 437-445. -/
def threeE (less eq : T → T → Act S Bool) (a b : T) : Act S Int := fun s =>
  match less a b s with
  | none => none
  | some (true, s) => some (-1, s)
  | some (false, s) => match eq a b s with
    | none => none
    | some (true, s) => some (0, s)
    | some (false, s) => some (1, s)

/-! ## What it means -/

/-- A function of one or two arguments that writes down what it is called with. -/
def log1 {R : Type} (f : T → Act S R) (x : T) : Act (S × List T) R := fun s => (f x s.1).map fun r => (r.1, r.2, s.2 ++ [x])
def log2 {R : Type} (f : T → T → Act S R) (x y : T) : Act (S × List (T × T)) R := fun s =>
  (f x y s.1).map fun r => (r.1, r.2, s.2 ++ [(x, y)])

/-- It never panics. -/
def Act.Total {R : Type} (e : Act S R) : Prop := ∀ s, ∃ r, e s = some r

theorem log1_total {R : Type} {f : T → Act S R} (h : ∀ x, (f x).Total) (x : T) : (log1 f x).Total := by
  intro s; obtain ⟨r, hr⟩ := h x s.1; exact ⟨_, by simp [log1, hr]; rfl⟩

theorem log1_some {R : Type} {f : T → Act S R} {x : T} {s s' : S × List T} {r : R} (h : log1 f x s = some (r, s')) :
    f x s.1 = some (r, s'.1) ∧ s'.2 = s.2 ++ [x] := by
  simp only [log1, Option.map_eq_some_iff, Prod.mk.injEq] at h
  obtain ⟨⟨r0, s0⟩, h1, rfl, rfl⟩ := h
  exact ⟨h1, rfl⟩

theorem log2_some {R : Type} {f : T → T → Act S R} {x y : T} {s s' : S × List (T × T)} {r : R} (h : log2 f x y s = some (r, s')) :
    f x y s.1 = some (r, s'.1) ∧ s'.2 = s.2 ++ [(x, y)] := by
  simp only [log2, Option.map_eq_some_iff, Prod.mk.injEq] at h
  obtain ⟨⟨r0, s0⟩, h1, rfl, rfl⟩ := h
  exact ⟨h1, rfl⟩

/-! ### Binary search -/

theorem binE_log {cmp : T → Act S Int} {x : List T} : ∀ (k i j : Nat) (s s' : S × List T) (r : Nat), i ≤ j → j ≤ x.length → j - i < 2 ^ k →
    binE (log1 cmp) x i j s = some (r, s') → i ≤ r ∧ r ≤ j ∧ ∃ more, s'.2 = s.2 ++ more ∧ more.length ≤ k ∧ ∀ y ∈ more, y ∈ x := by
  intro k
  induction k with
  | zero =>
    intro i j s s' r hij hj hk h
    rw [binE, dif_neg (by omega)] at h
    cases h
    exact ⟨Nat.le_refl _, hij, [], by simp, Nat.le_refl _, by simp⟩
  | succ k ih =>
    intro i j s s' r hij hj hk h
    rw [binE] at h
    split at h
    next hlt =>
      have hm : (i + j) / 2 < x.length := by omega
      rw [List.getElem?_eq_getElem hm] at h
      simp only at h
      split at h
      · cases h
      next c s1 hc =>
        obtain ⟨_, hl⟩ := log1_some hc
        have hin : x[(i + j) / 2] ∈ x := List.getElem_mem hm
        rw [Nat.pow_succ] at hk
        split at h
        · obtain ⟨h1, h2, more, h3, h4, h5⟩ := ih _ _ _ _ _ (by omega) hj (by omega) h
          refine ⟨by omega, h2, x[(i + j) / 2] :: more, by rw [h3, hl]; simp, by simpa using h4, ?_⟩
          intro y hy
          rcases List.mem_cons.1 hy with rfl | hy
          · exact hin
          · exact h5 y hy
        · obtain ⟨h1, h2, more, h3, h4, h5⟩ := ih _ _ _ _ _ (by omega) (by omega) (by omega) h
          refine ⟨h1, by omega, x[(i + j) / 2] :: more, by rw [h3, hl]; simp, by simpa using h4, ?_⟩
          intro y hy
          rcases List.mem_cons.1 hy with rfl | hy
          · exact hin
          · exact h5 y hy
    next hlt =>
      cases h
      exact ⟨Nat.le_refl _, hij, [], by simp, Nat.zero_le _, by simp⟩

theorem binE_total {cmp : T → Act S Int} (hc : ∀ y, (cmp y).Total) {x : List T} : ∀ (d i j : Nat) (s : S), j - i ≤ d → j ≤ x.length →
    ∃ r, binE cmp x i j s = some r := by
  intro d
  induction d with
  | zero => intro i j s hd _; rw [binE, dif_neg (by omega)]; exact ⟨_, rfl⟩
  | succ d ih =>
    intro i j s hd hj
    rw [binE]
    split
    next hlt =>
      rw [List.getElem?_eq_getElem (by omega : (i + j) / 2 < x.length)]
      obtain ⟨⟨c, s1⟩, h1⟩ := hc (x[(i + j) / 2]'(by omega)) s
      simp only [h1]
      split <;> exact ih _ _ _ (by omega) (by omega)
    next => exact ⟨_, rfl⟩

/-- C126: binary search in `n` elements makes at most `⌊log₂ n⌋ + 2` comparisons, of elements of the vector only, and returns a position
from 0 to `n`, whatever the comparison function does; it returns if the comparison does. -/
theorem C126_binarySearch (cmp : T → Act S Int) (x : List T) (s : S) :
    (∀ i b s' log, binarySearchE (log1 cmp) x (s, []) = some ((i, b), (s', log)) →
      i ≤ x.length ∧ (b = true → i < x.length) ∧ log.length ≤ Nat.log2 x.length + 2 ∧ ∀ y ∈ log, y ∈ x) ∧
    ((∀ y, (cmp y).Total) → ∃ r, binarySearchE cmp x s = some r) := by
  constructor
  · intro i b s' log h
    simp only [binarySearchE] at h
    split at h
    · cases h
    next i1 s1 hb =>
      obtain ⟨_, h2, more, h3, h4, h5⟩ := binE_log (Nat.log2 x.length + 1) 0 x.length _ _ _ (Nat.zero_le _) (Nat.le_refl _)
        (by simpa using Nat.lt_log2_self) hb
      simp only [List.nil_append] at h3
      split at h
      next hn =>
        simp only [Option.some.injEq, Prod.mk.injEq] at h
        obtain ⟨⟨rfl, rfl⟩, rfl⟩ := h
        simp only at h3
        subst h3
        exact ⟨h2, by simp, by omega, h5⟩
      next y hy =>
        split at h
        · cases h
        next c s2 hc =>
          simp only [Option.some.injEq, Prod.mk.injEq] at h
          obtain ⟨⟨rfl, rfl⟩, rfl⟩ := h
          obtain ⟨_, hl⟩ := log1_some hc
          have hlt := (List.getElem?_eq_some_iff.1 hy).1
          refine ⟨h2, fun _ => hlt, ?_, ?_⟩
          · simp only at hl
            rw [hl, h3, List.length_append]; simp; omega
          · simp only at hl
            rw [hl, h3]
            intro z hz
            rcases List.mem_append.1 hz with hz | hz
            · exact h5 z hz
            · simp only [List.mem_singleton] at hz; subst hz; exact List.mem_of_getElem? hy
  · intro hc
    simp only [binarySearchE]
    obtain ⟨⟨i, s1⟩, h1⟩ := binE_total hc x.length 0 x.length s (by omega) (Nat.le_refl _)
    rw [h1]
    simp only
    cases hx : x[i]? with
    | none => exact ⟨_, rfl⟩
    | some y =>
      obtain ⟨⟨c, s2⟩, h2⟩ := hc y s1
      simp only [h2]
      exact ⟨_, rfl⟩

/-- C126: a comparison calls the function less once and the function equal at most once, with the same arguments. -/
theorem C126_three (less eq : T → T → Act S Bool) (a b : T) (s s' : S) (c : Int) (log : List (T × T × Bool))
    (h : threeE (S := S × List (T × T × Bool)) (fun x y s => (less x y s.1).map fun r => (r.1, r.2, s.2 ++ [(x, y, false)]))
      (fun x y s => (eq x y s.1).map fun r => (r.1, r.2, s.2 ++ [(x, y, true)])) a b (s, []) = some (c, (s', log))) :
    (c = -1 ∧ log = [(a, b, false)]) ∨ ((c = 0 ∨ c = 1) ∧ log = [(a, b, false), (a, b, true)]) := by
  simp only [threeE] at h
  cases h1 : less a b s with
  | none => simp [h1] at h
  | some r =>
    obtain ⟨b1, s1⟩ := r
    cases b1 with
    | true => simp [h1] at h; exact .inl ⟨h.1.symm, h.2.2.symm⟩
    | false =>
      simp only [h1, Option.map_some] at h
      cases h2 : eq a b s1 with
      | none => simp [h2] at h
      | some r =>
        obtain ⟨b2, s2⟩ := r
        cases b2 <;> simp [h2] at h
        · exact .inr ⟨.inr h.1.symm, h.2.2.symm⟩
        · exact .inr ⟨.inl h.1.symm, h.2.2.symm⟩

/-! ### Linear searches -/

theorem indexE_log {p : T → Act S Bool} : ∀ (l : List T) (i : Nat) (s s' : S × List T) (r : Int), indexE (log1 p) l i s = some (r, s') →
    (r = -1 ∧ s'.2 = s.2 ++ l) ∨ ∃ j, r = ((i + j : Nat) : Int) ∧ j < l.length ∧ s'.2 = s.2 ++ l.take (j + 1)
  | [], i, s, s', r, h => by
    simp only [indexE, Option.some.injEq, Prod.mk.injEq] at h
    obtain ⟨rfl, rfl⟩ := h
    simp
  | x :: l, i, s, s', r, h => by
    simp only [indexE] at h
    split at h
    · cases h
    next s1 hc =>
      obtain ⟨_, hl⟩ := log1_some hc
      simp only [Option.some.injEq, Prod.mk.injEq] at h
      obtain ⟨rfl, rfl⟩ := h
      exact .inr ⟨0, by simp, by simp, by simp [hl]⟩
    next s1 hc =>
      obtain ⟨_, hl⟩ := log1_some hc
      rcases indexE_log l (i + 1) s1 s' r h with ⟨h1, h2⟩ | ⟨j, h1, h2, h3⟩
      · exact .inl ⟨h1, by simp [h2, hl]⟩
      · exact .inr ⟨j + 1, by rw [h1]; push_cast; omega, by simpa using h2, by simp [h3, hl]⟩

/-- C126: `Search`, `SearchFunc` and `Contains` call the function with the elements in order, up to and including the first for which it
answers true: none twice, none after the result. -/
theorem C126_search (p : T → Act S Bool) (l : List T) (s s' : S) (r : Int) (log : List T)
    (h : indexE (log1 p) l 0 (s, []) = some (r, (s', log))) :
    (r = -1 ∧ log = l) ∨ ∃ j : Nat, r = j ∧ j < l.length ∧ log = l.take (j + 1) := by
  rcases indexE_log l 0 _ _ r h with ⟨h1, h2⟩ | ⟨j, h1, h2, h3⟩
  · exact .inl ⟨h1, by simpa using h2⟩
  · exact .inr ⟨j, by simpa using h1, h2, by simpa using h3⟩

theorem searchAllE_log {p : T → Act S Bool} : ∀ (l : List T) (i : Nat) (acc r : List Nat) (s s' : S × List T),
    searchAllE (log1 p) l i acc s = some (r, s') → s'.2 = s.2 ++ l
  | [], i, acc, r, s, s', h => by
    simp only [searchAllE, Option.some.injEq, Prod.mk.injEq] at h
    obtain ⟨rfl, rfl⟩ := h
    simp
  | x :: l, i, acc, r, s, s', h => by
    simp only [searchAllE] at h
    split at h
    · cases h
    all_goals
      next s1 hc =>
        obtain ⟨_, hl⟩ := log1_some hc
        have := searchAllE_log l _ _ _ _ _ h
        rw [this, hl]; simp

/-- C126: `SearchAll` and `SearchAllFunc` call the function with every element once, in order. -/
theorem C126_searchAll (p : T → Act S Bool) (l : List T) (s s' : S) (r : List Nat) (log : List T)
    (h : searchAllE (log1 p) l 0 [] (s, []) = some (r, (s', log))) : log = l := by
  simpa using searchAllE_log l 0 [] r _ _ h

/-! ### Comparing two vectors -/

theorem compareE_log {cmp : T → T → Act S Int} : ∀ (l l' : List T) (s s' : S × List (T × T)) (r : Int),
    compareE (log2 cmp) l l' s = some (r, s') → ∃ k, k ≤ (l.zip l').length ∧ s'.2 = s.2 ++ (l.zip l').take k
  | [], [], s, s', r, h => by
    simp only [compareE, Option.some.injEq, Prod.mk.injEq] at h; obtain ⟨rfl, rfl⟩ := h; exact ⟨0, by simp, by simp⟩
  | [], _ :: _, s, s', r, h => by
    simp only [compareE, Option.some.injEq, Prod.mk.injEq] at h; obtain ⟨rfl, rfl⟩ := h; exact ⟨0, by simp, by simp⟩
  | _ :: _, [], s, s', r, h => by
    simp only [compareE, Option.some.injEq, Prod.mk.injEq] at h; obtain ⟨rfl, rfl⟩ := h; exact ⟨0, by simp, by simp⟩
  | a :: l, b :: l', s, s', r, h => by
    simp only [compareE] at h
    split at h
    · cases h
    next c s1 hc =>
      obtain ⟨_, hl⟩ := log2_some hc
      split at h
      · simp only [Option.some.injEq, Prod.mk.injEq] at h
        obtain ⟨rfl, rfl⟩ := h
        exact ⟨1, by simp, by simp [hl]⟩
      · obtain ⟨k, h1, h2⟩ := compareE_log l l' s1 s' r h
        exact ⟨k + 1, by simpa using h1, by simp [h2, hl]⟩

theorem equalLoopE_log {eq : T → T → Act S Bool} : ∀ (l l' : List T) (s s' : S × List (T × T)) (r : Bool),
    equalLoopE (log2 eq) l l' s = some (r, s') → ∃ k, k ≤ (l.zip l').length ∧ s'.2 = s.2 ++ (l.zip l').take k ∧ (r = true → k = (l.zip l').length)
  | [], l', s, s', r, h => by
    simp only [equalLoopE, Option.some.injEq, Prod.mk.injEq] at h; obtain ⟨rfl, rfl⟩ := h; exact ⟨0, by simp, by simp, by simp⟩
  | _ :: _, [], s, s', r, h => by
    simp only [equalLoopE, Option.some.injEq, Prod.mk.injEq] at h; obtain ⟨rfl, rfl⟩ := h; exact ⟨0, by simp, by simp, by simp⟩
  | a :: l, b :: l', s, s', r, h => by
    simp only [equalLoopE] at h
    split at h
    · cases h
    next s1 hc =>
      obtain ⟨_, hl⟩ := log2_some hc
      obtain ⟨k, h1, h2, h3⟩ := equalLoopE_log l l' s1 s' r h
      exact ⟨k + 1, by simpa using h1, by simp [h2, hl], fun hr => by simp [h3 hr]⟩
    next s1 hc =>
      obtain ⟨_, hl⟩ := log2_some hc
      simp only [Option.some.injEq, Prod.mk.injEq] at h
      obtain ⟨rfl, rfl⟩ := h
      exact ⟨1, by simp, by simp [hl], by simp⟩

/-- C126: `Compare` and `EqualVec` compare elements at the same position, from the first on, each at most once; `EqualVec` compares nothing
if the lengths differ, and everything if it answers true. -/
theorem C126_pairs (cmp : T → T → Act S Int) (eq : T → T → Act S Bool) (l l' : List T) (s s' : S) (log : List (T × T)) :
    (∀ r, compareE (log2 cmp) l l' (s, []) = some (r, (s', log)) → log <+: l.zip l') ∧
    (∀ r, equalE (log2 eq) l l' (s, []) = some (r, (s', log)) →
      log <+: l.zip l' ∧ (l.length ≠ l'.length → log = [] ∧ r = false) ∧ (r = true → log = l.zip l')) := by
  constructor
  · intro r h
    obtain ⟨k, _, h2⟩ := compareE_log l l' _ _ r h
    simp only [List.nil_append] at h2
    rw [h2]; exact List.take_prefix _ _
  · intro r h
    simp only [equalE] at h
    split at h
    next hne =>
      simp only [Option.some.injEq, Prod.mk.injEq] at h
      obtain ⟨rfl, rfl, rfl⟩ := h
      exact ⟨List.nil_prefix, fun _ => ⟨rfl, rfl⟩, by simp⟩
    next he =>
      obtain ⟨k, _, h2, h3⟩ := equalLoopE_log l l' _ _ r h
      simp only [List.nil_append] at h2
      refine ⟨by rw [h2]; exact List.take_prefix _ _, fun hn => absurd hn he, fun hr => ?_⟩
      rw [h2, h3 hr, List.take_length]

/-! ### Neighbours and extremes -/

theorem sortedE_log {cmp : T → T → Act S Int} {x : List T} : ∀ (n : Nat) (s s' : S × List (T × T)) (r : Bool), n < x.length →
    sortedE (log2 cmp) x n s = some (r, s') →
    ∃ k, k ≤ n ∧ (s'.2.length = s.2.length + k) ∧ (r = true → k = n) ∧ ∀ q ∈ s'.2, q ∈ s.2 ∨ ∃ i, x[i + 1]? = some q.1 ∧ x[i]? = some q.2
  | 0, s, s', r, _, h => by
    simp only [sortedE, Option.some.injEq, Prod.mk.injEq] at h
    obtain ⟨rfl, rfl⟩ := h
    exact ⟨0, Nat.le_refl _, rfl, fun _ => rfl, fun q hq => .inl hq⟩
  | n + 1, s, s', r, hn, h => by
    have e1 := List.getElem?_eq_getElem hn
    have e2 : x[n]? = some (x[n]'(by omega)) := List.getElem?_eq_getElem (by omega)
    simp only [sortedE, e1, e2] at h
    split at h
    · cases h
    next c s1 hc =>
      obtain ⟨_, hl⟩ := log2_some hc
      split at h
      · simp only [Option.some.injEq, Prod.mk.injEq] at h
        obtain ⟨rfl, rfl⟩ := h
        refine ⟨1, by omega, by rw [hl]; simp, by simp, fun q hq => ?_⟩
        rw [hl] at hq
        rcases List.mem_append.1 hq with hq | hq
        · exact .inl hq
        · simp only [List.mem_singleton] at hq; subst hq; exact .inr ⟨n, e1, e2⟩
      · obtain ⟨k, h1, h2, h3, h4⟩ := sortedE_log n s1 s' r (by omega) h
        refine ⟨k + 1, by omega, by rw [h2, hl]; simp; omega, fun hr => by rw [h3 hr], fun q hq => ?_⟩
        rcases h4 q hq with hq | hq
        · rw [hl] at hq
          rcases List.mem_append.1 hq with hq | hq
          · exact .inl hq
          · simp only [List.mem_singleton] at hq; subst hq; exact .inr ⟨n, e1, e2⟩
        · exact .inr hq

/-- C126: `IsSorted` of `n` elements makes at most `n - 1` comparisons, all of neighbours, and exactly `n - 1` if it answers true. -/
theorem C126_isSorted (cmp : T → T → Act S Int) (x : List T) (s s' : S) (r : Bool) (log : List (T × T))
    (h : sortedE (log2 cmp) x (x.length - 1) (s, []) = some (r, (s', log))) :
    log.length ≤ x.length - 1 ∧ (r = true → log.length = x.length - 1) ∧ ∀ q ∈ log, ∃ i, x[i + 1]? = some q.1 ∧ x[i]? = some q.2 := by
  cases hx : x with
  | nil =>
    rw [hx] at h
    cases h
    simp
  | cons a l =>
    rw [← hx]
    obtain ⟨k, h1, h2, h3, h4⟩ := sortedE_log (x.length - 1) _ _ r (by rw [hx]; simp) h
    simp only [List.length_nil, Nat.zero_add] at h2
    exact ⟨by omega, fun hr => by rw [h2, h3 hr], fun q hq => (h4 q hq).resolve_left (by simp)⟩

theorem extremeE_log {better : Int → Bool} {cmp : T → T → Act S Int} : ∀ (l : List T) (m r : T) (s s' : S × List (T × T)),
    extremeE better (log2 cmp) m l s = some (r, s') →
    (r = m ∨ r ∈ l) ∧ ∃ more, s'.2 = s.2 ++ more ∧ more.map Prod.fst = l ∧ ∀ q ∈ more, q.2 = m ∨ q.2 ∈ l
  | [], m, r, s, s', h => by
    simp only [extremeE, Option.some.injEq, Prod.mk.injEq] at h
    obtain ⟨rfl, rfl⟩ := h
    exact ⟨.inl rfl, [], by simp, rfl, by simp⟩
  | x :: l, m, r, s, s', h => by
    simp only [extremeE] at h
    split at h
    · cases h
    next c s1 hc =>
      obtain ⟨_, hl⟩ := log2_some hc
      obtain ⟨h1, more, h2, h3, h4⟩ := extremeE_log l _ r s1 s' h
      have hm : ∀ y, y = (if better c = true then x else m) → y = m ∨ y ∈ x :: l := by
        intro y hy; split at hy <;> simp [hy]
      refine ⟨?_, (x, m) :: more, by rw [h2, hl]; simp, by simp [h3], fun q hq => ?_⟩
      · rcases h1 with h1 | h1
        · exact hm _ h1
        · exact .inr (.tail _ h1)
      · rcases List.mem_cons.1 hq with rfl | hq
        · exact .inl rfl
        · rcases h4 q hq with h | h
          · exact hm _ h
          · exact .inr (.tail _ h)

/-- C126: `Max` and `Min` of `n` elements make `n - 1` comparisons, each element after the first being compared with an element before it
in turn; the result is an element of the vector, whatever the comparison function answers; for an empty vector they panic. -/
theorem C126_extremes (better : Int → Bool) (cmp : T → T → Act S Int) (x : List T) (s s' : S) (r : T) (log : List (T × T)) :
    (extremeOfE better (log2 cmp) x (s, []) = some (r, (s', log)) →
      r ∈ x ∧ log.length + 1 = x.length ∧ log.map Prod.fst = x.tail ∧ ∀ q ∈ log, q.2 ∈ x) ∧
    extremeOfE better cmp [] s = none := by
  refine ⟨fun h => ?_, rfl⟩
  cases x with
  | nil => cases h
  | cons a l =>
    simp only [extremeOfE] at h
    obtain ⟨h1, more, h2, h3, h4⟩ := extremeE_log l a r _ _ h
    simp only [List.nil_append] at h2
    subst h2
    refine ⟨by simpa using h1, ?_, h3, fun q hq => by simpa using h4 q hq⟩
    have := congrArg List.length h3
    simp at this
    simp [this]

/-! ### Functions without effects -/

/-- A function without effects, which may panic. -/
def noEff {R : Type} (o : Option R) : Act S R := fun s => o.map fun r => (r, s)

theorem indexE_pure (p : T → Option Bool) : ∀ (l : List T) (i : Nat) (s : S), indexE (fun x => noEff (p x)) l i s = (indexFunc p l i).map (·, s)
  | [], i, s => rfl
  | x :: l, i, s => by
    simp only [indexE, indexFunc, noEff]
    cases p x with
    | none => rfl
    | some b => cases b with
      | true => rfl
      | false => exact indexE_pure p l (i + 1) s

theorem searchAllE_pure (p : T → Option Bool) : ∀ (l : List T) (i : Nat) (acc : List Nat) (s : S),
    searchAllE (fun x => noEff (p x)) l i acc s = (searchAllLoop p l i acc).map (·, s)
  | [], i, acc, s => rfl
  | x :: l, i, acc, s => by
    simp only [searchAllE, searchAllLoop, noEff]
    cases p x with
    | none => rfl
    | some b => cases b with
      | true => exact searchAllE_pure p l (i + 1) _ s
      | false => exact searchAllE_pure p l (i + 1) _ s

theorem binE_pure (cmp : T → Option Int) (x : List T) : ∀ (n i j : Nat) (s : S), j - i ≤ n →
    binE (fun y => noEff (cmp y)) x i j s = (binLoop cmp x n i j).map (·, s)
  | 0, i, j, s, h => by
    rw [binE, binLoop, dif_neg (by omega), if_neg (by omega)]; rfl
  | n + 1, i, j, s, h => by
    rw [binE, binLoop]
    by_cases hlt : i < j
    · rw [dif_pos hlt, if_pos hlt]
      simp only
      cases hx : x[(i + j) / 2]? with
      | none => rfl
      | some y =>
        simp only [noEff]
        cases hc : cmp y with
        | none => simp [hc]
        | some c =>
          simp only [hc, Option.map_some, Option.bind_eq_bind, Option.bind_some]
          split
          · exact binE_pure cmp x n _ _ s (by omega)
          · exact binE_pure cmp x n _ _ s (by omega)
    · rw [dif_neg hlt, if_neg hlt]; rfl

theorem binarySearchE_pure (cmp : T → Option Int) (x : List T) (s : S) :
    binarySearchE (fun y => noEff (cmp y)) x s = (binarySearchFunc cmp x).map (·, s) := by
  rw [binarySearchE, binarySearchFunc, binE_pure cmp x x.length 0 x.length s (by omega)]
  cases binLoop cmp x x.length 0 x.length with
  | none => rfl
  | some i =>
    simp only [Option.map_some, Option.bind_eq_bind, Option.bind_some]
    cases hx : x[i]? with
    | none => rfl
    | some y =>
      simp only [noEff]
      cases hc : cmp y <;> rfl

theorem threeE_pure (less eq : Option (T → T → Bool)) (a b : T) (s : S) :
    threeE (fun a b => noEff (call less a b)) (fun a b => noEff (call eq a b)) a b s = (three? less eq a b).map (·, s) := by
  simp only [threeE, three?, noEff, call]
  cases less with
  | none => rfl
  | some f =>
    simp only [Option.map_some, Option.bind_eq_bind, Option.bind_some]
    cases hf : f a b with
    | true => rfl
    | false =>
      simp only [Bool.false_eq_true, if_false]
      cases eq with
      | none => rfl
      | some g => simp only [Option.map_some, Option.bind_some]; cases g a b <;> rfl

theorem compareE_pure (cmp : T → T → Option Int) : ∀ (l l' : List T) (s : S),
    compareE (fun a b => noEff (cmp a b)) l l' s = (compareLoop cmp l l').map (·, s)
  | [], [], s => rfl
  | [], _ :: _, s => rfl
  | _ :: _, [], s => rfl
  | a :: l, b :: l', s => by
    simp only [compareE, compareLoop, noEff]
    cases cmp a b with
    | none => rfl
    | some c =>
      simp only [Option.map_some, Option.bind_eq_bind, Option.bind_some]
      split
      · rfl
      · exact compareE_pure cmp l l' s

theorem equalE_pure (eq : T → T → Option Bool) (l l' : List T) (s : S) :
    equalE (fun a b => noEff (eq a b)) l l' s = (equalFunc eq l l').map (·, s) := by
  have key : ∀ (l l' : List T), equalLoopE (fun a b => noEff (eq a b)) l l' s = (equalLoop eq l l').map (·, s) := by
    intro l
    induction l with
    | nil => intro l'; cases l' <;> rfl
    | cons a l ih =>
      intro l'
      cases l' with
      | nil => rfl
      | cons b l' =>
        simp only [equalLoopE, equalLoop, noEff]
        cases eq a b with
        | none => rfl
        | some c => cases c with
          | true => exact ih l'
          | false => rfl
  simp only [equalE, equalFunc]
  split
  · rfl
  · exact key l l'

theorem sortedE_pure (cmp : T → T → Option Int) (x : List T) : ∀ (n : Nat) (s : S),
    sortedE (fun a b => noEff (cmp a b)) x n s = (sortedLoop cmp x n).map (·, s)
  | 0, s => rfl
  | n + 1, s => by
    simp only [sortedE, sortedLoop]
    cases h1 : x[n + 1]? with
    | none => rfl
    | some a =>
      cases h2 : x[n]? with
      | none => rfl
      | some b =>
        simp only [noEff, Option.bind_eq_bind, Option.bind_some]
        cases cmp a b with
        | none => rfl
        | some c =>
          simp only [Option.map_some, Option.bind_some]
          split
          · rfl
          · exact sortedE_pure cmp x n s

theorem extremeOfE_pure (cmp : T → T → Option Int) (x : List T) (s : S) :
    extremeOfE (fun c => decide (c < 0)) (fun a b => noEff (cmp a b)) x s = (minFunc cmp x).map (·, s) ∧
    extremeOfE (fun c => decide (c > 0)) (fun a b => noEff (cmp a b)) x s = (maxFunc cmp x).map (·, s) := by
  cases x with
  | nil => exact ⟨rfl, rfl⟩
  | cons a l =>
    simp only [extremeOfE, minFunc, maxFunc]
    constructor
    · induction l generalizing a with
      | nil => rfl
      | cons b l ih =>
        simp only [extremeE, minLoop, noEff]
        cases cmp b a with
        | none => rfl
        | some c =>
          simp only [Option.map_some, Option.bind_eq_bind, Option.bind_some, decide_eq_true_eq]
          by_cases hc : c < 0
          · simp only [hc, if_true]; exact ih b
          · simp only [hc, if_false]; exact ih a
    · induction l generalizing a with
      | nil => rfl
      | cons b l ih =>
        simp only [extremeE, maxLoop, noEff]
        cases cmp b a with
        | none => rfl
        | some c =>
          simp only [Option.map_some, Option.bind_eq_bind, Option.bind_some, decide_eq_true_eq]
          by_cases hc : c > 0
          · simp only [hc, if_true]; exact ih b
          · simp only [hc, if_false]; exact ih a

/-- C126: with functions that have no effects all this is what the methods of the model do. -/
theorem C126_pure (E : Elt T) (m : VMem T) (v w : Nat) (t : T) (s : S) :
    let less := fun a b => noEff (call (m.less E v) a b)
    let eq := fun a b => noEff (call (m.eq E v) a b)
    indexE (fun x => eq t x) (m.list v) 0 s = (m.search E v t).map (·, s) ∧
    searchAllE (fun x => eq t x) (m.list v) 0 [] s = (m.searchAll E v t).map (·, s) ∧
    binarySearchE (fun x => threeE less eq x t) (m.list v) s = (m.binarySearch E v t).map (·, s) ∧
    compareE (threeE less eq) (m.list v) (m.list w) s = (m.compare E v w).map (·, s) ∧
    equalE eq (m.list v) (m.list w) s = (m.equalVec E v w).map (·, s) ∧
    sortedE (threeE less eq) (m.list v) (m.len v - 1) s = (m.isSorted E v).map (·, s) ∧
    extremeOfE (fun c => decide (c > 0)) (threeE less eq) (m.list v) s = (m.max E v).map (·, s) ∧
    extremeOfE (fun c => decide (c < 0)) (threeE less eq) (m.list v) s = (m.min E v).map (·, s) := by
  have h3 : threeE (S := S) (fun a b => noEff (call (m.less E v) a b)) (fun a b => noEff (call (m.eq E v) a b)) =
      fun a b => noEff (three? (m.less E v) (m.eq E v) a b) := by
    funext a b s; exact threeE_pure _ _ a b s
  intro less eq
  simp only [less, eq]
  rw [h3]
  exact ⟨indexE_pure _ _ _ s, searchAllE_pure _ _ _ _ s, binarySearchE_pure _ _ s, compareE_pure _ _ _ s, equalE_pure _ _ _ s,
    sortedE_pure _ _ _ s, (extremeOfE_pure _ _ s).2, (extremeOfE_pure _ _ s).1⟩

/-! ### Examples -/

/-- A comparison with 5 that counts its calls and lies at the third. -/
def lying (x : Nat) : Act Nat Int := fun n => some (if n = 2 then 1 else (x : Int) - 5, n + 1)

/-- 5 is there, but not found, because the third comparison was wrong; four comparisons. -/
example : binarySearchE (log1 lying) [1, 2, 3, 4, 5, 6, 7, 8] (0, []) = some ((3, false), 4, [5, 3, 4, 4]) := by
  simp [binarySearchE, binE, log1, lying]
example : binarySearchE (log1 lying) [0, 1, 2, 4, 5, 6] (0, []) = some ((4, true), 4, [4, 6, 5, 5]) := by
  simp [binarySearchE, binE, log1, lying]
/-- The last call panics. -/
example : indexE (fun (x : Nat) (n : Nat) => if x = 3 then none else some (decide (x = 9), n + 1)) [1, 2, 3] 0 0 = none := by decide +kernel
example : indexE (log1 fun (x : Nat) (n : Nat) => some (decide (x = 2), n + 1)) [1, 2, 3] 0 (0, []) = some (1, 2, [1, 2]) := by decide +kernel
example : sortedE (log2 fun (a b : Nat) (n : Nat) => some ((a : Int) - b, n + 1)) [1, 3, 2, 4] 3 (0, []) = some (false, 2, [(4, 2), (2, 3)]) := by
  decide +kernel
end Verif.Vec
