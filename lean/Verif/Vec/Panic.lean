import Verif.Lib.Pan
import Mathlib.Data.List.Perm.Basic
/-!
# Sorting and compacting a vector with comparison functions that have effects and panic (C165)

`Effects.lean` is on the methods that only look at the vector. Here those that change it: the comparison functions may do anything to a state `S` outside the vector,
answer as they like, and panic; a panic leaves the vector as it is at that moment. `l` is what the vector shows.
-/
namespace Verif.Vec.Panic
variable {T S : Type}

/-- The vector and everything else. -/
structure St (T S : Type) where
  l : List T
  s : S

/-- A function of the user. -/
def call {R : Type} (f : Pan S R) : Pan (St T S) R := ⟨fun x => (⟨x.l, (f.run x.s).1⟩, (f.run x.s).2)⟩

/-- The loop of `slices.CompactFunc`: `i` the next free place, `k` the next element to look at, `n` elements left. -/
def compactLoop (eq : T → T → Pan S Bool) : Nat → Nat → Nat → Pan (St T S) Nat
  | 0, i, _ => pure i
  | n + 1, i, k => do
    let l ← Pan.read fun x => x.l
    match l[k]?, l[k - 1]? with
    | some a, some b =>
      let e ← call (eq a b)
      if e then compactLoop eq n i (k + 1)
      else
        Pan.change fun x => if i = k then x else ⟨x.l.set i a, x.s⟩
        compactLoop eq n (i + 1) (k + 1)
    | _, _ => Pan.raise

/-- `slices.CompactFunc`, and `v.d = …` when it returns: `Compact` (vec.go:332-335), `CompactFunc` (340-342). -/
def compact (eq : T → T → Pan S Bool) : Pan (St T S) Unit := do
  let l ← Pan.read fun x => x.l
  if l.length < 2 then pure ()
  else
    let i ← compactLoop eq (l.length - 1) 1 1
    Pan.change fun x => ⟨x.l.take i, x.s⟩

/-- The function that `SortFunc` and `SortStableFunc` pass on: vec.go:466-474, 485-493. -/
def three (less eq : T → T → Pan S Bool) (a b : T) : Pan S Int := do
  if ← less a b then pure (-1)
  else if ← eq a b then pure 0
  else pure 1

/-- What `slices.SortFunc` and `slices.SortStableFunc` do with the slice: they compare two of its elements and go on by the sign of the result, or exchange two. -/
inductive Sorter
  | done
  | cmp (i j : Nat) (go : Bool → Sorter)
  | swap (i j : Nat) (go : Sorter)

def swapAt (l : List T) (i j : Nat) : List T :=
  match l[i]?, l[j]? with
  | some a, some b => (l.set i b).set j a
  | _, _ => l

def Sorter.run (cmp : T → T → Pan S Int) : Sorter → Pan (St T S) Unit
  | .done => pure ()
  | .cmp i j go => do
    let l ← Pan.read fun x => x.l
    match l[i]?, l[j]? with
    | some a, some b =>
      let c ← call (cmp a b)
      (go (decide (c < 0))).run cmp
    | _, _ => Pan.raise
  | .swap i j go => do
    Pan.change fun x => ⟨swapAt x.l i j, x.s⟩
    go.run cmp

/-- `SortFunc`, `SortStableFunc` (vec.go:465-476, 484-495): `p n` is what the library does with `n` elements. -/
def sort (p : Nat → Sorter) (less eq : T → T → Pan S Bool) : Pan (St T S) Unit := do
  let l ← Pan.read fun x => x.l
  (p l.length).run (three less eq)

/-- `Remove` for an index that is there: vec.go:128-141. -/
def removeAt (i : Nat) : Pan (St T S) (Option T) := do
  let l ← Pan.read fun x => x.l
  match l[i]? with
  | some a =>
    Pan.change fun x => ⟨x.l.eraseIdx i, x.s⟩
    pure (some a)
  | none => pure none

/-- `ConpareAndRemove`: vec.go:283-291. -/
def compareAndRemove (eq : T → T → Pan S Bool) (i : Int) (val : T) : Pan (St T S) (Option T) := do
  let l ← Pan.read fun x => x.l
  if i < 0 ∨ i ≥ l.length then pure none
  else match l[i.toNat]? with
    | some a =>
      if ← call (eq a val) then removeAt i.toNat
      else pure none
    | none => Pan.raise

/-! ## Specification -/

/-- `eq` is called with these pairs, one after the other, and gives these answers. -/
inductive Asks (eq : T → T → Pan S Bool) : List (T × T) → S → List Bool → S → Prop
  | nil {s} : Asks eq [] s [] s
  | snoc {ps s as s1 a b e s2} : Asks eq ps s as s1 → (eq a b).run s1 = (s2, some e) → Asks eq (ps ++ [(a, b)]) s (as ++ [e]) s2

/-- The elements whose answer is "not equal". -/
def pick : List T → List Bool → List T
  | a :: l, e :: as => if e then pick l as else a :: pick l as
  | [], _ => []
  | _ :: _, [] => []

/-! ## Compacting -/

theorem pick_snoc {xs : List T} {as : List Bool} {a : T} (h : xs[as.length]? = some a) (e : Bool) : pick xs (as ++ [e]) = pick xs as ++ if e then [] else [a] := by
  induction xs generalizing as with
  | nil => simp at h
  | cons x xs ih =>
    cases as with
    | nil => simp at h; subst h; cases xs <;> cases e <;> simp [pick]
    | cons b as =>
      have := ih (as := as) (by simpa using h)
      cases b <;> simp [pick, this]

theorem pick_length (xs : List T) (as : List Bool) : (pick xs as).length ≤ as.length := by
  induction xs generalizing as with
  | nil => simp [pick]
  | cons x xs ih =>
    cases as with
    | nil => simp [pick]
    | cons b as => cases b <;> simp [pick] <;> have := ih as <;> omega

theorem pick_all {xs : List T} {as : List Bool} (h : (pick xs as).length = as.length) : pick xs as = xs.take as.length := by
  induction xs generalizing as with
  | nil => simp [pick]
  | cons x xs ih =>
    cases as with
    | nil => simp [pick]
    | cons b as =>
      cases b
      · simp [pick] at h ⊢; exact ih h
      · have := pick_length xs as
        simp [pick] at h; omega

theorem Asks.length {eq : T → T → Pan S Bool} {ps s as s'} (h : Asks eq ps s as s') : as.length = ps.length := by
  induction h with
  | nil => rfl
  | snoc _ _ ih => simp [ih]

/-- What is behind `x` after the answers `as`, the vector not cut yet. -/
def left (x : T) (xs : List T) (as : List Bool) : List T := (x :: pick xs as) ++ (x :: xs).drop ((pick xs as).length + 1)

theorem loop {eq : T → T → Pan S Bool} {x : T} {xs : List T} {s0 : S} : ∀ {n : Nat} {as : List Bool} {s : S}, as.length + n = xs.length →
    Asks eq ((xs.zip (x :: xs)).take as.length) s0 as s →
    (∃ as' s', Asks eq (xs.zip (x :: xs)) s0 as' s' ∧
      (compactLoop eq n ((pick xs as).length + 1) (as.length + 1)).run ⟨left x xs as, s⟩ = (⟨left x xs as', s'⟩, some ((pick xs as').length + 1))) ∨
    (∃ as' s1 s' a b, Asks eq ((xs.zip (x :: xs)).take as'.length) s0 as' s1 ∧ xs[as'.length]? = some a ∧ (x :: xs)[as'.length]? = some b ∧
      (eq a b).run s1 = (s', none) ∧
      (compactLoop eq n ((pick xs as).length + 1) (as.length + 1)).run ⟨left x xs as, s⟩ = (⟨left x xs as', s'⟩, none)) := by
  intro n
  induction n with
  | zero =>
    intro as s hn ha
    refine .inl ⟨as, s, ?_, rfl⟩
    rwa [List.take_of_length_le (by simp; omega)] at ha
  | succ n ih =>
    intro as s hn ha
    have hlt : as.length < xs.length := by omega
    have h1 : xs[as.length]? = some xs[as.length] := List.getElem?_eq_getElem hlt
    have hlt' : as.length < (x :: xs).length := by simp; omega
    have h2 : (x :: xs)[as.length]? = some (x :: xs)[as.length] := List.getElem?_eq_getElem hlt'
    have hp := pick_length xs as
    have e1 : (left x xs as)[as.length + 1]? = some xs[as.length] := by
      rw [left, List.getElem?_append_right (by simp; omega), List.getElem?_drop, ← h1]
      rw [show (pick xs as).length + 1 + (as.length + 1 - (x :: pick xs as).length) = as.length + 1 by simp; omega]
      rfl
    have e2 : (left x xs as)[as.length + 1 - 1]? = some (x :: xs)[as.length] := by
      rw [Nat.add_sub_cancel, ← h2]
      rcases Nat.lt_or_ge (pick xs as).length as.length with hl | hl
      · rw [left, List.getElem?_append_right (by simp; omega), List.getElem?_drop]
        rw [show (pick xs as).length + 1 + (as.length - (x :: pick xs as).length) = as.length by simp; omega]
      · have he : (pick xs as).length = as.length := by omega
        rw [left, List.getElem?_append_left (by simp; omega), pick_all he]
        rw [show x :: xs.take as.length = (x :: xs).take (as.length + 1) from rfl, List.getElem?_take_of_lt (Nat.lt_succ_self _)]
    have hstep : (compactLoop eq (n + 1) ((pick xs as).length + 1) (as.length + 1)).run ⟨left x xs as, s⟩ =
        match (eq xs[as.length] (x :: xs)[as.length]).run s with
        | (s', none) => (⟨left x xs as, s'⟩, none)
        | (s', some true) => (compactLoop eq n ((pick xs as).length + 1) (as.length + 1 + 1)).run ⟨left x xs as, s'⟩
        | (s', some false) => (compactLoop eq n ((pick xs as).length + 1 + 1) (as.length + 1 + 1)).run
            (if (pick xs as).length + 1 = as.length + 1 then ⟨left x xs as, s'⟩ else ⟨(left x xs as).set ((pick xs as).length + 1) xs[as.length], s'⟩) := by
      simp only [compactLoop, Pan.run_bind, Pan.run_read, e1, e2, call]
      rcases (eq xs[as.length] (x :: xs)[as.length]).run s with ⟨s', _ | _ | _⟩ <;> rfl
    rw [hstep]
    rcases he : (eq xs[as.length] (x :: xs)[as.length]).run s with ⟨s', _ | e⟩
    · exact .inr ⟨as, s, s', _, _, ha, h1, h2, he, rfl⟩
    · have hz : (xs.zip (x :: xs)).take (as ++ [e]).length = (xs.zip (x :: xs)).take as.length ++ [(xs[as.length], (x :: xs)[as.length])] := by
        rw [List.length_append, List.length_singleton, List.take_add_one]
        congr 1
        rw [List.getElem?_eq_getElem (by simp; omega)]
        simp
      have ha' : Asks eq ((xs.zip (x :: xs)).take (as ++ [e]).length) s0 (as ++ [e]) s' := by
        rw [hz]; exact ha.snoc he
      have hn' : (as ++ [e]).length + n = xs.length := by simp; omega
      have key := ih hn' ha'
      have hpk := pick_snoc h1 e
      cases e
      · have hl : left x xs (as ++ [false]) = if (pick xs as).length + 1 = as.length + 1 then left x xs as else (left x xs as).set ((pick xs as).length + 1) xs[as.length] := by
          simp only [left, hpk, Bool.false_eq_true, if_false]
          by_cases hh : (pick xs as).length = as.length
          · simp only [List.length_append, List.length_singleton, hh, List.drop_succ_cons, if_true]
            rw [List.drop_eq_getElem_cons hlt]; simp
          · have : (pick xs as).length < xs.length := by omega
            rw [if_neg (by omega), List.set_append_right _ _ (by simp)]
            simp only [List.length_append, List.length_singleton, List.drop_succ_cons, List.length_cons, Nat.sub_self]
            rw [List.drop_eq_getElem_cons this, List.set_cons_zero]; simp
        have hlen : (pick xs (as ++ [false])).length = (pick xs as).length + 1 := by rw [hpk]; simp
        rw [hlen, hl, List.length_append, List.length_singleton] at key
        simp only
        by_cases hh : (pick xs as).length + 1 = as.length + 1
        · simp only [hh, if_true] at key ⊢; exact key
        · simp only [hh, if_false] at key ⊢; exact key
      · have hq : pick xs (as ++ [true]) = pick xs as := by rw [hpk]; simp
        have hl : left x xs (as ++ [true]) = left x xs as := by simp only [left, hq]
        rw [hq, hl, List.length_append, List.length_singleton] at key
        exact key

/-- **C165**, `Compact` and `CompactFunc`: the function is called with each element and the one before, in order, as they were at the beginning. If no call panics the
vector is left with the first element and those that differ from the one before. If one panics, then with these so far, and behind them what was at these places. -/
theorem C165_compact (eq : T → T → Pan S Bool) (x : T) (xs : List T) (s : S) :
    (∃ as s', Asks eq (xs.zip (x :: xs)) s as s' ∧ (compact eq).run ⟨x :: xs, s⟩ = (⟨x :: pick xs as, s'⟩, some ())) ∨
    (∃ as s1 s' a b, Asks eq ((xs.zip (x :: xs)).take as.length) s as s1 ∧ xs[as.length]? = some a ∧ (x :: xs)[as.length]? = some b ∧ (eq a b).run s1 = (s', none) ∧
      (compact eq).run ⟨x :: xs, s⟩ = (⟨(x :: pick xs as) ++ xs.drop (pick xs as).length, s'⟩, none)) := by
  cases xs with
  | nil => exact .inl ⟨[], s, .nil, rfl⟩
  | cons y ys =>
    have hlen : ¬ (x :: y :: ys).length < 2 := by simp
    have hr : (compact eq).run ⟨x :: y :: ys, s⟩ = match (compactLoop eq (y :: ys).length 1 1).run ⟨x :: y :: ys, s⟩ with
        | (st, some i) => (⟨st.l.take i, st.s⟩, some ())
        | (st, none) => (st, none) := by
      simp only [compact, Pan.run_bind, Pan.run_read, hlen, if_false, Pan.run_change]
      rw [show (x :: y :: ys).length - 1 = (y :: ys).length from rfl]
      rcases (compactLoop eq (y :: ys).length 1 1).run ⟨x :: y :: ys, s⟩ with ⟨st, _ | i⟩ <;> rfl
    have h0 : left x (y :: ys) [] = x :: y :: ys := by simp [left, pick]
    rcases loop (eq := eq) (x := x) (xs := y :: ys) (s0 := s) (n := (y :: ys).length) (as := []) (s := s) (by simp) (by simpa using .nil) with
      ⟨as, s', h1, h2⟩ | ⟨as, s1, s', a, b, h1, h2, h3, h4, h5⟩
    · rw [h0] at h2
      refine .inl ⟨as, s', h1, ?_⟩
      rw [hr, show compactLoop eq (y :: ys).length 1 1 = compactLoop eq (y :: ys).length ((pick (y :: ys) []).length + 1) (([] : List Bool).length + 1) from rfl, h2]
      simp only [left]
      rw [List.take_append_of_le_length (by simp), List.take_of_length_le (by simp)]
    · rw [h0] at h5
      refine .inr ⟨as, s1, s', a, b, h1, h2, h3, h4, ?_⟩
      rw [hr, show compactLoop eq (y :: ys).length 1 1 = compactLoop eq (y :: ys).length ((pick (y :: ys) []).length + 1) (([] : List Bool).length + 1) from rfl, h5]
      rfl

theorem compact_nil (eq : T → T → Pan S Bool) (s : S) : (compact eq).run ⟨[], s⟩ = (⟨[], s⟩, some ()) := rfl

/-- One would like: a comparison that panics leaves the elements of the vector. -/
def C165_statement : Prop := ∀ (eq : Nat → Nat → Pan Unit Bool) (l : List Nat) (st : St Nat Unit), (compact eq).run ⟨l, ()⟩ = (st, none) → st.l.Perm l

/-- A comparison that panics when it sees 3 leaves 1 2 2 3 of 1 1 2 3. -/
theorem C165_false : ¬ C165_statement := by
  intro h
  have := h (fun a b => if a = 3 then Pan.raise else pure (decide (a = b))) [1, 1, 2, 3] ⟨[1, 2, 2, 3], ()⟩ (by rfl)
  exact absurd (this.count_eq 1) (by decide)

/-! ## Sorting -/

theorem swapAt_perm (l : List T) (i j : Nat) : (swapAt l i j).Perm l := by
  unfold swapAt
  split
  · next a b h1 h2 =>
    obtain ⟨hi, rfl⟩ := List.getElem?_eq_some_iff.mp h1
    obtain ⟨hj, rfl⟩ := List.getElem?_eq_some_iff.mp h2
    exact List.set_set_perm hi hj
  · exact .rfl

theorem sorter_perm (cmp : T → T → Pan S Int) (p : Sorter) (st : St T S) : ((p.run cmp).run st).1.l.Perm st.l := by
  induction p generalizing st with
  | done => exact .rfl
  | cmp i j go ih =>
    simp only [Sorter.run, Pan.run_bind, Pan.run_read, call]
    split
    · next a b _ _ =>
      simp only [Pan.run_bind]
      rcases (cmp a b).run st.s with ⟨s', _ | c⟩
      · exact .rfl
      · exact ih _ ⟨st.l, s'⟩
    · exact .rfl
  | swap i j go ih => exact (ih ⟨swapAt st.l i j, st.s⟩).trans (swapAt_perm ..)

/-- **C165**, sorting: whatever the comparison functions do, the vector has the elements it had. Missing: `Compact` (`C165_false`; exactly in `C165_compact`). -/
theorem C165_sort_partial (p : Nat → Sorter) (less eq : T → T → Pan S Bool) (st : St T S) : ((sort p less eq).run st).1.l.Perm st.l :=
  sorter_perm _ _ st

/-- A run of a sorting function, by the calls it makes: each comparison of `a` and `b` calls `less(a, b)`; an answer of true ends it, otherwise `equal(a, b)` is called, whose answer
does not matter. A panic of either ends the sort, with the elements where they are. -/
inductive Sorting (less eq : T → T → Pan S Bool) : Sorter → List T → S → List T → S → Option Unit → Prop
  | done {l s} : Sorting less eq .done l s l s (some ())
  | swap {i j go l s l' s' r} : Sorting less eq go (swapAt l i j) s l' s' r → Sorting less eq (.swap i j go) l s l' s' r
  | less {i j go l s a b s1 l' s' r} : l[i]? = some a → l[j]? = some b → (less a b).run s = (s1, some true) →
      Sorting less eq (go true) l s1 l' s' r → Sorting less eq (.cmp i j go) l s l' s' r
  | notLess {i j go l s a b s1 s2 e l' s' r} : l[i]? = some a → l[j]? = some b → (less a b).run s = (s1, some false) → (eq a b).run s1 = (s2, some e) →
      Sorting less eq (go false) l s2 l' s' r → Sorting less eq (.cmp i j go) l s l' s' r
  | lessPanics {i j go l s a b s1} : l[i]? = some a → l[j]? = some b → (less a b).run s = (s1, none) → Sorting less eq (.cmp i j go) l s l s1 none
  | eqPanics {i j go l s a b s1 s2} : l[i]? = some a → l[j]? = some b → (less a b).run s = (s1, some false) → (eq a b).run s1 = (s2, none) →
      Sorting less eq (.cmp i j go) l s l s2 none
  | outside {i j go l s} : l[i]? = none ∨ l[j]? = none → Sorting less eq (.cmp i j go) l s l s none

/-- **C165**, sorting: which comparison functions are called, in which order, and what a panic leaves. -/
theorem C165_sort_calls (p : Nat → Sorter) (less eq : T → T → Pan S Bool) (l : List T) (s : S) :
    Sorting less eq (p l.length) l s ((sort p less eq).run ⟨l, s⟩).1.l ((sort p less eq).run ⟨l, s⟩).1.s ((sort p less eq).run ⟨l, s⟩).2 := by
  simp only [sort, Pan.run_bind, Pan.run_read]
  generalize p l.length = q
  induction q generalizing l s with
  | done => exact .done
  | swap i j go ih => exact .swap (ih (swapAt l i j) s)
  | cmp i j go ih =>
    simp only [Sorter.run, Pan.run_bind, Pan.run_read, call]
    cases hi : l[i]? with
    | none => exact .outside (.inl hi)
    | some a =>
      cases hj : l[j]? with
      | none => exact .outside (.inr hj)
      | some b =>
        simp only [three, Pan.run_bind]
        cases hl : (less a b).run s with
        | mk s1 o =>
          cases o with
          | none => exact .lessPanics hi hj hl
          | some c =>
            cases c with
            | true => exact .less hi hj hl (ih true l s1)
            | false =>
              simp only [Bool.false_eq_true, if_false, Pan.run_bind]
              cases he : (eq a b).run s1 with
              | mk s2 o =>
                cases o with
                | none => exact .eqPanics hi hj hl he
                | some c =>
                  cases c with
                  | true => exact .notLess hi hj hl he (ih false l s2)
                  | false => exact .notLess hi hj hl he (ih false l s2)

/-- **C165**, `ConpareAndRemove`: one call, before anything changes. -/
theorem C165_compareAndRemove (eq : T → T → Pan S Bool) (l : List T) (s : S) (val : T) (i : Int) :
    (∀ a, 0 ≤ i → l[i.toNat]? = some a → (compareAndRemove eq i val).run ⟨l, s⟩ = match (eq a val).run s with
      | (s', none) => (⟨l, s'⟩, none)
      | (s', some true) => (⟨l.eraseIdx i.toNat, s'⟩, some (some a))
      | (s', some false) => (⟨l, s'⟩, some none)) ∧
    ((i < 0 ∨ (l.length : Int) ≤ i) → (compareAndRemove eq i val).run ⟨l, s⟩ = (⟨l, s⟩, some none)) := by
  refine ⟨fun a hi ha => ?_, fun h => ?_⟩
  · have hlt := (List.getElem?_eq_some_iff.mp ha).1
    have hc : ¬ (i < 0 ∨ i ≥ l.length) := by omega
    simp only [compareAndRemove, Pan.run_bind, Pan.run_read, hc, if_false, ha, call]
    rcases (eq a val).run s with ⟨s', _ | _ | _⟩
    · rfl
    · rfl
    · simp only [if_true, removeAt, Pan.run_bind, Pan.run_read, ha]; rfl
  · have hc : i < 0 ∨ i ≥ l.length := h
    simp only [compareAndRemove, Pan.run_bind, Pan.run_read, hc, if_true]; rfl

/-- A function that counts and panics at the third call. -/
def exEq (a b : Nat) : Pan Nat Bool := ⟨fun n => (n + 1, if n = 2 then none else some (decide (a = b)))⟩

example : (compact exEq).run ⟨[5, 5, 7], 0⟩ = (⟨[5, 7], 2⟩, some ()) ∧ (compact exEq).run ⟨[5, 5, 7, 7], 0⟩ = (⟨[5, 7, 7, 7], 3⟩, none) := ⟨by rfl, by rfl⟩

/-- Notes the calls; `less` panics for 9. -/
def exLess (a b : Nat) : Pan (List (Bool × Nat × Nat)) Bool := ⟨fun w => (w ++ [(true, a, b)], if b = 9 then none else some (decide (a < b)))⟩
def exSame (a b : Nat) : Pan (List (Bool × Nat × Nat)) Bool := ⟨fun w => (w ++ [(false, a, b)], some (decide (a = b)))⟩
/-- Sorts two elements; then looks at the third. -/
def exSorter : Sorter := .cmp 1 0 fun lt => if lt then .swap 0 1 (.cmp 0 2 fun _ => .done) else .cmp 0 2 fun _ => .done

def exRun (l : List Nat) : List Nat × List (Bool × Nat × Nat) × Bool :=
  let r := (sort (fun _ => exSorter) exLess exSame).run ⟨l, []⟩
  (r.1.l, r.1.s, r.2.isSome)

example : exRun [5, 3, 4] = ([3, 5, 4], [(true, 3, 5), (true, 3, 4)], true) ∧
    exRun [3, 5, 9] = ([3, 5, 9], [(true, 5, 3), (false, 5, 3), (true, 3, 9)], false) := by decide +kernel

end Verif.Vec.Panic
