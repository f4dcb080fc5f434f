/-!
# Specification of `vec`: sequences

A vector is a list together with two comparison functions.  `spec` says what each method that may
change something does to the lists; the methods that only look are specified in `Props.lean`.
-/
namespace Verif.Vec

/-- Where a vector gets a comparison function from: detected from the element type, given by the
user, or (for the results of `Clone` and `SplitOff`) that of another, older vector. -/
inductive Cmp (T : Type) where
  | auto
  | fn (f : T → T → Bool)
  | same (v : Nat)

/-- What is assumed of the comparison handed to a sorting function. -/
structure SWO {T : Type} (cmp : T → T → Int) : Prop where
  irrefl : ∀ a, ¬ cmp a a < 0
  trans : ∀ a b c, cmp a b < 0 → cmp b c < 0 → cmp a c < 0
  incomp : ∀ a b c, ¬ cmp a b < 0 → ¬ cmp b a < 0 → ¬ cmp b c < 0 → ¬ cmp c b < 0 →
    ¬ cmp a c < 0 ∧ ¬ cmp c a < 0

/-- `a` and `b` are equivalent under the comparison. -/
def equivB {T : Type} (cmp : T → T → Int) (a b : T) : Bool := decide (¬ cmp a b < 0) && decide (¬ cmp b a < 0)

/-- What a sorting function does, given a comparison that may panic (`none`) and a list; `none`: it panics.  It moves
elements only; it panics only if the comparison does, and if the comparison always does and there is something to
compare; and it sorts, if the comparison is a strict weak order on the elements of the list. -/
structure Sorts {T : Type} (f : (T → T → Option Int) → List T → Option (List T)) : Prop where
  short : ∀ cmp l, l.length < 2 → f cmp l = some l
  perm : ∀ cmp l l', f cmp l = some l' → l'.Perm l
  total : ∀ cmp l, (∀ a ∈ l, ∀ b ∈ l, cmp a b ≠ none) → f cmp l ≠ none
  panic : ∀ cmp l, 2 ≤ l.length → (∀ a b, cmp a b = none) → f cmp l = none
  sorted : ∀ (cmp : T → T → Int) l l', SWO (fun a b : {x // x ∈ l} => cmp a b) →
    f (fun a b => some (cmp a b)) l = some l' → l'.Pairwise (fun a b => ¬ cmp b a < 0)

/-- The contract of the sorting functions of package `slices`. -/
structure SortImpl (T : Type) where
  sort : (T → T → Option Int) → List T → Option (List T)
  sort_ok : Sorts sort
  stable : (T → T → Option Int) → List T → Option (List T)
  stable_ok : Sorts stable
  stable_stable : ∀ (cmp : T → T → Int) l l', SWO (fun a b : {x // x ∈ l} => cmp a b) →
    stable (fun a b => some (cmp a b)) l = some l' → ∀ x ∈ l, l'.filter (equivB cmp x) = l.filter (equivB cmp x)

/-- The three-way comparison built from two comparison functions, each of which may be missing (then calling it
panics). -/
def three? {T : Type} (less eq : Option (T → T → Bool)) (a b : T) : Option Int := do
  let less ← less
  if less a b then some (-1)
  else
    let eq ← eq
    some (if eq a b then 0 else 1)

/-- The methods that may change a vector, with the receiver first, and the constructor. -/
inductive Mut (T : Type) where
  | new (less eq : Option (T → T → Bool))
  | setCmpLess (v : Nat) (f : Option (T → T → Bool))
  | setCmpEqual (v : Nat) (f : Option (T → T → Bool))
  | push (v : Nat) (xs : List T)
  | pop (v : Nat)
  | remove (v : Nat) (i : Int)
  | set (v : Nat) (i : Int) (x : T)
  | clear (v : Nat)
  | cut (v : Nat) (i j : Int)
  | splitOff (v : Nat) (i : Int)
  | swap (v : Nat) (i j : Int)
  | compareAndRemove (v : Nat) (i : Int) (x : T)
  | grow (v : Nat) (n : Int)
  | clip (v : Nat)
  | clone (v : Nat)
  | compact (v : Nat)
  | compactFunc (v : Nat) (eq : T → T → Bool)
  | delete (v : Nat) (i j : Int)
  | insert (v : Nat) (i : Int) (xs : List T)
  | replace (v : Nat) (i j : Int) (xs : List T)
  | reverse (v : Nat)
  | sort (v : Nat)
  | sortFunc (v : Nat) (less eq : T → T → Bool)
  | sortStable (v : Nat)
  | sortStableFunc (v : Nat) (less eq : T → T → Bool)

/-- A slice: array, offset, length, capacity. -/
structure Slice where
  a : Nat
  off : Nat
  len : Nat
  cap : Nat

/-- Results. -/
inductive Res (T : Type) where
  | unit
  | elem (e : T) (ok : Bool)
  | bool (b : Bool)
  | slice (s : Option Slice)
  | vec (v : Nat)

structure SState (T : Type) where
  l : Nat → List T
  less : Nat → Cmp T
  eq : Nat → Cmp T
  n : Nat

def SState.empty {T : Type} : SState T :=
  { l := fun _ => [], less := fun _ => .auto, eq := fun _ => .auto, n := 0 }

def ofOpt {T : Type} : Option (T → T → Bool) → Cmp T
  | none => .auto
  | some f => .fn f

/-- The comparison function of vector `v`; `none`: every comparison panics.  `dflt` is what is
detected from the element type.  (`fuel` bounds the chain of clones.) -/
def resolve {T : Type} (dflt : Option (T → T → Bool)) (c : Nat → Cmp T) : Nat → Nat → Option (T → T → Bool)
  | 0, _ => none
  | fuel + 1, v =>
    match c v with
    | .auto => dflt
    | .fn f => some f
    | .same w => resolve dflt c fuel w

/-- Three-way comparison from less and equal. -/
def three {T : Type} (less eq : T → T → Bool) (a b : T) : Int :=
  if less a b then -1 else if eq a b then 0 else 1

/-- Drop each element that equals its left neighbour. -/
def dedup {T : Type} (eq : T → T → Bool) : List T → List T
  | [] => []
  | x :: l => x :: go x l
where
  go (prev : T) : List T → List T
    | [] => []
    | y :: l => if eq y prev then go y l else y :: go y l

section
variable {T : Type}

/-- What the types of the elements determine: the zero value and the comparisons detected for the
type (`none`: comparing panics). -/
structure Elt (T : Type) where
  zero : T
  less : Option (T → T → Bool)
  eq : Option (T → T → Bool)

def SState.put (s : SState T) (v : Nat) (l : List T) : SState T :=
  { s with l := fun w => if w = v then l else s.l w }

/-- `0 ≤ i < n`. -/
abbrev inR (i : Int) (n : Nat) : Prop := 0 ≤ i ∧ i < n
/-- `0 ≤ i ≤ j ≤ n`. -/
abbrev span (i j : Int) (n : Nat) : Prop := 0 ≤ i ∧ i ≤ j ∧ j ≤ n


def swapL (l : List T) (i j : Nat) : List T :=
  match l[i]?, l[j]? with
  | some x, some y => (l.set i y).set j x
  | _, _ => l

def SState.lessOf (E : Elt T) (s : SState T) (v : Nat) : Option (T → T → Bool) :=
  resolve E.less s.less (v + 1) v
def SState.eqOf (E : Elt T) (s : SState T) (v : Nat) : Option (T → T → Bool) :=
  resolve E.eq s.eq (v + 1) v

/-- The vector with `l`, whose comparison functions are those of `v`. -/
def SState.addLike (s : SState T) (v : Nat) (l : List T) : SState T :=
  { l := fun w => if w = s.n then l else s.l w
    less := fun w => if w = s.n then .same v else s.less w
    eq := fun w => if w = s.n then .same v else s.eq w
    n := s.n + 1 }

/-- Remove element `i`. -/
def remAt (E : Elt T) (s : SState T) (v : Nat) (i : Int) : SState T × (Res T → Prop) :=
  if inR i (s.l v).length then
    (s.put v ((s.l v).eraseIdx i.toNat), (· = .elem ((s.l v)[i.toNat]?.getD E.zero) true))
  else (s, (· = .elem E.zero false))

/-- One call; `none`: it panics. -/
def spec (E : Elt T) (P : SortImpl T) (s : SState T) : Mut T → Option (SState T × (Res T → Prop))
  | .new less eq => some (
      { l := fun w => if w = s.n then [] else s.l w
        less := fun w => if w = s.n then ofOpt less else s.less w
        eq := fun w => if w = s.n then ofOpt eq else s.eq w
        n := s.n + 1 }, (· = .vec s.n))
  | .setCmpLess v f => some ({ s with less := fun w => if w = v then ofOpt f else s.less w }, (· = .unit))
  | .setCmpEqual v f => some ({ s with eq := fun w => if w = v then ofOpt f else s.eq w }, (· = .unit))
  | .push v xs => some (s.put v (s.l v ++ xs), (· = .unit))
  | .pop v => some (remAt E s v ((s.l v).length - 1))
  | .remove v i => some (remAt E s v i)
  | .set v i x =>
    if inR i (s.l v).length then some (s.put v ((s.l v).set i.toNat x), (· = .bool true))
    else some (s, (· = .bool false))
  | .clear v => some (s.put v [], (· = .unit))
  | .cut v i j =>
    if span i j (s.l v).length then
      some (s.put v ((s.l v).take i.toNat ++ (s.l v).drop j.toNat),
        fun r => ∃ sl, r = .slice (some sl) ∧ sl.len = (j - i).toNat)
    else some (s, (· = .slice none))
  | .splitOff v i =>
    if span i (s.l v).length (s.l v).length then
      some ((s.put v ((s.l v).take i.toNat)).addLike v ((s.l v).drop i.toNat), (· = .vec s.n))
    else some (s.addLike v [], (· = .vec s.n))
  | .swap v i j =>
    if inR i (s.l v).length ∧ inR j (s.l v).length then
      some (s.put v (swapL (s.l v) i.toNat j.toNat), (· = .unit))
    else some (s, (· = .unit))
  | .compareAndRemove v i x =>
    if inR i (s.l v).length then
      match s.eqOf E v with
      | none => none
      | some eq =>
        if eq ((s.l v)[i.toNat]?.getD E.zero) x then some (remAt E s v i)
        else some (s, (· = .elem E.zero false))
    else some (s, (· = .elem E.zero false))
  | .grow _ n => if 0 ≤ n then some (s, (· = .unit)) else none
  | .clip _ => some (s, (· = .unit))
  | .clone v => some (s.addLike v (s.l v), (· = .vec s.n))
  | .compact v =>
    if (s.l v).length < 2 then some (s, (· = .unit))
    else match s.eqOf E v with
      | none => none
      | some eq => some (s.put v (dedup eq (s.l v)), (· = .unit))
  | .compactFunc v eq => some (s.put v (dedup eq (s.l v)), (· = .unit))
  | .delete v i j =>
    if span i j (s.l v).length then
      some (s.put v ((s.l v).take i.toNat ++ (s.l v).drop j.toNat), (· = .unit))
    else none
  | .insert v i xs =>
    if span i i (s.l v).length then
      some (s.put v ((s.l v).take i.toNat ++ xs ++ (s.l v).drop i.toNat), (· = .unit))
    else none
  | .replace v i j xs =>
    if span i j (s.l v).length then
      some (s.put v ((s.l v).take i.toNat ++ xs ++ (s.l v).drop j.toNat), (· = .unit))
    else none
  | .reverse v => some (s.put v (s.l v).reverse, (· = .unit))
  | .sort v => (P.sort (three? (s.lessOf E v) (s.eqOf E v)) (s.l v)).map fun l => (s.put v l, (· = .unit))
  | .sortFunc v less eq => (P.sort (three? (some less) (some eq)) (s.l v)).map fun l => (s.put v l, (· = .unit))
  | .sortStable v => (P.stable (three? (s.lessOf E v) (s.eqOf E v)) (s.l v)).map fun l => (s.put v l, (· = .unit))
  | .sortStableFunc v less eq => (P.stable (three? (some less) (some eq)) (s.l v)).map fun l => (s.put v l, (· = .unit))

end
end Verif.Vec
