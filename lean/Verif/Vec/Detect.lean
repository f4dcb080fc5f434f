import Verif.Vec.Local
import Verif.HashRing.Crc
/-!
# Comparisons detected from the element type, and sorting of floats (C123, C124)

`autoDetectSetCmpLess` and `autoDetectSetCmpEqual` (vec.go:37-98) choose the comparison functions from the kind of the
element type.  Here the kinds, the values and the methods of package `reflect` that are used are modelled; the result is
an `Elt`, the parameter of all other theorems about `vec`.

`insSort` is the algorithm that `slices.SortFunc` uses for at most 12 elements and `slices.SortStableFunc` for at most 20.
-/
namespace Verif.Vec

/-! ## Kinds and values -/

/-- `reflect.Kind`, as far as vec.go:37-98 tells kinds apart: all signed integers, all unsigned ones but `uintptr`, both
floats, strings, pointers; everything else is `other`. -/
inductive Kind where
  | int | uint | float | string | other
  | ptr (of : Kind)
deriving DecidableEq

/-- What is outside: floats `F` with `<` and `==`, `natural.Less`, and the text `<T Value>` that `reflect.Value.String`
returns for a value that is not a string. -/
structure Lib (F : Type) where
  lt : F → F → Bool
  eq : F → F → Bool
  natural : List Nat → List Nat → Bool
  text : Kind → List Nat

/-- Values; of a pointer the kind it points to and the address. -/
inductive Val (F : Type) where
  | int (n : Int)
  | uint (n : Nat)
  | float (x : F)
  | string (s : List Nat)
  | other (n : Nat)
  | ptr (of : Kind) (addr : Nat)

section
variable {F : Type}

def Val.kind : Val F → Kind
  | .int _ => .int
  | .uint _ => .uint
  | .float _ => .float
  | .string _ => .string
  | .other _ => .other
  | .ptr k _ => .ptr k

/-- `reflect.Value.Int`, `Uint`, `Float` panic unless the value has the kind. -/
def Val.asInt : Val F → Option Int
  | .int n => some n
  | _ => none
def Val.asUint : Val F → Option Nat
  | .uint n => some n
  | _ => none
def Val.asFloat : Val F → Option F
  | .float x => some x
  | _ => none
/-- `reflect.Value.String` never panics. -/
def Val.asString (L : Lib F) : Val F → List Nat
  | .string s => s
  | v => L.text v.kind

/-- `reflectType`: vec.go:41-44, 73-76. -/
def look : Kind → Kind
  | .ptr k => k
  | k => k

/-- `autoDetectSetCmpLess`: vec.go:37-67, for element kind `k`; `none` outside: it panics; `none` inside: comparing does. -/
def detectLess (L : Lib F) (k : Kind) : Option (Val F → Val F → Option Bool) :=
  match look k with
  | .int => some fun a b => do
    let x ← a.asInt
    let y ← b.asInt
    some (decide (x < y))
  | .uint => some fun a b => do
    let x ← a.asUint
    let y ← b.asUint
    some (decide (x < y))
  | .float => some fun a b => do
    let x ← a.asFloat
    let y ← b.asFloat
    some (L.lt x y)
  | .string => some fun a b => some (L.natural (a.asString L) (b.asString L))
  | _ => none

/-- `autoDetectSetCmpEqual`: vec.go:69-98. -/
def detectEqual (L : Lib F) (k : Kind) : Option (Val F → Val F → Option Bool) :=
  match look k with
  | .int => some fun a b => do
    let x ← a.asInt
    let y ← b.asInt
    some (decide (x = y))
  | .uint => some fun a b => do
    let x ← a.asUint
    let y ← b.asUint
    some (decide (x = y))
  | .float => some fun a b => do
    let x ← a.asFloat
    let y ← b.asFloat
    some (L.eq x y)
  | .string => some fun a b => some (decide (a.asString L = b.asString L))
  | _ => none

/-- The values of an element type of kind `k`. -/
abbrev Of (F : Type) (k : Kind) : Type := {a : Val F // a.kind = k}

/-- A comparison function that panics for all arguments is as good as none. -/
def tame {k : Kind} (zero : Of F k) (f : Option (Val F → Val F → Option Bool)) : Option (Of F k → Of F k → Bool) :=
  match f with
  | none => none
  | some f => if (f zero.1 zero.1).isSome then some fun a b => (f a.1 b.1).getD false else none

/-- The element type of kind `k`, with some zero value. -/
def eltOf (L : Lib F) {k : Kind} (zero : Of F k) : Elt (Of F k) :=
  { zero := zero, less := tame zero (detectLess L k), eq := tame zero (detectEqual L k) }

/-- `eltOf` has the detected comparisons: calling one panics or returns as the detected function does. -/
theorem eltOf_less (L : Lib F) {k : Kind} (zero a b : Of F k) :
    call (eltOf L zero).less a b = (detectLess L k).bind fun f => f a.1 b.1 := by
  obtain ⟨z, hz⟩ := zero; obtain ⟨a, ha⟩ := a; obtain ⟨b, hb⟩ := b
  subst hz
  cases z with
  | ptr e _ => cases e <;> cases a <;> cases ha <;> cases b <;> cases hb <;> rfl
  | _ => cases a <;> cases ha <;> cases b <;> cases hb <;> rfl

theorem eltOf_eq (L : Lib F) {k : Kind} (zero a b : Of F k) :
    call (eltOf L zero).eq a b = (detectEqual L k).bind fun f => f a.1 b.1 := by
  obtain ⟨z, hz⟩ := zero; obtain ⟨a, ha⟩ := a; obtain ⟨b, hb⟩ := b
  subst hz
  cases z with
  | ptr e _ => cases e <;> cases a <;> cases ha <;> cases b <;> cases hb <;> rfl
  | _ => cases a <;> cases ha <;> cases b <;> cases hb <;> rfl

end

/-! ## C123 -/

/-- What the user expects of two values: they are compared as what they are. -/
inductive IsLess {F : Type} (L : Lib F) : Val F → Val F → Prop
  | int {m n : Int} : m < n → IsLess L (.int m) (.int n)
  | uint {m n : Nat} : m < n → IsLess L (.uint m) (.uint n)
  | float {x y : F} : L.lt x y = true → IsLess L (.float x) (.float y)
  | string {s t : List Nat} : L.natural s t = true → IsLess L (.string s) (.string t)

inductive IsEqual {F : Type} (L : Lib F) : Val F → Val F → Prop
  | int {n : Int} : IsEqual L (.int n) (.int n)
  | uint {n : Nat} : IsEqual L (.uint n) (.uint n)
  | float {x y : F} : L.eq x y = true → IsEqual L (.float x) (.float y)
  | string {s : List Nat} : IsEqual L (.string s) (.string s)

/-- The kinds for which detection is meant. -/
def Basic (k : Kind) : Prop := k = .int ∨ k = .uint ∨ k = .float ∨ k = .string

/-- `mem` is the memory: what pointers of the kind point to. -/
def deref {F : Type} (mem : Nat → Val F) : Val F → Val F
  | .ptr _ a => mem a
  | v => v

/-- The claim for elements of kind `k`: comparing does not panic and compares the values, through pointers. -/
def Detected {F : Type} (L : Lib F) (k : Kind) : Prop :=
  ∀ (zero : Of F k) (mem : Nat → Val F), (∀ n, (mem n).kind = look k) → ∃ lt eq, (eltOf L zero).less = some lt ∧
    (eltOf L zero).eq = some eq ∧ ∀ a b : Of F k, (lt a b = true ↔ IsLess L (deref mem a.1) (deref mem b.1)) ∧
      (eq a b = true ↔ IsEqual L (deref mem a.1) (deref mem b.1))

/-- C123 for numbers and strings themselves. -/
theorem C123_partial {F : Type} (L : Lib F) {k : Kind} (hk : Basic k) : Detected L k := by
  intro zero mem _
  obtain ⟨z, hz⟩ := zero
  subst hz
  cases z with
  | ptr => rcases hk with h | h | h | h <;> cases h
  | other => rcases hk with h | h | h | h <;> cases h
  | int z =>
    refine ⟨_, _, rfl, rfl, ?_⟩
    rintro ⟨a, ha⟩ ⟨b, hb⟩
    cases a <;> cases ha; cases b <;> cases hb
    constructor
    · exact ⟨fun h => .int (of_decide_eq_true h), fun h => by cases h with | int h => exact decide_eq_true h⟩
    · constructor
      · intro h; cases of_decide_eq_true h; exact .int
      · intro h; cases h; exact decide_eq_true rfl
  | uint z =>
    refine ⟨_, _, rfl, rfl, ?_⟩
    rintro ⟨a, ha⟩ ⟨b, hb⟩
    cases a <;> cases ha; cases b <;> cases hb
    constructor
    · exact ⟨fun h => .uint (of_decide_eq_true h), fun h => by cases h with | uint h => exact decide_eq_true h⟩
    · constructor
      · intro h; cases of_decide_eq_true h; exact .uint
      · intro h; cases h; exact decide_eq_true rfl
  | float z =>
    refine ⟨_, _, rfl, rfl, ?_⟩
    rintro ⟨a, ha⟩ ⟨b, hb⟩
    cases a <;> cases ha; cases b <;> cases hb
    constructor
    · exact ⟨fun h => .float h, fun h => by cases h with | float h => exact h⟩
    · exact ⟨fun h => .float h, fun h => by cases h with | float h => exact h⟩
  | string z =>
    refine ⟨_, _, rfl, rfl, ?_⟩
    rintro ⟨a, ha⟩ ⟨b, hb⟩
    cases a <;> cases ha; cases b <;> cases hb
    constructor
    · exact ⟨fun h => .string h, fun h => by cases h with | string h => exact h⟩
    · constructor
      · intro h; cases of_decide_eq_true h; exact .string
      · intro h; cases h; exact decide_eq_true rfl

section
variable {F : Type} {L : Lib F} {g : Nat → Nat} {k : Kind}

/-- Of pointers to numbers: the comparisons are detected and panic whenever they are called, so the searching methods
panic on every vector with an element and the sorting methods on every vector with two. -/
theorem C123_numbers (hk : k = .int ∨ k = .uint ∨ k = .float) {zero : Of F (.ptr k)} {P : SortImpl (Of F (.ptr k))}
    {m : VMem (Of F (.ptr k))} {h : List (Mut (Of F (.ptr k)))} {rs : List (Res (Of F (.ptr k)))}
    (hr : Run (eltOf L zero) g P h rs m) {v : Nat} (hv : v < m.nv) {l : List (Of F (.ptr k))}
    (hl : Shows (eltOf L zero) g m v l) (h1 : m.less (eltOf L zero) v = (eltOf L zero).less)
    (h2 : m.eq (eltOf L zero) v = (eltOf L zero).eq) :
    (detectLess L (.ptr k) ≠ none ∧ detectEqual L (.ptr k) ≠ none) ∧
    (l ≠ [] → ∀ t, m.search (eltOf L zero) v t = none ∧ m.searchAll (eltOf L zero) v t = none ∧
      m.contains (eltOf L zero) v t = none) ∧
    (2 ≤ l.length → ∀ stable : Bool, exec (eltOf L zero) g P m (if stable then .sortStable v else .sort v) = none) := by
  have hn : (eltOf L zero).less = none ∧ (eltOf L zero).eq = none := by
    obtain ⟨z, hz⟩ := zero
    cases z <;> cases hz
    rcases hk with rfl | rfl | rfl <;> exact ⟨rfl, rfl⟩
  refine ⟨?_, ?_, ?_⟩
  · rcases hk with rfl | rfl | rfl <;> exact ⟨nofun, nofun⟩
  · intro hne t
    exact C56_panic hl (h2.trans hn.2) hne t
  · intro hlen stable
    exact (C57_moves hr hv hl stable).2.2.1 hlen (h1.trans hn.1)

/-- Of pointers to strings: all elements are equal, so `Search` and `Contains` find everything in every vector with an
element, and `Compact` keeps only the first one. -/
theorem C123_strings {zero : Of F (.ptr .string)} {P : SortImpl (Of F (.ptr .string))}
    {m : VMem (Of F (.ptr .string))} {h : List (Mut (Of F (.ptr .string)))} {rs : List (Res (Of F (.ptr .string)))}
    (hr : Run (eltOf L zero) g P h rs m) {v : Nat} (hv : v < m.nv) {a : Of F (.ptr .string)} {l : List (Of F (.ptr .string))}
    (hl : Shows (eltOf L zero) g m v (a :: l)) (h2 : m.eq (eltOf L zero) v = (eltOf L zero).eq) :
    (∀ t, m.search (eltOf L zero) v t = some 0 ∧ m.contains (eltOf L zero) v t = some true) ∧
    ∃ m', exec (eltOf L zero) g P m (.compact v) = some (m', .unit) ∧ Shows (eltOf L zero) g m' v [a] := by
  have hn : ∃ eq, (eltOf L zero).eq = some eq ∧ ∀ x y, eq x y = true := by
    obtain ⟨z, hz⟩ := zero
    cases z <;> cases hz
    refine ⟨_, rfl, ?_⟩
    rintro ⟨x, hx⟩ ⟨y, hy⟩
    cases x <;> cases hx; cases y <;> cases hy
    exact decide_eq_true rfl
  obtain ⟨eq, hn, heq⟩ := hn
  have he := h2.trans hn
  refine ⟨?_, ?_⟩
  · intro t
    constructor
    · rw [VMem.search, hl.list, he]; simp [indexFunc, call, heq]
    · rw [VMem.contains, hl.list, he]; simp [indexFunc, call, heq]
  · obtain ⟨m', l', e1, e2, ⟨ks, e3, e4⟩, _⟩ := C59_compact hr hv hl false fun _ => he
    refine ⟨m', e1, ?_⟩
    -- only index 0 is kept
    have hks : ks = [0] := by
      have hk0 : ∀ k, k ∈ ks ↔ k = 0 := by
        intro k
        rw [e4]
        constructor
        · rintro ⟨x, _, h0 | ⟨y, _, hf⟩⟩
          · exact h0
          · rw [heq] at hf; cases hf
        · rintro rfl; exact ⟨a, rfl, .inl rfl⟩
      have hnd : ks.Nodup := e3.1.imp (fun h => Nat.ne_of_lt h)
      match ks, hk0, hnd with
      | [], hk0, _ => exact absurd ((hk0 0).2 rfl) (by simp)
      | [x], hk0, _ => rw [(hk0 x).1 (by simp)]
      | x :: y :: r, hk0, hnd =>
        have hx := (hk0 x).1 (by simp)
        have hy := (hk0 y).1 (by simp)
        simp [hx, hy] at hnd
    have hl' : l' = [a] := by
      have := e3.2
      rw [hks] at this
      match l', this with
      | [], h => cases h
      | [x], h => simp at h; rw [h]
      | _ :: _ :: _, h => simp at h
    rw [hl'] at e2
    exact e2

/-- C123 is false of the code for every kind of pointer to a number or a string. -/
theorem C123_false (L : Lib F) (x : F) (hk : Basic k) : ¬ Detected L (.ptr k) := by
  intro h
  let mem : Nat → Val F := fun n => match k with
    | .int => .int n | .uint => .uint n | .float => .float x | .string => .string [n] | _ => .other n
  obtain ⟨lt, eq, h1, h2, h3⟩ := h ⟨.ptr k 0, rfl⟩ mem (by
    intro n; rcases hk with rfl | rfl | rfl | rfl <;> rfl)
  rcases hk with rfl | rfl | rfl | rfl
  · cases h1
  · cases h1
  · cases h1
  · cases h2
    have := (h3 ⟨.ptr .string 0, rfl⟩ ⟨.ptr .string 1, rfl⟩).2.1 (decide_eq_true rfl)
    cases this

end

/-! ## Insertion sort -/

section
variable {T : Type}

/-- The inner loop of `insertionSortCmpFunc`: the new element goes left as long as it is less than its left neighbour.
The elements to the left are listed from right to left. -/
def insStep (cmp : T → T → Option Int) (x : T) : List T → Option (List T)
  | [] => some [x]
  | y :: p => do
    let c ← cmp x y
    if c < 0 then
      let p ← insStep cmp x p
      some (y :: p)
    else some (x :: y :: p)

/-- The outer loop; `p` is what has been sorted so far, from right to left. -/
def insLoop (cmp : T → T → Option Int) : List T → List T → Option (List T)
  | p, [] => some p.reverse
  | p, x :: l => do
    let p ← insStep cmp x p
    insLoop cmp p l

/-- `insertionSortCmpFunc` of package `slices`. -/
def insSort (cmp : T → T → Option Int) (l : List T) : Option (List T) := insLoop cmp [] l

theorem insStep_perm {cmp : T → T → Option Int} {x : T} : ∀ {p q : List T}, insStep cmp x p = some q → q.Perm (x :: p)
  | [], q, h => by cases h; exact .refl _
  | y :: p, q, h => by
    simp only [insStep, Option.bind_eq_bind, Option.bind_eq_some_iff] at h
    obtain ⟨c, _, h⟩ := h
    split at h
    · obtain ⟨p', h1, h2⟩ := Option.bind_eq_some_iff.1 h
      cases h2
      exact ((insStep_perm h1).cons y).trans (.swap x y p)
    · cases h; exact .refl _

theorem insLoop_perm {cmp : T → T → Option Int} : ∀ {l p q : List T}, insLoop cmp p l = some q → q.Perm (p ++ l)
  | [], p, q, h => by cases h; simpa using p.reverse_perm
  | x :: l, p, q, h => by
    obtain ⟨p', h1, h2⟩ := Option.bind_eq_some_iff.1 h
    exact (insLoop_perm h2).trans (((insStep_perm h1).append_right l).trans List.perm_middle.symm)

theorem insStep_total {cmp : T → T → Option Int} {x : T} : ∀ {p : List T}, (∀ y ∈ p, cmp x y ≠ none) → insStep cmp x p ≠ none
  | [], _ => by simp [insStep]
  | y :: p, h => by
    obtain ⟨c, hc⟩ := Option.ne_none_iff_exists'.1 (h y (by simp))
    obtain ⟨q, hq⟩ := Option.ne_none_iff_exists'.1 (insStep_total (p := p) fun z hz => h z (by simp [hz]))
    simp only [insStep, hc, hq, Option.bind_eq_bind, Option.bind_some]
    split <;> simp

theorem insLoop_total {cmp : T → T → Option Int} : ∀ {l p : List T}, (∀ a ∈ p ++ l, ∀ b ∈ p ++ l, cmp a b ≠ none) →
    insLoop cmp p l ≠ none
  | [], p, _ => by simp [insLoop]
  | x :: l, p, h => by
    obtain ⟨q, hq⟩ := Option.ne_none_iff_exists'.1 (insStep_total (cmp := cmp) (x := x) (p := p)
      fun y hy => h x (by simp) y (by simp [hy]))
    simp only [insLoop, hq, Option.bind_eq_bind, Option.bind_some]
    have hp : (q ++ l).Perm (p ++ x :: l) := ((insStep_perm hq).append_right l).trans List.perm_middle.symm
    exact insLoop_total fun a ha b hb => h a (hp.mem_iff.1 ha) b (hp.mem_iff.1 hb)

/-- The comparison the other way round. -/
def flip' (cmp : T → T → Int) (a b : T) : Int := cmp b a

theorem insStep_eq (cmp : T → T → Int) (x : T) (p : List T) :
    insStep (fun a b => some (cmp a b)) x p = some (HashRing.ins (leOf (flip' cmp)) x p) := by
  induction p with
  | nil => rfl
  | cons y p ih =>
    simp only [insStep, ih, Option.bind_eq_bind, Option.bind_some, HashRing.ins, leOf, flip']
    by_cases h : cmp x y < 0
    · simp [h]
    · simp [h]

theorem insLoop_eq (cmp : T → T → Int) : ∀ l q : List T,
    insLoop (fun a b => some (cmp a b)) (HashRing.isort (leOf (flip' cmp)) q) l =
      some (HashRing.isort (leOf (flip' cmp)) (l.reverse ++ q)).reverse := by
  intro l
  induction l with
  | nil => intro q; rfl
  | cons x l ih =>
    intro q
    simp only [insLoop, insStep_eq, Option.bind_eq_bind, Option.bind_some]
    have := ih (x :: q)
    rw [HashRing.isort] at this
    rw [this]
    simp

theorem insSort_eq (cmp : T → T → Int) (l : List T) :
    insSort (fun a b => some (cmp a b)) l = some (HashRing.isort (leOf (flip' cmp)) l.reverse).reverse := by
  have := insLoop_eq cmp l []
  rw [List.append_nil] at this
  exact this

theorem swo_flip {cmp : T → T → Int} {l : List T} (h : SWO (fun a b : {x // x ∈ l} => cmp a b)) :
    SWO (fun a b : {x // x ∈ l.reverse} => flip' cmp a b) := by
  have hm : ∀ {a}, a ∈ l.reverse → a ∈ l := fun ha => List.mem_reverse.1 ha
  refine ⟨?_, ?_, ?_⟩
  · rintro ⟨a, ha⟩; exact h.irrefl ⟨a, hm ha⟩
  · rintro ⟨a, ha⟩ ⟨b, hb⟩ ⟨c, hc⟩ h1 h2; exact h.trans ⟨c, hm hc⟩ ⟨b, hm hb⟩ ⟨a, hm ha⟩ h2 h1
  · rintro ⟨a, ha⟩ ⟨b, hb⟩ ⟨c, hc⟩ h1 h2 h3 h4
    exact (h.incomp ⟨a, hm ha⟩ ⟨b, hm hb⟩ ⟨c, hm hc⟩ h2 h1 h4 h3).symm

theorem insSort_ok : Sorts (insSort (T := T)) := by
  refine ⟨?_, ?_, ?_, ?_, ?_⟩
  · intro cmp l h
    match l, h with
    | [], _ => rfl
    | [_], _ => rfl
    | _ :: _ :: _, h => simp only [List.length_cons] at h; omega
  · intro cmp l l' h; exact insLoop_perm h
  · intro cmp l h; exact insLoop_total h
  · intro cmp l h hn
    match l, h with
    | a :: b :: l, _ => simp [insSort, insLoop, insStep, hn]
  · intro cmp l l' h he
    rw [insSort_eq] at he
    cases he
    rw [List.pairwise_reverse]
    exact HashRing.isort_sorted_on (flip' cmp) l.reverse (swo_flip h)

/-- Insertion sort as a sorting function. -/
def insImpl (T : Type) : SortImpl T where
  sort := insSort
  sort_ok := insSort_ok
  stable := insSort
  stable_ok := insSort_ok
  stable_stable cmp l l' h he x hx := by
    rw [insSort_eq] at he
    cases he
    have hq : equivB cmp x = equivB (flip' cmp) x := by funext y; simp [equivB, flip', Bool.and_comm]
    have := HashRing.isort_stable_on (flip' cmp) l.reverse (swo_flip h) x (List.mem_reverse.2 hx)
    rw [List.filter_reverse, hq, this, List.filter_reverse, List.reverse_reverse]

/-- A list in which no element is less than its left neighbour stays as it is. -/
theorem insSort_fix {lt eq : T → T → Bool} {l : List T} (h : l.IsChain fun a b => lt b a = false) :
    insSort (three? (some lt) (some eq)) l = some l := by
  have go : ∀ (l : List T) (y : T) (p : List T), (y :: l).IsChain (fun a b => lt b a = false) →
      insLoop (three? (some lt) (some eq)) (y :: p) l = some ((y :: p).reverse ++ l) := by
    intro l
    induction l with
    | nil => intro y p _; simp [insLoop]
    | cons x l ih =>
      intro y p h
      rw [List.isChain_cons_cons] at h
      have hc : ¬ three lt eq x y < 0 := by rw [three_neg, h.1]; simp
      simp only [insLoop, insStep, three?_some, Option.bind_eq_bind, Option.bind_some, if_neg hc]
      rw [ih x (y :: p) h.2]
      simp
  cases l with
  | nil => rfl
  | cons x l => exact go l x [] h

end

/-! ## C124: floats -/

section
variable {F : Type}

/-- Floats: an order, but for `NaN`, which is neither less than nor equal to anything. -/
structure IsFloat (lt eq : F → F → Bool) (nan : F → Prop) : Prop where
  ord : OrderOn lt eq fun x => ¬ nan x
  nan_lt : ∀ a b, nan a ∨ nan b → lt a b = false
  nan_eq : ∀ a b, nan a ∨ nan b → eq a b = false

/-- What the comment on `Sort` says (vec.go:458-460): first all `NaN`s, then the numbers in ascending order. -/
def FloatSorted (lt : F → F → Bool) (nan : F → Prop) (l : List F) : Prop :=
  ∃ a b, l = a ++ b ∧ (∀ x ∈ a, nan x) ∧ (∀ x ∈ b, ¬ nan x) ∧ b.Pairwise (fun x y => lt y x = false)

variable {lt eq : F → F → Bool} {nan : F → Prop} {E : Elt F} {g : Nat → Nat} {P : SortImpl F} {m : VMem F}

/-- C124 for vectors without `NaN`. -/
theorem C124_partial (hF : IsFloat lt eq nan) {h : List (Mut F)} {rs : List (Res F)} (hr : Run E g P h rs m) {v : Nat}
    (hv : v < m.nv) {l : List F} (hl : Shows E g m v l) (h1 : m.less E v = some lt) (h2 : m.eq E v = some eq)
    (hnan : ∀ x ∈ l, ¬ nan x) (stable : Bool) :
    ∃ m' l', exec E g P m (if stable then .sortStable v else .sort v) = some (m', .unit) ∧ Shows E g m' v l' ∧
      l'.Perm l ∧ FloatSorted lt nan l' := by
  obtain ⟨m', l', e1, e2, e3, e4, _⟩ := C57_sort_on hr hv hl (hF.ord.mono hnan) h1 h2 stable
  exact ⟨m', l', e1, e2, e3, [], l', rfl, by simp, fun x hx => hnan x (e3.mem_iff.1 hx), e4⟩

/-- With insertion sort, a vector in which of any two neighbours one is `NaN` stays as it is, and `IsSorted` says that it
is sorted, whatever the order of the numbers in it. -/
theorem C124_stays (hF : IsFloat lt eq nan) {h : List (Mut F)} {rs : List (Res F)} (hr : Run E g (insImpl F) h rs m) {v : Nat}
    (hv : v < m.nv) {l : List F} (hl : Shows E g m v l) (h1 : m.less E v = some lt) (h2 : m.eq E v = some eq)
    (hnan : l.IsChain fun a b => nan a ∨ nan b) (stable : Bool) :
    (∃ m', exec E g (insImpl F) m (if stable then .sortStable v else .sort v) = some (m', .unit) ∧ Shows E g m' v l) ∧
    m.isSorted E v = some true := by
  have hch : l.IsChain fun a b => lt b a = false := hnan.imp fun a b h => hF.nan_lt b a h.symm
  constructor
  · have hx := insSort_fix (eq := eq) hch
    obtain ⟨m', e1, e2, _⟩ := sortBy_shows hr hv hl insSort_ok hx
    refine ⟨m', ?_, e2⟩
    cases stable <;> simp only [reduceIte, Bool.false_eq_true, exec, h1, h2] <;> exact e1
  · unfold VMem.isSorted VMem.isSortedFunc
    rw [h1, h2, hl.list, hl.len]
    rcases Nat.eq_zero_or_pos l.length with h0 | h0
    · rw [h0]; rfl
    · obtain ⟨b, e1, e2⟩ := sortedLoop_spec lt eq l (l.length - 1) (by omega)
      rw [e1, e2.2]
      intro i a c hi ha hc
      have := List.isChain_iff_getElem.1 hch i (by omega)
      rw [List.getElem?_eq_getElem (by omega)] at ha hc
      cases ha; cases hc
      exact this

end

/-! ## Examples -/

/-- A new vector with the elements `l`. -/
def fresh {T : Type} (E : Elt T) (l : List T) : VMem T := push E (fun _ => 0) (VMem.empty.new .auto .auto) 0 l

theorem fresh_run {T : Type} (E : Elt T) (P : SortImpl T) (l : List T) :
    Run E (fun _ => 0) P [.new none none, .push 0 l] [.vec 0, .unit] (fresh E l) ∧ 0 < (fresh E l).nv ∧
      Shows E (fun _ => 0) (fresh E l) 0 l ∧ (fresh E l).less E 0 = E.less ∧ (fresh E l).eq E 0 = E.eq := by
  have hr : Run E (fun _ => 0) P [.new none none, .push 0 l] [.vec 0, .unit] (fresh E l) :=
    .snoc (h := [_]) (rs := [_]) (.snoc (h := []) (rs := []) .nil (by intro v hv; cases hv) rfl)
      (by intro v hv; cases hv; exact Nat.zero_lt_one) rfl
  obtain ⟨ps, s, h1, h2, h3⟩ := hr.rel
  have hnv : (fresh E l).nv = 1 := by unfold fresh push; dsimp only; split <;> rfl
  have hs : SRun E P [.new none none, .push 0 l] _ _ := .snoc (h := [_]) (.snoc (h := []) .nil rfl) rfl
  obtain ⟨_, rfl⟩ := h1.det hs
  refine ⟨hr, by omega, ?_, ?_, ?_⟩
  · have := h3.shows (E := E) (g := fun _ => 0) (v := 0) (by omega)
    simpa [SState.put, SState.empty] using this
  · rw [h3.lessOf]; rfl
  · rw [h3.eqOf]; rfl

/-- Some floats. -/
inductive Flt where
  | num (n : Int) | nan
deriving DecidableEq

def Flt.lt : Flt → Flt → Bool
  | .num a, .num b => decide (a < b)
  | _, _ => false
def Flt.eq : Flt → Flt → Bool
  | .num a, .num b => decide (a = b)
  | _, _ => false

theorem Flt.isFloat : IsFloat Flt.lt Flt.eq (· = .nan) := by
  refine ⟨⟨?_, ?_, ?_, ?_⟩, ?_, ?_⟩
  · intro a _; cases a <;> simp [Flt.lt]
  · intro a b c ha hb hc; cases a <;> cases b <;> cases c <;> simp [Flt.lt] at *; omega
  · intro a b ha hb; cases a <;> cases b <;> simp [Flt.lt] at *; omega
  · intro a b ha hb; cases a <;> cases b <;> simp [Flt.lt, Flt.eq] at *; omega
  · intro a b h; cases a <;> cases b <;> simp [Flt.lt] at *
  · intro a b h; cases a <;> cases b <;> simp [Flt.eq] at *

def flib : Lib Flt := { lt := Flt.lt, eq := Flt.eq, natural := fun a b => decide (a < b), text := fun _ => [60, 62] }

def EFlt : Elt Flt := { zero := .num 0, less := some Flt.lt, eq := some Flt.eq }

/-- C124 is false of the code: `[3, NaN, 1]` stays as it is. -/
theorem C124_false : ¬ ∀ (P : SortImpl Flt) (h : List (Mut Flt)) (rs : List (Res Flt)) (m : VMem Flt) (v : Nat)
    (l : List Flt), Run EFlt (fun _ => 0) P h rs m → v < m.nv → Shows EFlt (fun _ => 0) m v l →
    m.less EFlt v = some Flt.lt → m.eq EFlt v = some Flt.eq →
    ∃ m' l', exec EFlt (fun _ => 0) P m (.sort v) = some (m', .unit) ∧ Shows EFlt (fun _ => 0) m' v l' ∧
      FloatSorted Flt.lt (· = .nan) l' := by
  intro hall
  obtain ⟨hr, hn, hs, h1, h2⟩ := fresh_run EFlt (insImpl Flt) [.num 3, .nan, .num 1]
  obtain ⟨m', l', e1, e2, e3⟩ := hall _ _ _ _ 0 _ hr hn hs h1 h2
  obtain ⟨⟨m'', f1, f2⟩, _⟩ := C124_stays Flt.isFloat hr hn hs h1 h2 (by simp) false
  rw [if_neg (by simp)] at f1
  rw [e1] at f1
  cases f1
  have hl : l' = [.num 3, .nan, .num 1] := by rw [← e2.slice, f2.slice]
  subst hl
  obtain ⟨a, b, h3, h4, h5, _⟩ := e3
  cases a with
  | nil => simp only [List.nil_append] at h3; exact h5 .nan (by rw [← h3]; simp) rfl
  | cons x a =>
    simp only [List.cons_append, List.cons.injEq] at h3
    have := h4 x (by simp)
    rw [← h3.1] at this
    cases this

-- C123
example : ∃ lt, (eltOf flib ⟨.int 0, rfl⟩).less = some lt ∧ lt ⟨.int (-2), rfl⟩ ⟨.int 1, rfl⟩ = true := ⟨_, rfl, rfl⟩
example : (eltOf flib ⟨.ptr .int 0, rfl⟩).less = none ∧ detectLess flib (.ptr .int) ≠ none := ⟨rfl, nofun⟩
example : (fresh (eltOf flib ⟨.ptr .string 0, rfl⟩) [⟨.ptr .string 1, rfl⟩, ⟨.ptr .string 2, rfl⟩]).search
    (eltOf flib ⟨.ptr .string 0, rfl⟩) 0 ⟨.ptr .string 7, rfl⟩ = some 0 := by
  obtain ⟨hr, hn, hs, _, h2⟩ := fresh_run (eltOf flib ⟨.ptr .string 0, rfl⟩) (insImpl _)
    [⟨.ptr .string 1, rfl⟩, ⟨.ptr .string 2, rfl⟩]
  exact ((C123_strings hr hn hs h2).1 _).1
example : detectEqual flib .other = none ∧ detectEqual flib (.ptr (.ptr .int)) = none := ⟨rfl, rfl⟩

-- C124
example : insSort (three? (some Flt.lt) (some Flt.eq)) [.num 4, .num 2, .nan, .num 9, .num 1] =
    some [.num 2, .num 4, .nan, .num 1, .num 9] := by decide
example : FloatSorted Flt.lt (· = .nan) [.nan, .nan, .num 1, .num 1, .num 5] :=
  ⟨[.nan, .nan], [.num 1, .num 1, .num 5], rfl, by simp, by simp, by decide⟩

-- C57: with `less` alone, whether `Sort` panics depends on what is compared
example : insSort (three? (some fun a b : Nat => decide (a < b)) none) [2, 1] = some [1, 2] ∧
    insSort (three? (some fun a b : Nat => decide (a < b)) none) [1, 2] = none := by decide

end Verif.Vec
