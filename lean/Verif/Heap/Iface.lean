import Verif.Heap.Model
/-!
# The functions of package `heap` over any `heap.Interface`

`Verif.Heap.Model` gives the functions for a `heap.Interface` that is a slice with a comparison.
Here they are given for every implementation of the interface: a type of states with the five
methods, which may do whatever they like with the state.  Indices are Go `int`s, negative ones
included, without overflow.  `Verif.Heap.IfaceProps` proves that on slices both models agree.
-/
namespace Verif.Heap

/-- `heap.Interface[T]` (heap.go:7-11, with `sort.Interface`): a value of an implementing type is a
state; the methods act on it.  `none` is a panic.  Simplification: `Len` changes nothing. -/
structure Iface (S T : Type) where
  len : S → Nat
  less : S → Int → Int → Option (Bool × S)
  swap : S → Int → Int → Option S
  push : S → T → Option S
  pop : S → Option (T × S)

namespace Iface
variable {S T : Type} (I : Iface S T)

theorem tdiv_pos (j : Int) (h : 0 < j) : (j - 1).tdiv 2 = (j - 1) / 2 :=
  Int.tdiv_eq_ediv_of_nonneg (by omega)

theorem tdiv_neg (j : Int) (h : j ≤ 0) : (j - 1).tdiv 2 = -((1 - j) / 2) := by
  have e : j - 1 = -(1 - j) := by omega
  rw [e, Int.neg_tdiv, Int.tdiv_eq_ediv_of_nonneg (by omega)]

theorem tdiv_natAbs (j : Int) (h : (j - 1).tdiv 2 ≠ j) : ((j - 1).tdiv 2).natAbs < j.natAbs := by
  rcases Int.lt_or_le 0 j with h0 | h0
  · rw [tdiv_pos j h0] at *; omega
  · rw [tdiv_neg j h0] at *; omega

/-- `up(h, j)`: heap.go:49-58. -/
def up (s : S) (j : Int) : Option S :=
  let i := (j - 1).tdiv 2
  if _h : i = j then some s
  else
    match I.less s j i with
    | none => none
    | some (false, s) => some s
    | some (true, s) =>
      match I.swap s i j with
      | none => none
      | some s => up s i
termination_by j.natAbs
decreasing_by exact tdiv_natAbs _ _h

/-- The loop of `down(h, i0, n)`: heap.go:62-76; returns the state and the final `i`. -/
def downLoop (s : S) (i n : Int) : Option (S × Int) :=
  let j1 := 2 * i + 1
  if _h : j1 ≥ n ∨ j1 < 0 then some (s, i)
  else
    match (if j1 + 1 < n then I.less s (j1 + 1) j1 else some (false, s)) with
    | none => none
    | some (b, s) =>
      let j := if b then j1 + 1 else j1
      match I.less s j i with
      | none => none
      | some (false, s) => some (s, i)
      | some (true, s) =>
        match I.swap s i j with
        | none => none
        | some s => downLoop s j n
termination_by (n - i).toNat
decreasing_by
  have _h1 : ¬ (2 * i + 1 ≥ n ∨ 2 * i + 1 < 0) := _h
  show (n - (if b = true then 2 * i + 1 + 1 else 2 * i + 1)).toNat < (n - i).toNat
  split <;> omega

/-- `down(h, i0, n)`: heap.go:60-78. -/
def down (s : S) (i0 n : Int) : Option (S × Bool) :=
  match I.downLoop s i0 n with
  | none => none
  | some (s, i) => some (s, decide (i > i0))

/-- The loop of `Init`, called with `k = i + 1`: heap.go:15-17. -/
def initLoop (n : Nat) : Nat → S → Option S
  | 0, s => some s
  | k + 1, s =>
    match I.down s k n with
    | none => none
    | some (s, _) => initLoop n k s

/-- `Init(h)`: heap.go:13-18. -/
def init (s : S) : Option S := I.initLoop (I.len s) (I.len s / 2) s

/-- `Push(h, x)`: heap.go:20-23. -/
def hpush (s : S) (x : T) : Option S :=
  match I.push s x with
  | none => none
  | some s => I.up s (I.len s - 1)

/-- `Pop(h)`: heap.go:25-30. -/
def hpop (s : S) : Option (T × S) :=
  let n : Int := I.len s - 1
  match I.swap s 0 n with
  | none => none
  | some s =>
    match I.down s 0 n with
    | none => none
    | some (s, _) => I.pop s

/-- `down(h, i, n)`, then `up(h, i)` if nothing moved: heap.go:36-38, 44-46. -/
def downUp (s : S) (i n : Int) : Option S :=
  match I.down s i n with
  | none => none
  | some (s, true) => some s
  | some (s, false) => I.up s i

/-- `Remove(h, i)`: heap.go:32-41. -/
def remove (s : S) (i : Int) : Option (T × S) :=
  let n : Int := I.len s - 1
  if n ≠ i then
    match I.swap s i n with
    | none => none
    | some s =>
      match I.downUp s i n with
      | none => none
      | some s => I.pop s
  else I.pop s

/-- `Fix(h, i)`: heap.go:43-47. -/
def fix (s : S) (i : Int) : Option S := I.downUp s i (I.len s)

end Iface

/-- The element at an index of type `int`; `none` is a panic. -/
def at? {T : Type} (l : List T) (i : Int) : Option T := if i < 0 then none else l[i.toNat]?

/-- `MinHeap`, `MaxHeap`, `minqueue`, `maxqueue` as implementations of the interface:
minheap.go:9-30, maxheap.go:9-30, minqueue.go:9-30, maxqueue.go:9-30. -/
def slice {T : Type} (lt : T → T → Bool) : Iface (List T) T where
  len := List.length
  less := fun l i j => match at? l i, at? l j with
    | some a, some b => some (lt a b, l)
    | _, _ => none
  swap := fun l i j => match at? l i, at? l j with
    | some a, some b => some ((l.set i.toNat b).set j.toNat a)
    | _, _ => none
  push := fun l x => some (l ++ [x])
  pop := fun l => match l.getLast? with
    | some x => some (x, l.dropLast)
    | none => none

/-- The same implementation with `Less` and `Swap` counted. -/
def counted {S T : Type} (I : Iface S T) : Iface (S × Nat × Nat) T where
  len := fun s => I.len s.1
  less := fun s i j => match I.less s.1 i j with
    | none => none
    | some (b, t) => some (b, t, s.2.1 + 1, s.2.2)
  swap := fun s i j => match I.swap s.1 i j with
    | none => none
    | some t => some (t, s.2.1, s.2.2 + 1)
  push := fun s x => match I.push s.1 x with
    | none => none
    | some t => some (t, s.2)
  pop := fun s => match I.pop s.1 with
    | none => none
    | some (x, t) => some (x, t, s.2)

/-- The items of heap/example_pq_test.go:7-14: each item knows its position.  An item is an address;
`prio` and `index` are its fields. -/
structure PMem where
  q : List Nat
  prio : Nat → Int
  index : Nat → Int

/-- `x.index = i`. -/
def PMem.setIndex (m : PMem) (x : Nat) (i : Int) : PMem :=
  { m with index := fun y => if y = x then i else m.index y }

/-- The implementation in heap/example_pq_test.go:16-42 (a queue of pointers none of which is nil): `Swap`, `Push` and `Pop`
keep the field `index` of the items they touch up to date. -/
def indexed : Iface PMem Nat where
  len := fun m => m.q.length
  less := fun m i j => match at? m.q i, at? m.q j with
    | some a, some b => some (decide (m.prio a > m.prio b), m)
    | _, _ => none
  swap := fun m i j => match at? m.q i, at? m.q j with
    | some a, some b => some (({ m with q := (m.q.set i.toNat b).set j.toNat a }.setIndex b i).setIndex a j)
    | _, _ => none
  push := fun m x => some { m.setIndex x m.q.length with q := m.q ++ [x] }
  pop := fun m => match m.q.getLast? with
    | some x => some (x, { m.setIndex x (-1) with q := m.q.dropLast })
    | none => none

/-- `update`: heap/example_pq_test.go:44-48 (`value` plays no part). -/
def update (m : PMem) (x : Nat) (p : Int) : Option PMem :=
  let m := { m with prio := fun y => if y = x then p else m.prio y }
  indexed.fix m (m.index x)

end Verif.Heap
