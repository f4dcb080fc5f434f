/-!
# Model of package `heap` (and of the slices behind `pqueue`)

A `heap.Interface` value is modelled by its contents, a `List T` (index 0 = root), together with
the function `lt : T → T → Bool` that `Less(i, j)` applies to the elements at `i` and `j`.
`MinHeap`, `MaxHeap`, `minqueue`, `maxqueue` are exactly of this form.  A Go panic (index out of
range) is `none`.  Simplification: indices are unbounded, so the overflow test `j1 < 0`
(heap.go:64) only matters for a negative start index, see `fix`.
-/
namespace Verif.Heap

variable {T : Type}

/-- `h.Less(i, j)`: minheap.go:13-15, maxheap.go:13-15, minqueue.go:13-15, maxqueue.go:13-15.
Panics (`none`) if an index is out of range. -/
def less (lt : T → T → Bool) (l : List T) (i j : Nat) : Option Bool :=
  match l[i]?, l[j]? with
  | some a, some b => some (lt a b)
  | _, _ => none

/-- `h.Swap(i, j)`: minheap.go:17-19, maxheap.go:17-19, minqueue.go:17-19, maxqueue.go:17-19. -/
def swap (l : List T) (i j : Nat) : Option (List T) :=
  match l[i]?, l[j]? with
  | some a, some b => some ((l.set i b).set j a)
  | _, _ => none

/-- `h.Push(x)`: minheap.go:21-23, maxheap.go:21-23 (`append`). -/
def rawPush (l : List T) (x : T) : List T := l ++ [x]

/-- `h.Pop()`: minheap.go:25-30, maxheap.go:25-30. Removes the last element; panics if empty. -/
def rawPop (l : List T) : Option (T × List T) :=
  match l.getLast? with
  | some x => some (x, l.dropLast)
  | none => none

/-- `up(h, j)`: heap.go:49-58.  (`(j-1)/2` truncates towards zero in Go, so it is `0` for `j = 0`,
as in `Nat`.) -/
def up (lt : T → T → Bool) (l : List T) (j : Nat) : Option (List T) :=
  let i := (j - 1) / 2
  if _h : i = j then some l
  else
    match less lt l j i with
    | none => none
    | some false => some l
    | some true =>
      match swap l i j with
      | none => none
      | some l' => up lt l' i
termination_by j
decreasing_by omega

/-- The loop of `down(h, i0, n)`: heap.go:62-76; returns the contents and the final `i`. -/
def downLoop (lt : T → T → Bool) (l : List T) (i n : Nat) : Option (List T × Nat) :=
  let j1 := 2 * i + 1
  if _h : j1 ≥ n then some (l, i)
  else
    -- j := j1; if j2 := j1+1; j2 < n && h.Less(j2, j1) { j = j2 }
    match (if j1 + 1 < n then less lt l (j1 + 1) j1 else some false) with
    | none => none
    | some b =>
      let j := if b then j1 + 1 else j1
      match less lt l j i with
      | none => none
      | some false => some (l, i)
      | some true =>
        match swap l i j with
        | none => none
        | some l' => downLoop lt l' j n
termination_by n - i
decreasing_by
  have _h1 : ¬ (2 * i + 1 ≥ n) := _h
  have h2 : i < (if b = true then 2 * i + 1 + 1 else 2 * i + 1) := by split <;> omega
  show n - (if b = true then 2 * i + 1 + 1 else 2 * i + 1) < n - i
  omega

/-- `down(h, i0, n)`: heap.go:60-78; the Boolean is `i > i0`. -/
def down (lt : T → T → Bool) (l : List T) (i0 n : Nat) : Option (List T × Bool) :=
  match downLoop lt l i0 n with
  | none => none
  | some (l', i) => some (l', decide (i > i0))

/-- `for i := ...; i >= 0; i-- { down(h, i, n) }`, called with `k = i+1`: heap.go:15-17. -/
def initLoop (lt : T → T → Bool) (l : List T) (n : Nat) : Nat → Option (List T)
  | 0 => some l
  | k + 1 =>
    match down lt l k n with
    | none => none
    | some (l', _) => initLoop lt l' n k

/-- `Init(h)`: heap.go:13-18.  The loop starts at `n/2 - 1`, i.e. `n/2` iterations. -/
def init (lt : T → T → Bool) (l : List T) : Option (List T) :=
  initLoop lt l l.length (l.length / 2)

/-- `Push(h, x)`: heap.go:20-23. -/
def push (lt : T → T → Bool) (l : List T) (x : T) : Option (List T) :=
  let l1 := rawPush l x
  up lt l1 (l1.length - 1)

/-- `Pop(h)`: heap.go:25-30.  On an empty heap `n = -1` and `h.Swap(0, -1)` panics. -/
def pop (lt : T → T → Bool) (l : List T) : Option (T × List T) :=
  if l.length = 0 then none
  else
    let n := l.length - 1
    match swap l 0 n with
    | none => none
    | some l1 =>
      match down lt l1 0 n with
      | none => none
      | some (l2, _) => rawPop l2

/-- `Remove(h, i)`: heap.go:32-41.  A negative `i` panics: in `h.Swap(i, n)` if `n ≠ i`, and in
`h.Pop()` of the empty heap if `n = i = -1`. -/
def remove (lt : T → T → Bool) (l : List T) (i : Int) : Option (T × List T) :=
  if i < 0 ∨ l.length = 0 then none
  else
    let i := i.toNat
    let n := l.length - 1
    if n ≠ i then
      match swap l i n with
      | none => none
      | some l1 =>
        match down lt l1 i n with
        | none => none
        | some (l2, true) => rawPop l2
        | some (l2, false) =>
          match up lt l2 i with
          | none => none
          | some l3 => rawPop l3
    else rawPop l

/-- `Fix(h, i)`: heap.go:43-47.  For `i = -1`: `j1 = -1 < 0` ends `down`, `(−2)/2 = −1 = j` ends
`up`, nothing happens.  For `i < -1`: `down` stops at once and `up` calls `Less` with a negative
index, a panic. -/
def fix (lt : T → T → Bool) (l : List T) (i : Int) : Option (List T) :=
  if i < 0 then (if i = -1 then some l else none)
  else
    match down lt l i.toNat l.length with
    | none => none
    | some (l', true) => some l'
    | some (l', false) => up lt l' i.toNat

/-- Pop until the heap is empty (the usual client loop `for h.Len() > 0 { heap.Pop(h) }`).
The fuel is the length, which decreases at each `Pop`. -/
def drain (lt : T → T → Bool) : Nat → List T → Option (List T)
  | 0, _ => some []
  | k + 1, l =>
    if l.length = 0 then some []
    else
      match pop lt l with
      | none => none
      | some (x, l') =>
        match drain lt k l' with
        | none => none
        | some xs => some (x :: xs)

/-- `MinHeap.Less`: minheap.go:13-15. -/
def minLess {α : Type} [LT α] [DecidableRel (α := α) (· < ·)] (a b : α) : Bool := decide (a < b)
/-- `MaxHeap.Less`: maxheap.go:13-15. -/
def maxLess {α : Type} [LT α] [DecidableRel (α := α) (· < ·)] (a b : α) : Bool := decide (b < a)

end Verif.Heap
