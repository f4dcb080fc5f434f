import Verif.Heap.Model
/-!
# Model of package `pqueue`

An item is a pair (priority, value).  Items are heap-allocated in Go (`*Item[T]`, pqueue.go:6-13)
but immutable and never exposed, so the pointer is identified with its contents.
-/
namespace Verif.PQueue
variable {V : Type}

/-- `Item[T]`: pqueue.go:6-9. -/
structure Item (V : Type) where
  priority : Int
  value : V

/-- `minqueue.Less`: minqueue.go:13-15. -/
def minLess (a b : Item V) : Bool := decide (a.priority < b.priority)
/-- `maxqueue.Less`: maxqueue.go:13-15. -/
def maxLess (a b : Item V) : Bool := decide (a.priority > b.priority)

/-- Which queue was created: `NewMinPriorityQueue` / `NewMaxPriorityQueue`, pqueue.go:19-25. -/
inductive Kind | min | max

/-- The `Less` of the underlying heap. -/
def lessOf : Kind → Item V → Item V → Bool
  | .min => minLess
  | .max => maxLess

/-- `NewMinPriorityQueue`, `NewMaxPriorityQueue`: an empty slice, pqueue.go:19-25. -/
def new : List (Item V) := []

/-- `Len`: pqueue.go:27-29. -/
def len (q : List (Item V)) : Nat := q.length

/-- `Push(priority, value)`: pqueue.go:31-33. -/
def push (k : Kind) (q : List (Item V)) (priority : Int) (value : V) : Option (List (Item V)) :=
  Heap.push (lessOf k) q ⟨priority, value⟩

/-- `Pop()`: pqueue.go:35-38. -/
def pop (k : Kind) (q : List (Item V)) : Option ((Int × V) × List (Item V)) :=
  match Heap.pop (lessOf k) q with
  | none => none
  | some (it, q') => some ((it.priority, it.value), q')

/-- A client call. -/
inductive Op (V : Type) where
  | push (priority : Int) (value : V)
  | pop

/-- Executing client calls on a queue; collects the pairs returned by `Pop`. `none` is a panic. -/
def run (k : Kind) : List (Item V) → List (Op V) → Option (List (Int × V) × List (Item V))
  | q, [] => some ([], q)
  | q, .push p v :: os => match push k q p v with
    | none => none
    | some q' => run k q' os
  | q, .pop :: os => match pop k q with
    | none => none
    | some (r, q') => match run k q' os with
      | none => none
      | some (rs, q'') => some (r :: rs, q'')

end Verif.PQueue
