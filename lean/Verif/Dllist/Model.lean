/-!
# Model of package `dllist` at pointer level

Memory: every `*Element` is an address.  The sentinel `root` embedded in the list `l`
(dllist.go:6) is the address `Ptr.root l`; an element allocated by `insertValue` is `Ptr.node n`.
`nil` is `none`; dereferencing `nil` is a panic and makes the operation return `none`.
Callbacks passed to `Range` are modelled as state transformers, so they may call list methods.
-/
namespace Verif.Dllist

/-- Addresses of elements: the sentinel of list `l`, or an allocated element. -/
inductive Ptr where
  | root (l : Nat)
  | node (n : Nat)
deriving DecidableEq, Repr

/-- The memory: the fields of all elements (element.go:3-9) and lists (dllist.go:5-10). -/
structure Mem (T : Type) where
  /-- `Element.next` (element.go:4) -/
  next : Ptr → Option Ptr
  /-- `Element.prev` (element.go:4) -/
  prev : Ptr → Option Ptr
  /-- `Element.list` (element.go:6) -/
  owner : Ptr → Option Nat
  /-- `Element.Value` (element.go:8) of allocated elements -/
  val : Nat → Option T
  /-- `Dllist.len` (dllist.go:7) -/
  len : Nat → Int
  /-- `Dllist.inited` (dllist.go:9) -/
  inited : Nat → Bool
  /-- next free element address (allocation) -/
  fresh : Nat
  /-- next free list address (allocation) -/
  freshL : Nat

variable {T : Type}

/-- Function update. -/
def upd {α β : Type} [DecidableEq α] (f : α → β) (a : α) (b : β) : α → β :=
  fun x => if x = a then b else f x

namespace Mem
def setNext (m : Mem T) (p : Ptr) (q : Option Ptr) : Mem T := { m with next := upd m.next p q }
def setPrev (m : Mem T) (p : Ptr) (q : Option Ptr) : Mem T := { m with prev := upd m.prev p q }
def setOwner (m : Mem T) (p : Ptr) (l : Option Nat) : Mem T := { m with owner := upd m.owner p l }
def setLen (m : Mem T) (l : Nat) (k : Int) : Mem T := { m with len := upd m.len l k }
def setInited (m : Mem T) (l : Nat) : Mem T := { m with inited := upd m.inited l true }
end Mem

/-- Memory at program start: nothing allocated, everything zero. -/
def Mem.empty : Mem T :=
  { next := fun _ => none, prev := fun _ => none, owner := fun _ => none, val := fun _ => none,
    len := fun _ => 0, inited := fun _ => false, fresh := 0, freshL := 0 }

/-- `var l Dllist[T]` / `&Dllist[T]{}`: a zero list. -/
def zeroList (m : Mem T) : Mem T × Nat := ({ m with freshL := m.freshL + 1 }, m.freshL)

/-- `Clear`: dllist.go:18-24. -/
def clear (m : Mem T) (l : Nat) : Mem T :=
  let m := m.setNext (.root l) (some (.root l))
  let m := m.setPrev (.root l) (some (.root l))
  let m := m.setLen l 0
  m.setInited l

/-- `New`: dllist.go:14-16. -/
def new (m : Mem T) : Mem T × Nat :=
  let (m, l) := zeroList m
  (clear m l, l)

/-- `lazyInit`: dllist.go:27-31. -/
def lazyInit (m : Mem T) (l : Nat) : Mem T := if m.inited l then m else clear m l

/-- `for ; i > 0; i-- { e = e.next }` (`k` iterations): dllist.go:43-45. -/
def walkNext (m : Mem T) : Nat → Option Ptr → Option (Option Ptr)
  | 0, e => some e
  | k + 1, e => do
    let p ← e
    walkNext m k (m.next p)

/-- `for ; i < l.len; i++ { e = e.prev }` (`k` iterations): dllist.go:48-50. -/
def walkPrev (m : Mem T) : Nat → Option Ptr → Option (Option Ptr)
  | 0, e => some e
  | k + 1, e => do
    let p ← e
    walkPrev m k (m.prev p)

/-- `Get(i)`: dllist.go:33-54.  Go's `/` on the nonnegative `l.len` is `Int.tdiv`. -/
def get (m : Mem T) (l : Nat) (i : Int) : Option (Mem T × Option Ptr) :=
  if i < 0 ∨ i ≥ m.len l then some (m, none)
  else
    let m := lazyInit m l
    if i < (m.len l).tdiv 2 then do
      let e ← walkNext m i.toNat (m.next (.root l))
      some (m, e)
    else do
      let e ← walkPrev m (m.len l - i).toNat (some (.root l))
      some (m, e)

/-- `Len`: dllist.go:56. -/
def len (m : Mem T) (l : Nat) : Int := m.len l

/-- `Front`: dllist.go:58-64. -/
def front (m : Mem T) (l : Nat) : Mem T × Option Ptr :=
  if m.len l = 0 then (m, none)
  else let m := lazyInit m l; (m, m.next (.root l))

/-- `Back`: dllist.go:66-72. -/
def back (m : Mem T) (l : Nat) : Mem T × Option Ptr :=
  if m.len l = 0 then (m, none)
  else let m := lazyInit m l; (m, m.prev (.root l))

/-- `insert(e, at)`: dllist.go:74-82.  `at` may be `nil` (then `at.next` panics). -/
def insert (m : Mem T) (l : Nat) (e : Ptr) (at_ : Option Ptr) : Option (Mem T) := do
  let m := m.setPrev e at_            -- e.prev = at
  let a ← at_
  let m := m.setNext e (m.next a)     -- e.next = at.next
  let p ← m.prev e
  let m := m.setNext p (some e)       -- e.prev.next = e
  let n ← m.next e
  let m := m.setPrev n (some e)       -- e.next.prev = e
  let m := m.setOwner e (some l)      -- e.list = l
  some (m.setLen l (m.len l + 1))     -- l.len++

/-- `insertValue(v, at)`: dllist.go:84-86.  Allocates the element `m.fresh`. -/
def insertValue (m : Mem T) (l : Nat) (v : T) (at_ : Option Ptr) : Option (Mem T × Nat) := do
  let n := m.fresh
  let m := { m with fresh := n + 1, val := upd m.val n (some v) }
  let m ← insert m l (.node n) at_
  some (m, n)

/-- `remove(e)`: dllist.go:88-95. -/
def remove (m : Mem T) (l : Nat) (e : Ptr) : Option (Mem T) := do
  let p ← m.prev e
  let m := m.setNext p (m.next e)     -- e.prev.next = e.next
  let n ← m.next e
  let m := m.setPrev n (m.prev e)     -- e.next.prev = e.prev
  let m := m.setNext e none
  let m := m.setPrev e none
  let m := m.setOwner e none
  some (m.setLen l (m.len l - 1))

/-- `move(e, at)`: dllist.go:97-108. -/
def move (m : Mem T) (e : Ptr) (at_ : Option Ptr) : Option (Mem T) :=
  if some e = at_ then some m
  else do
    let p ← m.prev e
    let m := m.setNext p (m.next e)   -- e.prev.next = e.next
    let n ← m.next e
    let m := m.setPrev n (m.prev e)   -- e.next.prev = e.prev
    let m := m.setPrev e at_          -- e.prev = at
    let a ← at_
    let m := m.setNext e (m.next a)   -- e.next = at.next
    let p ← m.prev e
    let m := m.setNext p (some e)     -- e.prev.next = e
    let n ← m.next e
    some (m.setPrev n (some e))       -- e.next.prev = e

/-- `(*Dllist).Remove(e)`: dllist.go:110-115; returns `e.Value`. -/
def lRemove (m : Mem T) (l : Nat) (e : Nat) : Option (Mem T × Option T) := do
  let m ← if m.owner (.node e) = some l then remove m l (.node e) else some m
  some (m, m.val e)

/-- `PushFront(v)`: dllist.go:117-120. -/
def pushFront (m : Mem T) (l : Nat) (v : T) : Option (Mem T × Nat) :=
  let m := lazyInit m l
  insertValue m l v (some (.root l))

/-- `PushBack(v)`: dllist.go:122-125. -/
def pushBack (m : Mem T) (l : Nat) (v : T) : Option (Mem T × Nat) :=
  let m := lazyInit m l
  insertValue m l v (m.prev (.root l))

/-- `InsertBefore(v, mark)`: dllist.go:127-133; `none` in the second component is a nil result. -/
def insertBefore (m : Mem T) (l : Nat) (v : T) (mark : Nat) : Option (Mem T × Option Nat) :=
  if m.owner (.node mark) ≠ some l then some (m, none)
  else do
    let (m, n) ← insertValue m l v (m.prev (.node mark))
    some (m, some n)

/-- `InsertAfter(v, mark)`: dllist.go:135-141. -/
def insertAfter (m : Mem T) (l : Nat) (v : T) (mark : Nat) : Option (Mem T × Option Nat) :=
  if m.owner (.node mark) ≠ some l then some (m, none)
  else do
    let (m, n) ← insertValue m l v (some (.node mark))
    some (m, some n)

/-- `MoveToFront(e)`: dllist.go:143-149. -/
def moveToFront (m : Mem T) (l : Nat) (e : Nat) : Option (Mem T) :=
  if m.owner (.node e) ≠ some l ∨ m.next (.root l) = some (.node e) then some m
  else
    let m := lazyInit m l
    move m (.node e) (some (.root l))

/-- `MoveToBack(e)`: dllist.go:151-157. -/
def moveToBack (m : Mem T) (l : Nat) (e : Nat) : Option (Mem T) :=
  if m.owner (.node e) ≠ some l ∨ m.prev (.root l) = some (.node e) then some m
  else
    let m := lazyInit m l
    move m (.node e) (m.prev (.root l))

/-- `MoveBefore(e, mark)`: dllist.go:159-164. -/
def moveBefore (m : Mem T) (l : Nat) (e mark : Nat) : Option (Mem T) :=
  if m.owner (.node e) ≠ some l ∨ e = mark ∨ m.owner (.node mark) ≠ some l then some m
  else move m (.node e) (m.prev (.node mark))

/-- `MoveAfter(e, mark)`: dllist.go:166-171. -/
def moveAfter (m : Mem T) (l : Nat) (e mark : Nat) : Option (Mem T) :=
  if m.owner (.node e) ≠ some l ∨ e = mark ∨ m.owner (.node mark) ≠ some l then some m
  else move m (.node e) (some (.node mark))

/-- `(*Element).Next()`: element.go:11-16. -/
def elNext (m : Mem T) (e : Ptr) : Option Ptr :=
  match m.owner e with
  | none => none
  | some l => if m.next e = some (.root l) then none else m.next e

/-- `(*Element).Prev()`: element.go:18-23. -/
def elPrev (m : Mem T) (e : Ptr) : Option Ptr :=
  match m.owner e with
  | none => none
  | some l => if m.prev e = some (.root l) then none else m.prev e

/-- `(*Element).Remove()`: element.go:25-32. -/
def elRemove (m : Mem T) (e : Nat) : Option (Mem T × Option T) := do
  let m ← match m.owner (.node e) with
    | some l => remove m l (.node e)
    | none => some m
  let m := m.setNext (.node e) none
  let m := m.setPrev (.node e) none
  some (m, m.val e)

/-- `(*Element).InsertAfter(v)`: element.go:34-39. -/
def elInsertAfter (m : Mem T) (e : Nat) (v : T) : Option (Mem T × Option Nat) :=
  match m.owner (.node e) with
  | none => some (m, none)
  | some l => do
    let (m, n) ← insertValue m l v (some (.node e))
    some (m, some n)

/-- `(*Element).InsertBefore(v)`: element.go:41-46. -/
def elInsertBefore (m : Mem T) (e : Nat) (v : T) : Option (Mem T × Option Nat) :=
  match m.owner (.node e) with
  | none => some (m, none)
  | some l => do
    let (m, n) ← insertValue m l v (m.prev (.node e))
    some (m, some n)

/-- `e.Value` for a pointer; reading it through `nil` panics. (The value of a sentinel, Go's zero
value, is read by the package only after calls with elements left behind by `Clear` or `Sort`; it is
not modelled and `none` here.) -/
def value (m : Mem T) : Ptr → Option T
  | .node n => m.val n
  | .root _ => none

/-- The loop of `PushBackList(other)`: dllist.go:175-177, `i` remaining iterations. -/
def pushBackListLoop (l : Nat) : Nat → Mem T → Option Ptr → Option (Mem T)
  | 0, m, _ => some m
  | i + 1, m, e => do
    let p ← e
    let v ← value m p
    let (m, _) ← insertValue m l v (m.prev (.root l))
    pushBackListLoop l i m (elNext m p)

/-- `PushBackList(other)`: dllist.go:173-178. -/
def pushBackList (m : Mem T) (l other : Nat) : Option (Mem T) :=
  let m := lazyInit m l
  let i := m.len other
  let (m, e) := front m other
  pushBackListLoop l i.toNat m e

/-- The loop of `PushBackListTo(other, mark)`: dllist.go:184-186. -/
def pushBackListToLoop (l : Nat) (mark : Nat) : Nat → Mem T → Option Ptr → Option (Mem T)
  | 0, m, _ => some m
  | i + 1, m, e => do
    let p ← e
    let v ← value m p
    let (m, _) ← insertValue m l v (some (.node mark))
    pushBackListToLoop l mark i m (elNext m p)

/-- `PushBackListTo(other, mark)`: dllist.go:180-187. -/
def pushBackListTo (m : Mem T) (l other : Nat) (mark : Nat) : Option (Mem T) :=
  if m.owner (.node mark) ≠ some l then some m
  else
    let i := m.len other
    let (m, e) := front m other
    pushBackListToLoop l mark i.toNat m e

/-- The loop of `PushFrontList(other)`: dllist.go:191-193. -/
def pushFrontListLoop (l : Nat) : Nat → Mem T → Option Ptr → Option (Mem T)
  | 0, m, _ => some m
  | i + 1, m, e => do
    let p ← e
    let v ← value m p
    let (m, _) ← insertValue m l v (some (.root l))
    pushFrontListLoop l i m (elPrev m p)

/-- `PushFrontList(other)`: dllist.go:189-194. -/
def pushFrontList (m : Mem T) (l other : Nat) : Option (Mem T) :=
  let m := lazyInit m l
  let i := m.len other
  let (m, e) := back m other
  pushFrontListLoop l i.toNat m e

/-- The loop of `PushFrontListTo(other, mark)`: dllist.go:200-202. -/
def pushFrontListToLoop (l : Nat) (mark : Nat) : Nat → Mem T → Option Ptr → Option (Mem T)
  | 0, m, _ => some m
  | i + 1, m, e => do
    let p ← e
    let v ← value m p
    let (m, _) ← insertValue m l v (some (.node mark))
    pushFrontListToLoop l mark i m (elPrev m p)

/-- `PushFrontListTo(other, mark)`: dllist.go:196-203. -/
def pushFrontListTo (m : Mem T) (l other : Nat) (mark : Nat) : Option (Mem T) :=
  if m.owner (.node mark) ≠ some l then some m
  else
    let i := m.len other
    let (m, e) := back m other
    pushFrontListToLoop l mark i.toNat m e

/-- `Swap(a, b)`: dllist.go:205-233. -/
def swap (m : Mem T) (l : Nat) (a b : Nat) : Option (Mem T) :=
  let pa := Ptr.node a
  let pb := Ptr.node b
  if m.owner pa ≠ some l ∨ m.owner pb ≠ some l ∨ a = b then some m
  else if m.next pa = some pb then do
    let ap ← m.prev pa
    let m := m.setNext ap (some pb)       -- a.prev.next = b
    let bn ← m.next pb
    let m := m.setPrev bn (some pa)       -- b.next.prev = a
    let m := m.setNext pa (m.next pb)     -- a.next = b.next
    let m := m.setPrev pb (m.prev pa)     -- b.prev = a.prev
    let m := m.setPrev pa (some pb)       -- a.prev = b
    some (m.setNext pb (some pa))         -- b.next = a
  else if m.next pb = some pa then do
    let bp ← m.prev pb
    let m := m.setNext bp (some pa)       -- b.prev.next = a
    let an ← m.next pa
    let m := m.setPrev an (some pb)       -- a.next.prev = b
    let m := m.setNext pb (m.next pa)     -- b.next = a.next
    let m := m.setPrev pa (m.prev pb)     -- a.prev = b.prev
    let m := m.setPrev pb (some pa)       -- b.prev = a
    some (m.setNext pa (some pb))         -- a.next = b
  else do
    let ap ← m.prev pa
    let m := m.setNext ap (some pb)       -- a.prev.next = b
    let an ← m.next pa
    let m := m.setPrev an (some pb)       -- a.next.prev = b
    let bp ← m.prev pb
    let m := m.setNext bp (some pa)       -- b.prev.next = a
    let bn ← m.next pb
    let m := m.setPrev bn (some pa)       -- b.next.prev = a
    let x := m.prev pb
    let y := m.prev pa
    let m := (m.setPrev pa x).setPrev pb y   -- a.prev, b.prev = b.prev, a.prev
    let x := m.next pb
    let y := m.next pa
    some ((m.setNext pa x).setNext pb y)     -- a.next, b.next = b.next, a.next

/-- `(*Element).Range(f)` (element.go:49-55) and the loop of `(*Dllist).Range(f)`
(dllist.go:237-241).  The callback is `body`, acting on the memory and on captured variables `A`;
its Boolean is the callback's result.  The loop may in principle not terminate, so it takes fuel;
`none` is a panic or exhausted fuel. The Boolean result says whether the end was reached. -/
def rangeLoop {A : Type} (body : Mem T → A → Ptr → Option (Mem T × A × Bool)) :
    Nat → Mem T → A → Option Ptr → Option (Mem T × A × Bool)
  | 0, _, _, _ => none
  | _ + 1, m, a, none => some (m, a, true)
  | k + 1, m, a, some e => do
    let (m, a, c) ← body m a e
    if c then rangeLoop body k m a (elNext m e) else some (m, a, false)

/-- `(*Dllist).Range(f)`: dllist.go:236-243. -/
def range {A : Type} (body : Mem T → A → Ptr → Option (Mem T × A × Bool)) (fuel : Nat)
    (m : Mem T) (a : A) (l : Nat) : Option (Mem T × A × Bool) :=
  let (m, e) := front m l
  rangeLoop body fuel m a e

/-- `Slice()`: dllist.go:246-253. -/
def slice (fuel : Nat) (m : Mem T) (l : Nat) : Option (Mem T × List T) := do
  let (m, s, _) ← range (fun m (s : List T) e => do
    let v ← value m e
    some (m, s ++ [v], true)) fuel m [] l
  some (m, s)

/-- `Sort(cmpLess)`: dllist.go:255-289.  Fuel bounds the recursion depth and the loops. -/
def sort (less : T → T → Bool) : Nat → Mem T → Nat → Option (Mem T)
  | 0, _, _ => none
  | fuel + 1, m, l =>
    if m.len l ≤ 1 then some m
    else do
      let (m, f) := front m l
      let f ← f
      let pivot ← value m f                        -- pivot := l.Front().Value
      let (m, smaller) := new m
      let (m, larger) := new m
      let (m, f) := front m l
      let f ← f
      let (m, _, _) ← rangeLoop (fun m (_ : Unit) e => do     -- l.Front().Next().Range(...)
        let v ← value m e
        if less v pivot then do
          let (m, _) ← pushBack m smaller v
          some (m, (), true)
        else do
          let (m, _) ← pushBack m larger v
          some (m, (), true)) fuel m () (elNext m f)
      let m ← sort less fuel m smaller
      let m ← sort less fuel m larger
      let m := clear m l
      let (m, _, _) ← range (fun m (_ : Unit) e => do
        let v ← value m e
        let (m, _) ← pushBack m l v
        some (m, (), true)) fuel m () smaller
      let (m, _) ← pushBack m l pivot
      let (m, _, _) ← range (fun m (_ : Unit) e => do
        let v ← value m e
        let (m, _) ← pushBack m l v
        some (m, (), true)) fuel m () larger
      some m

end Verif.Dllist
