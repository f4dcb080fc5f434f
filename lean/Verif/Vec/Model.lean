import Verif.Vec.Spec
/-!
# Model of `vec/vec.go`

Slices are (array, offset, length, capacity) over a memory of arrays; `append` writes in place when
the capacity suffices and otherwise allocates an array with any excess capacity (`g`, the growth
oracle, indexed by the address of the new array).  `own` is a ghost field: for which vector an array
was allocated.

The functions of `golang.org/x/exp/slices` (which at the version in `go.mod` are those of the
standard library, Go 1.22) are transcribed below, except that sorting is any function obeying the
documented contract (`SortImpl`).  They are not part of `/repo`.

Simplifications.
* Variadic arguments are values: the elements are read when the call starts.  (`append` copies with
  memmove semantics and `slices.Insert`/`Replace` treat overlapping arguments specially, so this is
  what happens.)
* A nil slice is a slice of a zero-length array; `== nil` is not observable through the API except
  for the results of `Cut` and `SliceCut` (`none`).
* Comparison functions are pure and total (with effects: `Effects.lean`); the detected ones (`Elt.less`, `Elt.eq`) may be missing,
  and then every comparison panics.  Detection is repeated instead of cached: it depends on the type
  only.
* Panicking calls return no state.
-/
namespace Verif.Vec
variable {T : Type}

structure Mem (T : Type) where
  arr : Nat → List T
  own : Nat → Option Nat
  na : Nat

/-- The elements of a slice. -/
def Mem.read (m : Mem T) (s : Slice) : List T := ((m.arr s.a).drop s.off).take s.len

/-- Store `xs` in array `a` from position `off` on. -/
def Mem.write (m : Mem T) (a off : Nat) (xs : List T) : Mem T :=
  { m with arr := fun b => if b = a then (m.arr a).take off ++ xs ++ (m.arr a).drop (off + xs.length) else m.arr b }

/-- A new array. -/
def Mem.alloc (m : Mem T) (o : Option Nat) (xs : List T) : Mem T :=
  { arr := fun b => if b = m.na then xs else m.arr b
    own := fun b => if b = m.na then o else m.own b
    na := m.na + 1 }

/-- `s[i:j]`; all uses are preceded by the test that it is in range. -/
def sub (s : Slice) (i j : Nat) : Slice := { a := s.a, off := s.off + i, len := j - i, cap := s.cap - i }

section
variable (E : Elt T) (g : Nat → Nat)

/-- `append(s, xs...)`. -/
def append (o : Option Nat) (m : Mem T) (s : Slice) (xs : List T) : Mem T × Slice :=
  if s.len + xs.length ≤ s.cap then
    (m.write s.a (s.off + s.len) xs, { s with len := s.len + xs.length })
  else
    (m.alloc o (m.read s ++ xs ++ List.replicate (g m.na) E.zero),
      { a := m.na, off := 0, len := s.len + xs.length, cap := s.len + xs.length + g m.na })

/-- `slices.Grow`, n ≥ 0. -/
def growS (o : Option Nat) (m : Mem T) (s : Slice) (n : Nat) : Mem T × Slice :=
  if 0 < n - (s.cap - s.len) then
    let r := append E g o m (sub s 0 s.cap) (List.replicate (n - (s.cap - s.len)) E.zero)
    (r.1, sub r.2 0 s.len)
  else (m, s)

/-- `slices.Clip`: `s[:len(s):len(s)]`. -/
def clipS (s : Slice) : Slice := { s with cap := s.len }

/-- `slices.Clone`. -/
def cloneS (m : Mem T) (s : Slice) : Mem T × Slice :=
  let r := m.alloc none []
  append E g none r { a := m.na, off := 0, len := 0, cap := 0 } (m.read s)

/-- `clear(s[i:j])`. -/
def clearS (m : Mem T) (s : Slice) (i j : Nat) : Mem T := m.write s.a (s.off + i) (List.replicate (j - i) E.zero)

/-- `slices.Insert`, 0 ≤ i ≤ len. -/
def insertS (o : Option Nat) (m : Mem T) (s : Slice) (i : Nat) (xs : List T) : Mem T × Slice :=
  if xs.length = 0 then (m, s)
  else if i = s.len then append E g o m s xs
  else if s.cap < s.len + xs.length then
    let tail := (m.read s).drop i
    let r := append E g o m (sub s 0 i) (List.replicate (s.len + xs.length - i) E.zero)
    let m := r.1.write r.2.a (r.2.off + i) xs
    (m.write r.2.a (r.2.off + i + xs.length) tail, r.2)
  else
    let tail := (m.read s).drop i
    let s := { s with len := s.len + xs.length }
    let m := m.write s.a (s.off + i + xs.length) tail
    (m.write s.a (s.off + i) xs, s)

/-- `slices.Delete`, 0 ≤ i ≤ j ≤ len. -/
def deleteS (o : Option Nat) (m : Mem T) (s : Slice) (i j : Nat) : Mem T × Slice :=
  if i = j then (m, s)
  else
    let r := append E g o m (sub s 0 i) ((m.read s).drop j)
    (clearS E r.1 r.2 r.2.len s.len, r.2)

/-- `slices.Replace`, 0 ≤ i ≤ j ≤ len. -/
def replaceS (o : Option Nat) (m : Mem T) (s : Slice) (i j : Nat) (xs : List T) : Mem T × Slice :=
  if i = j then insertS E g o m s i xs
  else if j = s.len then
    let r := append E g o m (sub s 0 i) xs
    if r.2.len < s.len then (clearS E r.1 s r.2.len s.len, r.2) else r
  else
    let tail := (m.read s).drop j
    let tot := i + xs.length + tail.length
    if s.cap < tot then
      let r := append E g o m (sub s 0 i) (List.replicate (tot - i) E.zero)
      let m := r.1.write r.2.a (r.2.off + i) xs
      (m.write r.2.a (r.2.off + i + xs.length) tail, r.2)
    else if i + xs.length ≤ j then
      let m := m.write s.a (s.off + i) xs
      let m := m.write s.a (s.off + i + xs.length) tail
      (clearS E m s tot s.len, { s with len := tot })
    else
      let m := m.write s.a (s.off + i + xs.length) tail
      (m.write s.a (s.off + i) xs, { s with len := tot })
end

/-- The loop of `slices.CompactFunc` on the elements: `i` the next free place, `k` the next element
to look at; returns the final elements and `i`. -/
def compactLoop (eq : T → T → Bool) : Nat → List T → Nat → Nat → List T × Nat
  | 0, s, i, _ => (s, i)
  | n + 1, s, i, k =>
    match s[k]?, s[k - 1]? with
    | some x, some y =>
      if eq x y then compactLoop eq n s i (k + 1)
      else compactLoop eq n (if i = k then s else s.set i x) (i + 1) (k + 1)
    | _, _ => (s, i)

/-- `slices.CompactFunc`. -/
def compactS (E : Elt T) (m : Mem T) (s : Slice) (eq : T → T → Bool) : Mem T × Slice :=
  if s.len < 2 then (m, s)
  else
    let r := compactLoop eq (s.len - 1) (m.read s) 1 1
    (clearS E (m.write s.a s.off r.1) s r.2 s.len, { s with len := r.2 })

/-- The loop of `slices.Reverse` on the elements. -/
def revLoop : Nat → List T → Nat → Nat → List T
  | 0, s, _, _ => s
  | n + 1, s, i, j => if i < j then revLoop n (swapL s i j) (i + 1) (j - 1) else s

/-- `slices.Reverse`. -/
def reverseS (m : Mem T) (s : Slice) : Mem T :=
  m.write s.a s.off (revLoop s.len (m.read s) 0 (s.len - 1))

/-! ## Vectors -/

/-- `Vec`: vec.go:10-13. -/
structure Obj (T : Type) where
  d : Slice
  less : Cmp T
  eq : Cmp T

structure VMem (T : Type) where
  mem : Mem T
  vec : Nat → Obj T
  nv : Nat

def VMem.empty : VMem T :=
  { mem := { arr := fun _ => [], own := fun _ => none, na := 0 }
    vec := fun _ => { d := { a := 0, off := 0, len := 0, cap := 0 }, less := .auto, eq := .auto }
    nv := 0 }

/-- `v.d = d`. -/
def VMem.setD (m : VMem T) (v : Nat) (r : Mem T × Slice) : VMem T :=
  { m with mem := r.1, vec := fun w => if w = v then { m.vec v with d := r.2 } else m.vec w }

def VMem.d (m : VMem T) (v : Nat) : Slice := (m.vec v).d

/-- `Len`: vec.go:110-112. -/
def VMem.len (m : VMem T) (v : Nat) : Nat := (m.d v).len

/-- `v.d[i]`, in range. -/
def VMem.at (E : Elt T) (m : VMem T) (v : Nat) (i : Nat) : T :=
  ((m.mem.arr (m.d v).a)[(m.d v).off + i]?).getD E.zero

/-- The function called by `CmpLess`: vec.go:297-299, with `autoDetectSetCmpLess`: vec.go:37-67. -/
def VMem.less (E : Elt T) (m : VMem T) (v : Nat) : Option (T → T → Bool) :=
  resolve E.less (fun w => (m.vec w).less) (v + 1) v

/-- The function called by `CmpEqual`: vec.go:305-307, with `autoDetectSetCmpEqual`: vec.go:69-98. -/
def VMem.eq (E : Elt T) (m : VMem T) (v : Nat) : Option (T → T → Bool) :=
  resolve E.eq (fun w => (m.vec w).eq) (v + 1) v

/-- `New`: vec.go:29-35 (with the options vec.go:17-27). -/
def VMem.new (m : VMem T) (less eq : Cmp T) : VMem T :=
  { mem := m.mem.alloc (some m.nv) []
    vec := fun w => if w = m.nv then
      { d := { a := m.mem.na, off := 0, len := 0, cap := 0 }, less := less, eq := eq } else m.vec w
    nv := m.nv + 1 }

section
variable (E : Elt T) (g : Nat → Nat) (P : SortImpl T)

/-- `Push`: vec.go:115-121. -/
def push (m : VMem T) (v : Nat) (xs : List T) : VMem T :=
  let m := if (m.d v).cap < m.len v + xs.length then m.setD v (growS E g (some v) m.mem (m.d v) xs.length) else m
  m.setD v (append E g (some v) m.mem (m.d v) xs)

/-- `Remove`: vec.go:128-141. -/
def remove (m : VMem T) (v : Nat) (i : Int) : VMem T × Res T :=
  let l := m.len v
  if i ≥ l ∨ i < 0 then (m, .elem E.zero false)
  else
    let i := i.toNat
    let e := m.at E v i
    if i = l - 1 then (m.setD v (m.mem, sub (m.d v) 0 i), .elem e true)
    else
      let mem := m.mem.write (m.d v).a ((m.d v).off + i) ((m.mem.read (m.d v)).drop (i + 1))
      (m.setD v (mem, sub (m.d v) 0 (l - 1)), .elem e true)

/-- `Cut`: vec.go:257-264. -/
def cut (m : VMem T) (v : Nat) (i j : Int) : VMem T × Option Slice :=
  if i < 0 ∨ j > m.len v ∨ i > j then (m, none)
  else
    let val := sub (m.d v) i.toNat j.toNat
    (m.setD v (append E g (some v) m.mem (sub (m.d v) 0 i.toNat) ((m.mem.read (m.d v)).drop j.toNat)), some val)

/-- The elements of the result of `Cut`. -/
def VMem.elems (m : VMem T) : Option Slice → List T
  | none => []
  | some s => m.mem.read s

/-- `SplitOff`: vec.go:271-273. -/
def splitOff (m : VMem T) (v : Nat) (i : Int) : VMem T :=
  let n := m.nv
  let m := m.new (.same v) (.same v)
  let r := cut E g m v i (m.len v)
  push E g r.1 n (r.1.elems r.2)

/-- `Swap`: vec.go:275-280. -/
def swap (m : VMem T) (v : Nat) (i j : Int) : VMem T :=
  if i < 0 ∨ i ≥ m.len v ∨ j < 0 ∨ j ≥ m.len v then m
  else
    let x := m.at E v i.toNat
    let y := m.at E v j.toNat
    let mem := m.mem.write (m.d v).a ((m.d v).off + i.toNat) [y]
    let mem := mem.write (m.d v).a ((m.d v).off + j.toNat) [x]
    m.setD v (mem, m.d v)

/-- `ConpareAndRemove`: vec.go:283-291. -/
def compareAndRemove (m : VMem T) (v : Nat) (i : Int) (x : T) : Option (VMem T × Res T) :=
  if i < 0 ∨ i ≥ m.len v then some (m, .elem E.zero false)
  else
    match m.eq E v with
    | none => none
    | some eq =>
      if eq (m.at E v i.toNat) x then some (remove E m v i)
      else some (m, .elem E.zero false)

/-- `SortFunc`, `SortStableFunc`: vec.go:465-476, 484-495; `f` is the sorting function with its comparison. -/
def sortBy (f : List T → Option (List T)) (m : VMem T) (v : Nat) : Option (VMem T × Res T) :=
  (f (m.mem.read (m.d v))).map fun l => (m.setD v (m.mem.write (m.d v).a (m.d v).off l, m.d v), .unit)

/-- One call; `none`: it panics. -/
def exec (m : VMem T) : Mut T → Option (VMem T × Res T)
  | .new less eq => some (m.new (ofOpt less) (ofOpt eq), .vec m.nv)
  -- vec.go:100-103
  | .setCmpLess v f => some ({ m with vec := fun w => if w = v then { m.vec v with less := ofOpt f } else m.vec w }, .unit)
  -- vec.go:105-108
  | .setCmpEqual v f => some ({ m with vec := fun w => if w = v then { m.vec v with eq := ofOpt f } else m.vec w }, .unit)
  | .push v xs => some (push E g m v xs, .unit)
  -- vec.go:124-126
  | .pop v => some (remove E m v ((m.len v : Int) - 1))
  | .remove v i => some (remove E m v i)
  -- vec.go:150-156
  | .set v i x =>
    if i ≥ m.len v ∨ i < 0 then some (m, .bool false)
    else some (m.setD v (m.mem.write (m.d v).a ((m.d v).off + i.toNat) [x], m.d v), .bool true)
  -- vec.go:167-170
  | .clear v => some (m.setD v (m.mem, sub (m.d v) 0 0), .unit)
  | .cut v i j => let r := cut E g m v i j; some (r.1, .slice r.2)
  | .splitOff v i => some (splitOff E g m v i, .vec m.nv)
  | .swap v i j => some (swap E m v i j, .unit)
  | .compareAndRemove v i x => compareAndRemove E m v i x
  -- vec.go:310-313
  | .grow v n => if n < 0 then none else some (m.setD v (growS E g (some v) m.mem (m.d v) n.toNat), .unit)
  -- vec.go:316-319
  | .clip v => some (m.setD v (m.mem, clipS (m.d v)), .unit)
  -- vec.go:321-323
  | .clone v => some (push E g (m.new (.same v) (.same v)) m.nv (m.mem.read (m.d v)), .vec m.nv)
  -- vec.go:332-335
  | .compact v =>
    if m.len v < 2 then some (m, .unit)
    else match m.eq E v with
      | none => none
      | some eq => some (m.setD v (compactS E m.mem (m.d v) eq), .unit)
  -- vec.go:340-342
  | .compactFunc v eq => some (m.setD v (compactS E m.mem (m.d v) eq), .unit)
  -- vec.go:372-374
  | .delete v i j =>
    if 0 ≤ i ∧ i ≤ j ∧ j ≤ m.len v then some (m.setD v (deleteS E g (some v) m.mem (m.d v) i.toNat j.toNat), .unit)
    else none
  -- vec.go:395-398
  | .insert v i xs =>
    if 0 ≤ i ∧ i ≤ m.len v then some (m.setD v (insertS E g (some v) m.mem (m.d v) i.toNat xs), .unit)
    else none
  -- vec.go:448-450
  | .replace v i j xs =>
    if 0 ≤ i ∧ i ≤ j ∧ j ≤ m.len v then some (m.setD v (replaceS E g (some v) m.mem (m.d v) i.toNat j.toNat xs), .unit)
    else none
  -- vec.go:453-456
  | .reverse v => some (m.setD v (reverseS m.mem (m.d v), m.d v), .unit)
  -- vec.go:461-463
  | .sort v => sortBy (P.sort (three? (m.less E v) (m.eq E v))) m v
  | .sortFunc v less eq => sortBy (P.sort (three? (some less) (some eq))) m v
  -- vec.go:480-482
  | .sortStable v => sortBy (P.stable (three? (m.less E v) (m.eq E v))) m v
  | .sortStableFunc v less eq => sortBy (P.stable (three? (some less) (some eq))) m v
end

/-! ## Methods that only look -/

/-- `slices.IndexFunc` from index `i` on. -/
def indexFunc (p : T → Option Bool) : List T → Nat → Option Int
  | [], _ => some (-1)
  | x :: l, i => do
    if ← p x then some (i : Int) else indexFunc p l (i + 1)

/-- The loop of `Range` with a callback that looks at index and element: vec.go:236-242; returns the
calls made. -/
def rangeLoop (c : Nat → T → Option Bool) : List T → Nat → Option (List (Nat × T))
  | [], _ => some []
  | x :: l, i => do
    if ← c i x then
      let r ← rangeLoop c l (i + 1)
      some ((i, x) :: r)
    else some [(i, x)]

/-- `SearchAllFunc`: vec.go:190-198. -/
def searchAllLoop (p : T → Option Bool) : List T → Nat → List Nat → Option (List Nat)
  | [], _, acc => some acc
  | x :: l, i, acc => do
    if ← p x then searchAllLoop p l (i + 1) (acc ++ [i]) else searchAllLoop p l (i + 1) acc

/-- The loop of `slices.BinarySearchFunc` (`n` bounds the number of rounds). -/
def binLoop (cmp : T → Option Int) (x : List T) : Nat → Nat → Nat → Option Nat
  | n, i, j =>
    if i < j then
      match n with
      | 0 => none
      | n + 1 => do
        let h := (i + j) / 2
        let y ← x[h]?
        let c ← cmp y
        if c < 0 then binLoop cmp x n (h + 1) j else binLoop cmp x n i h
    else some i

/-- `slices.BinarySearchFunc`. -/
def binarySearchFunc (cmp : T → Option Int) (x : List T) : Option (Nat × Bool) := do
  let i ← binLoop cmp x x.length 0 x.length
  match x[i]? with
  | none => some (i, false)
  | some y =>
    let c ← cmp y
    some (i, decide (c = 0))

/-- `slices.CompareFunc`. -/
def compareLoop (cmp : T → T → Option Int) : List T → List T → Option Int
  | [], [] => some 0
  | [], _ :: _ => some (-1)
  | _ :: _, [] => some 1
  | a :: l, b :: l' => do
    let c ← cmp a b
    if c ≠ 0 then some c else compareLoop cmp l l'

/-- `slices.EqualFunc`, after the comparison of the lengths. -/
def equalLoop (eq : T → T → Option Bool) : List T → List T → Option Bool
  | a :: l, b :: l' => do
    if ← eq a b then equalLoop eq l l' else some false
  | _, _ => some true

/-- `slices.EqualFunc`. -/
def equalFunc (eq : T → T → Option Bool) (l l' : List T) : Option Bool :=
  if l.length ≠ l'.length then some false else equalLoop eq l l'

/-- `slices.IsSortedFunc`: `i` from the end down to 1. -/
def sortedLoop (cmp : T → T → Option Int) (x : List T) : Nat → Option Bool
  | 0 => some true
  | i + 1 => do
    let a ← x[i + 1]?
    let b ← x[i]?
    let c ← cmp a b
    if c < 0 then some false else sortedLoop cmp x i

/-- The loop of `slices.MinFunc`. -/
def minLoop (cmp : T → T → Option Int) : T → List T → Option T
  | m, [] => some m
  | m, x :: l => do
    let c ← cmp x m
    if c < 0 then minLoop cmp x l else minLoop cmp m l

/-- The loop of `slices.MaxFunc`. -/
def maxLoop (cmp : T → T → Option Int) : T → List T → Option T
  | m, [] => some m
  | m, x :: l => do
    let c ← cmp x m
    if c > 0 then maxLoop cmp x l else maxLoop cmp m l

/-- `slices.MinFunc`, `slices.MaxFunc`: they panic on an empty slice. -/
def minFunc (cmp : T → T → Option Int) : List T → Option T
  | [] => none
  | x :: l => minLoop cmp x l
def maxFunc (cmp : T → T → Option Int) : List T → Option T
  | [] => none
  | x :: l => maxLoop cmp x l

section
variable (E : Elt T)

/-- The elements `v.d`. -/
def VMem.list (m : VMem T) (v : Nat) : List T := m.mem.read (m.d v)

def call (f : Option (T → T → Bool)) (a b : T) : Option Bool := f.map fun f => f a b

/-- `Get`: vec.go:143-148. -/
def VMem.get (m : VMem T) (v : Nat) (i : Int) : T × Bool :=
  if i ≥ m.len v ∨ i < 0 then (E.zero, false) else (m.at E v i.toNat, true)
/-- `First`: vec.go:222-227. -/
def VMem.first (m : VMem T) (v : Nat) : T × Bool := if m.len v = 0 then (E.zero, false) else (m.at E v 0, true)
/-- `Last`: vec.go:229-234. -/
def VMem.last (m : VMem T) (v : Nat) : T × Bool :=
  if m.len v = 0 then (E.zero, false) else (m.at E v (m.len v - 1), true)
/-- `IsEmpty`: vec.go:162-164. -/
def VMem.isEmpty (m : VMem T) (v : Nat) : Bool := decide (m.len v = 0)
/-- `Cap`: vec.go:158-160. -/
def VMem.cap (m : VMem T) (v : Nat) : Nat := (m.d v).cap
/-- `Range`: vec.go:236-242. -/
def VMem.range (m : VMem T) (v : Nat) (c : Nat → T → Bool) : Option (List (Nat × T)) :=
  rangeLoop (fun i x => some (c i x)) (m.list v) 0
/-- `SliceCut`: vec.go:245-250. -/
def VMem.sliceCut (m : VMem T) (v : Nat) (i j : Int) : Option Slice :=
  if i < 0 ∨ j > m.len v ∨ i > j then none else some (sub (m.d v) i.toNat j.toNat)
/-- `Slice`: vec.go:252-254. -/
def VMem.slice (m : VMem T) (v : Nat) : Slice := m.d v
/-- `CloneToSlice`: vec.go:325-327. -/
def VMem.cloneToSlice (g : Nat → Nat) (m : VMem T) (v : Nat) : VMem T × Slice :=
  let r := cloneS E g m.mem (m.d v)
  ({ m with mem := r.1 }, r.2)
/-- `SearchFunc`: vec.go:178-182. -/
def VMem.searchFunc (m : VMem T) (v : Nat) (p : T → Bool) : Option Int := indexFunc (fun x => some (p x)) (m.list v) 0
/-- `Search`: vec.go:172-176. -/
def VMem.search (m : VMem T) (v : Nat) (t : T) : Option Int := indexFunc (fun x => call (m.eq E v) t x) (m.list v) 0
/-- `SearchAllFunc`: vec.go:190-198. -/
def VMem.searchAllFunc (m : VMem T) (v : Nat) (p : T → Bool) : Option (List Nat) :=
  searchAllLoop (fun x => some (p x)) (m.list v) 0 []
/-- `SearchAll`: vec.go:184-188. -/
def VMem.searchAll (m : VMem T) (v : Nat) (t : T) : Option (List Nat) :=
  searchAllLoop (fun x => call (m.eq E v) t x) (m.list v) 0 []
/-- `ContainsFunc`: vec.go:368-370. -/
def VMem.containsFunc (m : VMem T) (v : Nat) (p : T → Bool) : Option Bool := do
  some (decide ((← indexFunc (fun x => some (p x)) (m.list v) 0) ≥ 0))
/-- `Contains`: vec.go:362-366. -/
def VMem.contains (m : VMem T) (v : Nat) (t : T) : Option Bool := do
  some (decide ((← indexFunc (fun x => call (m.eq E v) x t) (m.list v) 0) ≥ 0))
/-- `BinarySearch`: vec.go:206-216. -/
def VMem.binarySearch (m : VMem T) (v : Nat) (t : T) : Option (Nat × Bool) :=
  binarySearchFunc (fun x => three? (m.less E v) (m.eq E v) x t) (m.list v)
/-- `BinarySearchFunc`: vec.go:218-220. -/
def VMem.binarySearchFunc (m : VMem T) (v : Nat) (t : T) (cmp : T → T → Int) : Option (Nat × Bool) :=
  Vec.binarySearchFunc (fun x => some (cmp x t)) (m.list v)
/-- `CompareFunc`: vec.go:350-360. -/
def VMem.compareFunc (m : VMem T) (v w : Nat) (less eq : Option (T → T → Bool)) : Option Int :=
  compareLoop (three? less eq) (m.list v) (m.list w)
/-- `Compare`: vec.go:346-348. -/
def VMem.compare (m : VMem T) (v w : Nat) : Option Int := m.compareFunc v w (m.less E v) (m.eq E v)
/-- `EqualVec`, `EqualVecFunc`: vec.go:376-378, 384-386. -/
def VMem.equalVecFunc (m : VMem T) (v w : Nat) (eq : Option (T → T → Bool)) : Option Bool :=
  equalFunc (call eq) (m.list v) (m.list w)
def VMem.equalVec (m : VMem T) (v w : Nat) : Option Bool := m.equalVecFunc v w (m.eq E v)
/-- `EqualSlice`, `EqualSliceFunc`: vec.go:380-382, 388-390. -/
def VMem.equalSliceFunc (m : VMem T) (v : Nat) (l : List T) (eq : Option (T → T → Bool)) : Option Bool :=
  equalFunc (call eq) (m.list v) l
def VMem.equalSlice (m : VMem T) (v : Nat) (l : List T) : Option Bool := m.equalSliceFunc v l (m.eq E v)
/-- `IsSortedFunc`: vec.go:404-414. -/
def VMem.isSortedFunc (m : VMem T) (v : Nat) (less eq : Option (T → T → Bool)) : Option Bool :=
  sortedLoop (three? less eq) (m.list v) (m.len v - 1)
/-- `IsSorted`: vec.go:400-402. -/
def VMem.isSorted (m : VMem T) (v : Nat) : Option Bool := m.isSortedFunc v (m.less E v) (m.eq E v)
/-- `MaxFunc`, `Max`: vec.go:416-430. -/
def VMem.maxFunc (m : VMem T) (v : Nat) (less eq : Option (T → T → Bool)) : Option T :=
  Vec.maxFunc (three? less eq) (m.list v)
def VMem.max (m : VMem T) (v : Nat) : Option T := m.maxFunc v (m.less E v) (m.eq E v)
/-- `MinFunc`, `Min`: vec.go:432-446. -/
def VMem.minFunc (m : VMem T) (v : Nat) (less eq : Option (T → T → Bool)) : Option T :=
  Vec.minFunc (three? less eq) (m.list v)
def VMem.min (m : VMem T) (v : Nat) : Option T := m.minFunc v (m.less E v) (m.eq E v)
/-- `Less`, `Equal`: vec.go:293-303; index out of range panics. -/
def VMem.lessAt (m : VMem T) (v : Nat) (i j : Int) : Option Bool :=
  if 0 ≤ i ∧ i < m.len v ∧ 0 ≤ j ∧ j < m.len v then call (m.less E v) (m.at E v i.toNat) (m.at E v j.toNat) else none
def VMem.equalAt (m : VMem T) (v : Nat) (i j : Int) : Option Bool :=
  if 0 ≤ i ∧ i < m.len v ∧ 0 ≤ j ∧ j < m.len v then call (m.eq E v) (m.at E v i.toNat) (m.at E v j.toNat) else none
end

end Verif.Vec
