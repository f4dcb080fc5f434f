import Verif.Lib.GMap
/-!
# Model of package `set`

`Set[T]` is `map[T]struct{}`: set.go:9.  A set value is a reference to a map (or nil); see
`Verif.Lib.GMap` for Go maps and the functions of `golang.org/x/exp/maps` the package calls.
`none` is a panic (assignment to a nil map).
-/
namespace Verif.GoSet
variable {T : Type} [DecidableEq T]

abbrev Mem (T : Type) := MMem T Unit
abbrev Ord (T : Type) := Oracle T Unit

/-- `New`: set.go:12-14. -/
def new (m : Mem T) : Mem T × MRef := m.make

/-- `Len`: set.go:17-19. -/
def len (m : Mem T) (s : MRef) : Nat := (m.at s).length

/-- `Slice`: set.go:21-23. -/
def slice (ω : Ord T) (m : Mem T) (s : MRef) : Mem T × List T := m.keys ω s

/-- `Clone`: set.go:26-28. -/
def clone (ω : Ord T) (m : Mem T) (s : MRef) : Option (Mem T × MRef) := m.clone ω s

/-- `Push`: set.go:30-35. -/
def push (m : Mem T) (s : MRef) (vals : List T) : Option (Mem T) :=
  vals.foldlM (fun m v => m.store s v ()) m

/-- `Contain`: set.go:50-53. -/
def contain (m : Mem T) (s : MRef) (v : T) : Bool := (aget (m.at s) v).isSome

/-- `Insert`: set.go:40-46. -/
def insert (m : Mem T) (s : MRef) (v : T) : Option (Mem T × Bool) :=
  if contain m s v then some (m, false)
  else do
    let m ← m.store s v ()
    some (m, true)

/-- `Remove`: set.go:58-64. -/
def remove (m : Mem T) (s : MRef) (v : T) : Mem T × Bool :=
  if contain m s v then (m.delete s v, true) else (m, false)

/-- `IsEmpty`: set.go:66-68. -/
def isEmpty (m : Mem T) (s : MRef) : Bool := len m s == 0

/-- `Clear`: set.go:70-73. -/
def clear (ω : Ord T) (m : Mem T) (s : MRef) : Mem T := m.clearMap ω s

/-- `CopyFrom`: set.go:75-78. -/
def copyFrom (ω : Ord T) (m : Mem T) (s t : MRef) : Option (Mem T) := m.copy ω s t

/-- `ContainAndRemove`: set.go:81-83. -/
def containAndRemove (m : Mem T) (s : MRef) (v : T) : Mem T × Bool := remove m s v

/-- The loop of `Range(f)` (set.go:85-91) over the keys in visiting order; the callback acts on the
captured variables `A` (which may include the memory) and says whether to continue. -/
def rangeLoop {A : Type} (f : A → T → Option (A × Bool)) : A → List T → Option A
  | a, [] => some a
  | a, x :: xs => do
    let (a, c) ← f a x
    if c then rangeLoop f a xs else some a

/-- `Equal`: set.go:93-95 (`maps.Equal`: lengths, then every entry compared with `==`). -/
def equal (ω : Ord T) (m : Mem T) (s t : MRef) : Mem T × Bool :=
  m.equalFunc ω s t (fun _ _ => true)

/-- `IsSubSet`: set.go:98-111. -/
def isSubSet (ω : Ord T) (m : Mem T) (s t : MRef) : Option (Mem T × Bool) :=
  if len m s > len m t then some (m, false)
  else do
    let (m, es) := m.keys ω s
    let b ← rangeLoop (fun _ x => some (if contain m t x then (true, true) else (false, false)))
      true es
    some (m, b)

/-- `IsSupperSet`: set.go:114-116. -/
def isSupperSet (ω : Ord T) (m : Mem T) (s t : MRef) : Option (Mem T × Bool) := do
  let (m, b) ← isSubSet ω m t s
  some (m, !b)

/-- `Difference`: set.go:119-128. -/
def difference (ω : Ord T) (m : Mem T) (s t : MRef) : Option (Mem T × MRef) := do
  let (m, diff) := new m
  let (m, es) := m.keys ω s
  let m ← rangeLoop (fun m x =>
    if !contain m t x then do
      let (m, _) ← insert m diff x
      some (m, true)
    else some (m, true)) m es
  some (m, diff)

/-- `SymmetricDifference`: set.go:131-146. -/
def symmetricDifference (ω : Ord T) (m : Mem T) (s t : MRef) : Option (Mem T × MRef) := do
  let (m, diff) := new m
  let (m, es) := m.keys ω s
  let m ← rangeLoop (fun m x =>
    if !contain m t x then do
      let (m, _) ← insert m diff x
      some (m, true)
    else some (m, true)) m es
  let (m, es) := m.keys ω t
  let m ← rangeLoop (fun m x =>
    if !contain m s x then do
      let (m, _) ← insert m diff x
      some (m, true)
    else some (m, true)) m es
  some (m, diff)

/-- `Intersection`: set.go:149-158. -/
def intersection (ω : Ord T) (m : Mem T) (s t : MRef) : Option (Mem T × MRef) := do
  let (m, inter) := new m
  let (m, es) := m.keys ω s
  let m ← rangeLoop (fun m x =>
    if contain m t x then do
      let (m, _) ← insert m inter x
      some (m, true)
    else some (m, true)) m es
  some (m, inter)

/-- One `v.Range(func(val T) bool { union.Insert(val); return true })`: set.go:163-166, 168-171. -/
def addAll (ω : Ord T) (m : Mem T) (union v : MRef) : Option (Mem T) := do
  let (m, es) := m.keys ω v
  rangeLoop (fun m x => do
    let (m, _) ← insert m union x
    some (m, true)) m es

/-- `Union`: set.go:161-174. -/
def union (ω : Ord T) (m : Mem T) (s : MRef) (ts : List MRef) : Option (Mem T × MRef) := do
  let (m, u) := new m
  let m ← addAll ω m u s
  let m ← ts.foldlM (fun m v => addAll ω m u v) m
  some (m, u)

end Verif.GoSet
