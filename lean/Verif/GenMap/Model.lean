import Verif.Lib.GMap
/-!
# Model of package `genmap`

`GenMap[K, V]` is `map[K]V`: genmap.go:7.  See `Verif.Lib.GMap` for Go maps and the functions of
`golang.org/x/exp/maps` the package calls.  `none` is a panic.  `V` comes with its zero value.
`From`/`Map` (genmap.go:13-15, 42-44) are identities on references, and `CopyToRaw`/`CopyFromRaw`
(genmap.go:110-113, 120-123) are `CopyTo`/`CopyFrom` at the type `map[K]V`; they have no separate
definition.  Callbacks are functions of their arguments.
-/
namespace Verif.GenMap
variable {K V : Type} [DecidableEq K] [Inhabited V]

/-- The two-value map read `v, ok = m[k]`: the zero value if absent. -/
def read (m : MMem K V) (r : MRef) (k : K) : V × Bool :=
  match aget (m.at r) k with
  | some v => (v, true)
  | none => (default, false)

/-- `New`: genmap.go:9-11. -/
def new (m : MMem K V) : MMem K V × MRef := m.make

/-- `Len`: genmap.go:17-19. -/
def len (m : MMem K V) (r : MRef) : Nat := (m.at r).length

/-- `Load`: genmap.go:21-24. -/
def load (m : MMem K V) (r : MRef) (k : K) : V × Bool := read m r k

/-- `Store`: genmap.go:26-29. -/
def store (m : MMem K V) (r : MRef) (k : K) (v : V) : Option (MMem K V × MRef) := do
  let m ← m.store r k v
  some (m, r)

/-- `Delete`: genmap.go:31-34. -/
def delete (m : MMem K V) (r : MRef) (k : K) : MMem K V × MRef := (m.delete r k, r)

/-- `CopyFrom`: genmap.go:115-118. -/
def copyFrom (ω : Oracle K V) (m : MMem K V) (r src : MRef) : Option (MMem K V × MRef) := do
  let m ← m.copy ω r src
  some (m, r)

/-- `CopyTo`: genmap.go:105-108. -/
def copyTo (ω : Oracle K V) (m : MMem K V) (r dst : MRef) : Option (MMem K V × MRef) := do
  let m ← m.copy ω dst r
  some (m, r)

/-- `Clone`: genmap.go:37-39. -/
def clone (ω : Oracle K V) (m : MMem K V) (r : MRef) : Option (MMem K V × MRef) :=
  let (m, n) := new m
  copyFrom ω m n r

/-- `Keys`: genmap.go:46-48. -/
def keys (ω : Oracle K V) (m : MMem K V) (r : MRef) : MMem K V × List K := m.keys ω r

/-- `Values`: genmap.go:50-52. -/
def values (ω : Oracle K V) (m : MMem K V) (r : MRef) : MMem K V × List V := m.values ω r

/-- The loop of `Range` over the entries in visiting order. -/
def rangeLoop {A : Type} (f : A → K → V → A × Bool) : A → List (K × V) → A × Bool
  | a, [] => (a, true)
  | a, (k, v) :: es =>
    let (a, c) := f a k v
    if !c then (a, false) else rangeLoop f a es

/-- `Range`: genmap.go:54-61; the callback acts on the captured variables `A`. -/
def range {A : Type} (ω : Oracle K V) (m : MMem K V) (r : MRef) (f : A → K → V → A × Bool) (a : A) :
    MMem K V × A × Bool :=
  let (m, es) := m.range ω r
  (m, rangeLoop f a es)

/-- `LoadOrStore`: genmap.go:63-70. -/
def loadOrStore (m : MMem K V) (r : MRef) (k : K) (v : V) : Option (MMem K V × V × Bool) :=
  let (actual, loaded) := read m r k
  if loaded then some (m, actual, loaded)
  else do
    let m ← m.store r k v
    some (m, actual, loaded)

/-- `LoadOrStoreFunc`: genmap.go:72-80; `new` is the value `newFunc()` returns. -/
def loadOrStoreFunc (m : MMem K V) (r : MRef) (k : K) (new : V) : Option (MMem K V × V × Bool) :=
  let (actual, loaded) := read m r k
  if loaded then some (m, actual, loaded)
  else do
    let actual := new
    let m ← m.store r k actual
    some (m, actual, loaded)

/-- `LoadAndDelete`: genmap.go:82-88. -/
def loadAndDelete (m : MMem K V) (r : MRef) (k : K) : MMem K V × V × Bool :=
  let (v, loaded) := read m r k
  if loaded then (m.delete r k, v, loaded) else (m, v, loaded)

/-- `LoadAndStore`: genmap.go:90-94. -/
def loadAndStore (m : MMem K V) (r : MRef) (k : K) (v : V) : Option (MMem K V × V × Bool) := do
  let (actual, loaded) := read m r k
  let m ← m.store r k v
  some (m, actual, loaded)

/-- `EqualFunc`: genmap.go:96-98. -/
def equalFunc (ω : Oracle K V) (m : MMem K V) (r r2 : MRef) (eq : V → V → Bool) : MMem K V × Bool :=
  m.equalFunc ω r r2 eq

/-- `Clear`: genmap.go:100-103. -/
def clear (ω : Oracle K V) (m : MMem K V) (r : MRef) : MMem K V × MRef := (m.clearMap ω r, r)

/-- `DeleteFunc`: genmap.go:125-127. -/
def deleteFunc (ω : Oracle K V) (m : MMem K V) (r : MRef) (f : K → V → Bool) : MMem K V :=
  m.deleteFunc ω r f

end Verif.GenMap
