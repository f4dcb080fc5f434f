import Verif.Dllist.Model
import Verif.Lib.GMap
import Verif.Lhashmap.Spec
/-!
# Model of package `lhashmap`, on top of the pointer-level model of `dllist`

A map created by `New` (lhashmap.go:26-37); the capacity hint of `WithCap` (18-24) has no effect on
the contents and is left out.  The Go map `m` is an association list (its iteration order is never
observed); elements and the list are addresses in the `dllist` memory; the `*entry` values stored in
the list are addresses of a second memory.  `none` is a panic.
-/
namespace Verif.Lhashmap
open Verif.Dllist (Mem Ptr)
variable {A K V : Type}

/-- `Lhashmap` (lhashmap.go:6-9) with the memory it lives in. -/
structure LH (K V : Type) where
  /-- memory of the list elements; `Value` is the address of an entry -/
  mem : Mem Nat
  /-- `l` -/
  l : Nat
  /-- `m` -/
  m : List (K × Nat)
  /-- the entries (lhashmap.go:11-14) -/
  ents : Nat → Option (K × V)
  /-- next free entry address -/
  fresh : Nat

/-- `New`: lhashmap.go:26-37. -/
def new : LH K V :=
  let (mem, l) := Dllist.new Mem.empty
  { mem := mem, l := l, m := [], ents := fun _ => none, fresh := 0 }

variable [DecidableEq K]

/-- `element.Value`, then the entry it points to. -/
def LH.entry (s : LH K V) (e : Nat) : Option (Nat × K × V) := do
  let a ← s.mem.val e
  let kv ← s.ents a
  some (a, kv)

/-- `Load`: lhashmap.go:39-45. -/
def load (s : LH K V) (k : K) : Option (LH K V × Option V) :=
  match aget s.m k with
  | some e => do
    let mem ← Dllist.moveToFront s.mem s.l e
    let s := { s with mem := mem }
    let (_, _, v) ← s.entry e
    some (s, some v)
  | none => some (s, none)

/-- `Store`: lhashmap.go:47-55. -/
def store (s : LH K V) (k : K) (v : V) : Option (LH K V) :=
  match aget s.m k with
  | some e => do
    let (a, k', _) ← s.entry e
    let s := { s with ents := fun x => if x = a then some (k', v) else s.ents x }
    let mem ← Dllist.moveToFront s.mem s.l e
    some { s with mem := mem }
  | none => do
    let a := s.fresh
    let s := { s with ents := fun x => if x = a then some (k, v) else s.ents x, fresh := a + 1 }
    let (mem, e) ← Dllist.pushFront s.mem s.l a
    some { s with mem := mem, m := aput s.m k e }

/-- `Remove`: lhashmap.go:57-62. -/
def remove (s : LH K V) (k : K) : Option (LH K V) :=
  match aget s.m k with
  | some e => do
    let (mem, _) ← Dllist.lRemove s.mem s.l e
    some { s with mem := mem, m := adel s.m k }
  | none => some s

/-- `Len`: lhashmap.go:64-66. -/
def len (s : LH K V) : Nat := s.m.length

/-- The loop of `Range`: lhashmap.go:69-73.  The callback `body` acts on captured variables `A` and
on the map itself, since it may call its methods.  `none` is a panic or exhausted fuel. -/
def rangeLoop (body : LH K V → A → K → V → Option (LH K V × A × Bool)) :
    Nat → LH K V → A → Option Ptr → Option (LH K V × A)
  | 0, _, _, _ => none
  | _ + 1, s, a, none => some (s, a)
  | _ + 1, _, _, some (.root _) => none
  | n + 1, s, a, some (.node e) => do
    let (_, k, v) ← s.entry e
    let (s, a, c) ← body s a k v
    if c then rangeLoop body n s a (Dllist.elNext s.mem (.node e)) else some (s, a)

/-- `Range`: lhashmap.go:68-74. -/
def range (body : LH K V → A → K → V → Option (LH K V × A × Bool)) (fuel : Nat) (s : LH K V) (a : A) :
    Option (LH K V × A) :=
  let (mem, e) := Dllist.front s.mem s.l
  rangeLoop body fuel { s with mem := mem } a e

/-- `Clear`: lhashmap.go:76-79. -/
def clear (s : LH K V) : LH K V := { s with m := [], mem := Dllist.clear s.mem s.l }

/-- A callback that does not use the map. -/
def plain (f : A → K → V → A × Bool) (s : LH K V) (a : A) (k : K) (v : V) :
    Option (LH K V × A × Bool) := some (s, f a k v)

/-- One call. -/
def exec (fuel : Nat) (s : LH K V) : Spec.Op A K V → Option (LH K V × Spec.Res A V)
  | .load k => do let (s, v) ← load s k; some (s, .val v)
  | .store k v => do let s ← store s k v; some (s, .unit)
  | .remove k => do let s ← remove s k; some (s, .unit)
  | .len => some (s, .int (len s))
  | .range f a => do let (s, a) ← range (plain f) fuel s a; some (s, .vars a)
  | .clear => some (clear s, .unit)

/-- The call terminates without panic. -/
def MStep (s : LH K V) (op : Spec.Op A K V) (r : Spec.Res A V) (s' : LH K V) : Prop :=
  ∃ F, ∀ fuel, F ≤ fuel → exec fuel s op = some (s', r)

/-- The calls `h` on a new map lead to `s`. -/
inductive MRun : List (Spec.Op A K V) → LH K V → Prop
  | nil : MRun [] new
  | snoc {h s op r s'} : MRun h s → MStep s op r s' → MRun (h ++ [op]) s'

end Verif.Lhashmap
