import Verif.Ring.Spec
/-!
# Model of package `ring` at pointer level

A `*Ring` is an address; `none` is nil.  Dereferencing nil panics: the operation returns `none`.
Loops take fuel; `none` also stands for exhausted fuel.
-/
namespace Verif.Ring

/-- The memory of the ring elements: ring.go:3-6. -/
structure Mem (T : Type) where
  next : Nat → Option Nat
  prev : Nat → Option Nat
  val : Nat → T
  /-- next free address -/
  fresh : Nat

variable {T : Type}

def upd {β : Type} (f : Nat → β) (a : Nat) (b : β) : Nat → β := fun x => if x = a then b else f x

def Mem.setNext (m : Mem T) (p : Nat) (q : Option Nat) : Mem T := { m with next := upd m.next p q }
def Mem.setPrev (m : Mem T) (p : Nat) (q : Option Nat) : Mem T := { m with prev := upd m.prev p q }

/-- `&Ring[T]{prev: p}`. -/
def alloc (dflt : T) (m : Mem T) (p : Option Nat) : Mem T × Nat :=
  ({ next := upd m.next m.fresh none, prev := upd m.prev m.fresh p,
     val := upd m.val m.fresh dflt, fresh := m.fresh + 1 }, m.fresh)

/-- `init`: ring.go:8-12. -/
def init (m : Mem T) (r : Nat) : Mem T := (m.setNext r (some r)).setPrev r (some r)

/-- `Next`: ring.go:14-19. -/
def next (m : Mem T) (r : Nat) : Mem T × Option Nat :=
  if m.next r = none then (init m r, some r) else (m, m.next r)

/-- `Prev`: ring.go:21-26. -/
def prev (m : Mem T) (r : Nat) : Mem T × Option Nat :=
  if m.next r = none then (init m r, some r) else (m, m.prev r)

/-- `for ; n < 0; n++ { r = r.prev }` / `for ; n > 0; n-- { r = r.next }` (`k` iterations):
ring.go:34-36, 38-40. -/
def walk (f : Nat → Option Nat) : Nat → Option Nat → Option (Option Nat)
  | 0, r => some r
  | k + 1, r => do
    let p ← r
    walk f k (f p)

/-- `Move`: ring.go:28-43. -/
def move (m : Mem T) (r : Nat) (n : Int) : Option (Mem T × Option Nat) :=
  if m.next r = none then some (init m r, some r)
  else if n < 0 then do
    let r ← walk m.prev n.natAbs (some r)
    some (m, r)
  else do
    let r ← walk m.next n.natAbs (some r)
    some (m, r)

/-- The loop of `New`: ring.go:51-54, `k` iterations left; returns the last element. -/
def newLoop (dflt : T) : Nat → Mem T → Nat → Mem T × Nat
  | 0, m, p => (m, p)
  | k + 1, m, p =>
    let (m, q) := alloc dflt m (some p)
    let m := m.setNext p (some q)
    newLoop dflt k m q

/-- `New`: ring.go:45-58. -/
def new (dflt : T) (m : Mem T) (n : Int) : Mem T × Option Nat :=
  if n ≤ 0 then (m, none)
  else
    let (m, r) := alloc dflt m none
    let (m, p) := newLoop dflt (n.toNat - 1) m r
    let m := m.setNext p (some r)
    let m := m.setPrev r (some p)
    (m, some r)

/-- `Link`: ring.go:60-71. -/
def link (m : Mem T) (r : Nat) (s : Option Nat) : Option (Mem T × Option Nat) :=
  let (m, n) := next m r
  match s with
  | none => some (m, n)
  | some s => do
    let (m, p) := prev m s
    let m := m.setNext r (some s)
    let m := m.setPrev s (some r)
    let n' ← n
    let m := m.setPrev n' p
    let p ← p
    let m := m.setNext p n
    some (m, n)

/-- `Unlink`: ring.go:73-78. -/
def unlink (m : Mem T) (r : Nat) (n : Int) : Option (Mem T × Option Nat) :=
  if n ≤ 0 then some (m, none)
  else do
    let (m, s) ← move m r (n + 1)
    link m r s

/-- `for ...; p != r; p = p.next { body }` with the address `r` of the receiver and an accumulator:
ring.go:84-86, 94-96. -/
def loop {A : Type} (m : Mem T) (r : Nat) (body : A → Nat → A) : Nat → A → Option Nat → Option A
  | 0, _, _ => none
  | k + 1, a, p =>
    if p = some r then some a
    else do
      let q ← p
      loop m r body k (body a q) (m.next q)

/-- `Len`: ring.go:80-89. -/
def len (fuel : Nat) (m : Mem T) (r : Option Nat) : Option (Mem T × Nat) :=
  match r with
  | none => some (m, 0)
  | some r => do
    let (m, p) := next m r
    let n ← loop m r (fun n _ => n + 1) fuel 1 p
    some (m, n)

/-- `Do(f)`: ring.go:91-98, where `f` appends its argument to a list. -/
def do_ (fuel : Nat) (m : Mem T) (r : Option Nat) : Option (Mem T × List T) :=
  match r with
  | none => some (m, [])
  | some r => do
    let acc := [m.val r]
    let (m, p) := next m r
    let acc ← loop m r (fun acc q => acc ++ [m.val q]) fuel acc p
    some (m, acc)

/-- One call. -/
def exec (dflt : T) (fuel : Nat) (m : Mem T) : Spec.Op T → Option (Mem T × Spec.Res T)
  | .new n => let (m, r) := new dflt m n; some (m, .elem r)
  | .zero => let (m, r) := alloc dflt m none; some (m, .elem (some r))
  | .next r => let (m, q) := next m r; some (m, .elem q)
  | .prev r => let (m, q) := prev m r; some (m, .elem q)
  | .move r n => do let (m, q) ← move m r n; some (m, .elem q)
  | .link r s => do let (m, q) ← link m r s; some (m, .elem q)
  | .unlink r n => do let (m, q) ← unlink m r n; some (m, .elem q)
  | .len r => do let (m, n) ← len fuel m r; some (m, .int n)
  | .do_ r => do let (m, vs) ← do_ fuel m r; some (m, .vals vs)
  | .getValue r => some (m, .val (m.val r))
  | .setValue r v => some ({ m with val := upd m.val r v }, .unit)

/-- The call terminates without panic. -/
def MStep (dflt : T) (m : Mem T) (op : Spec.Op T) (r : Spec.Res T) (m' : Mem T) : Prop :=
  ∃ F, ∀ fuel, F ≤ fuel → exec dflt fuel m op = some (m', r)

end Verif.Ring
