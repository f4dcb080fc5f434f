/-!
# Specification of `ring`: cyclic sequences

An abstract state gives for every element the ring it is in, as a list starting with the element
itself and going forward.  Nothing here mentions pointers.
-/
namespace Verif.Ring.Spec

/-- The calls.  A `*Ring` argument that may be nil is an `Option`. -/
inductive Op (T : Type) where
  /-- `New(n)` -/
  | new (n : Int)
  /-- `&Ring[T]{}` -/
  | zero
  | next (r : Nat) | prev (r : Nat)
  | move (r : Nat) (n : Int)
  | link (r : Nat) (s : Option Nat)
  | unlink (r : Nat) (n : Int)
  | len (r : Option Nat)
  /-- `Do(f)`: `f` appends its argument to a list -/
  | do_ (r : Option Nat)
  | getValue (r : Nat) | setValue (r : Nat) (v : T)

inductive Res (T : Type) where
  | unit
  /-- a `*Ring` -/
  | elem (r : Option Nat)
  | int (n : Nat)
  | vals (vs : List T)
  | val (v : T)

structure St (T : Type) where
  /-- the ring of each existing element, starting with it; `[]` if there is no such element -/
  ring : Nat → List Nat
  val : Nat → T

variable {T : Type}

/-- The same ring, starting with `x`. -/
def rotTo (x : Nat) (C : List Nat) : List Nat :=
  C.dropWhile (· ≠ x) ++ C.takeWhile (· ≠ x)

/-- The elements of `C` are now in the ring `C`. -/
def St.set (s : St T) (C : List Nat) : St T :=
  { s with ring := fun x => if x ∈ C then rotTo x C else s.ring x }

/-- The `i`-th element of a ring, wrapping around in both directions. -/
def at_ (C : List Nat) (i : Int) : Option Nat := C[(i % C.length).toNat]?

/-- `r` linked to `x`.  In different rings: `x`'s ring is inserted after `r`.  In the same ring: the
elements strictly between `r` and `x` (all but `r`, if `x` is `r`) are cut out and form a ring. -/
def St.linked (s : St T) (r x : Nat) : St T :=
  if x ∈ s.ring r then
    let rest := (s.ring r).tail
    (s.set (rest.takeWhile (· ≠ x))).set (r :: rest.dropWhile (· ≠ x))
  else s.set (r :: (s.ring x ++ (s.ring r).tail))

/-- The effect and the result of each call. -/
def St.Step (s : St T) (dflt : T) : Op T → Res T → St T → Prop
  | .new n, r, s' =>
      if n ≤ 0 then r = .elem none ∧ s' = s
      else ∃ ns : List Nat, ns.length = n.toNat ∧ ns.Nodup ∧ (∀ x ∈ ns, s.ring x = []) ∧
        r = .elem ns.head? ∧
        s' = { s.set ns with val := fun x => if x ∈ ns then dflt else s.val x }
  | .zero, r, s' => ∃ x, s.ring x = [] ∧ r = .elem (some x) ∧
      s' = { s.set [x] with val := fun y => if y = x then dflt else s.val y }
  | .next x, r, s' => s' = s ∧ r = .elem (at_ (s.ring x) 1)
  | .prev x, r, s' => s' = s ∧ r = .elem (at_ (s.ring x) (-1))
  | .move x n, r, s' => s' = s ∧ r = .elem (at_ (s.ring x) n)
  | .link x none, r, s' => s' = s ∧ r = .elem (at_ (s.ring x) 1)
  | .link x (some y), r, s' => s' = s.linked x y ∧ r = .elem (at_ (s.ring x) 1)
  | .unlink x n, r, s' =>
      if n ≤ 0 then r = .elem none ∧ s' = s
      else
        -- the `n mod Len` elements after `x` are removed and form a ring
        let k := (n % (s.ring x).length).toNat
        let rest := (s.ring x).tail
        s' = (s.set (rest.take k)).set (x :: rest.drop k) ∧ r = .elem (at_ (s.ring x) 1)
  | .len none, r, s' => s' = s ∧ r = .int 0
  | .len (some x), r, s' => s' = s ∧ r = .int (s.ring x).length
  | .do_ none, r, s' => s' = s ∧ r = .vals []
  | .do_ (some x), r, s' => s' = s ∧ r = .vals ((s.ring x).map s.val)
  | .getValue x, r, s' => s' = s ∧ r = .val (s.val x)
  | .setValue x v, r, s' => r = .unit ∧ s' = { s with val := fun y => if y = x then v else s.val y }

/-- `x` is an element. -/
def St.Has (s : St T) (x : Nat) : Prop := s.ring x ≠ []

/-- The arguments exist.  (A nil receiver panics, except for `Len` and `Do`.) -/
def St.Valid (s : St T) : Op T → Prop
  | .new _ | .zero | .len none | .do_ none => True
  | .next x | .prev x | .move x _ | .unlink x _ | .len (some x) | .do_ (some x) | .getValue x
  | .setValue x _ | .link x none => s.Has x
  | .link x (some y) => s.Has x ∧ s.Has y

end Verif.Ring.Spec
