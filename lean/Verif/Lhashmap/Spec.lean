/-!
# Specification of `lhashmap`: what a sequence of calls has stored and used last

Everything is defined from the list of the calls made so far (oldest first), without any data
structure.
-/
namespace Verif.Lhashmap.Spec

/-- The calls.  `range f a`: the callback is `f`, with captured variables `A` starting as `a`; it
returns the new captured variables and whether to continue. -/
inductive Op (A K V : Type) where
  | load (k : K)
  | store (k : K) (v : V)
  | remove (k : K)
  | len
  | range (f : A → K → V → A × Bool) (a : A)
  | clear

/-- What a call returns: `Load`'s value (`none` is not-ok), `Len`'s number, and for `Range` the
final captured variables. -/
inductive Res (A V : Type) where
  | unit
  | val (v : Option V)
  | int (n : Nat)
  | vars (a : A)

variable {A K V : Type} [DecidableEq K]

/-- The value last stored for `k` since its last removal or `Clear`. -/
def current (k : K) : List (Op A K V) → Option V := fun h => go h.reverse
where
  /-- newest call first -/
  go : List (Op A K V) → Option V
  | [] => none
  | .store k' v :: h => if k' = k then some v else go h
  | .remove k' :: h => if k' = k then none else go h
  | .clear :: _ => none
  | _ :: h => go h

/-- The `n`-th call is a `Store` of `k`, or a `Load` of `k` that succeeded. -/
def Uses (h : List (Op A K V)) (k : K) (n : Nat) : Prop :=
  (∃ v, h[n]? = some (.store k v)) ∨ (h[n]? = some (.load k) ∧ current k (h.take n) ≠ none)

/-- The most recent use of `k` is later than that of `k'`. -/
def UsedAfter (h : List (Op A K V)) (k k' : K) : Prop :=
  ∃ n, Uses h k n ∧ ∀ n', Uses h k' n' → n' < n

/-- Call `f` on the pairs in order until it returns false. -/
def visit (f : A → K → V → A × Bool) : A → List (K × V) → A
  | a, [] => a
  | a, (k, v) :: xs => match f a k v with
    | (a, true) => visit f a xs
    | (a, false) => a

/-- `xs` is what `Range` is to visit after the calls `h`: all current bindings, each key once, most
recently used first. -/
def Visits (h : List (Op A K V)) (xs : List (K × V)) : Prop :=
  (∀ k v, (k, v) ∈ xs ↔ current k h = some v) ∧ (xs.map (·.1)).Nodup ∧
  xs.Pairwise fun p q => UsedAfter h p.1 q.1

/-- The result of call `op` after the calls `h`. -/
def Ok (h : List (Op A K V)) : Op A K V → Res A V → Prop
  | .load k, r => r = .val (current k h)
  | .len, r => ∃ ks : List K, ks.Nodup ∧ (∀ k, k ∈ ks ↔ current k h ≠ none) ∧ r = .int ks.length
  | .range f a, r => ∃ xs, Visits h xs ∧ r = .vars (visit f a xs)
  | _, r => r = .unit

end Verif.Lhashmap.Spec
