/-!
# Specification of `hashring`

The members are what the calls say; each member `n` owns the points `hash n 0 … hash n (r-1)`; a key
belongs to the owner of the first point at or after the hash of the key, clockwise.
-/
namespace Verif.HashRing
variable {N : Type}

/-- The calls that change the members. -/
inductive Call (N : Type) where
  | add (ns : List N)
  | remove (ns : List N)
  | reset (ns : List N)

/-- The members after one more call. -/
def Call.apply (M : N → Prop) : Call N → N → Prop
  | .add ns => fun x => M x ∨ x ∈ ns
  -- removing from the empty list of arguments changes nothing anyway
  | .remove ns => fun x => M x ∧ x ∉ ns
  | .reset ns => fun x => x ∈ ns

/-- The members after some calls, the last call first in the recursion. -/
def members (cs : List (Call N)) : N → Prop := cs.foldl Call.apply (fun _ => False)

/-- A point of the ring. -/
structure Pt (N : Type) where
  node : N
  hash : Nat

/-- The points of a node. -/
def points (hash : N → Nat → Nat) (r : Nat) (n : N) : List (Pt N) := (List.range r).map fun i => ⟨n, hash n i⟩

/-- `p` is a point of a member. -/
def IsPoint (hash : N → Nat → Nat) (r : Nat) (M : N → Prop) (p : Pt N) : Prop :=
  M p.node ∧ ∃ i, i < r ∧ p.hash = hash p.node i

/-- Going clockwise from `k`, one meets `p` not later than `q`. -/
def NotAfter (k p q : Nat) : Prop :=
  (k ≤ p ∧ (k ≤ q → p ≤ q)) ∨ (p < k ∧ q < k ∧ p ≤ q)

/-- `n` owns a point that is met first going clockwise from `k`. -/
def Owns (hash : N → Nat → Nat) (r : Nat) (M : N → Prop) (k : Nat) (n : N) : Prop :=
  ∃ p, IsPoint hash r M p ∧ p.node = n ∧ ∀ q, IsPoint hash r M q → NotAfter k p.hash q.hash

/-- Different members have no common points. -/
def Apart (hash : N → Nat → Nat) (r : Nat) (M : N → Prop) : Prop :=
  ∀ p q, IsPoint hash r M p → IsPoint hash r M q → p.hash = q.hash → p.node = q.node

/-- The hash of the key is no point of a member, other than of the key itself. -/
def KeyApart (hash : N → Nat → Nat) (r : Nat) (M : N → Prop) (key : N) : Prop :=
  ∀ p, IsPoint hash r M p → p.hash = hash key 0 → p.node = key

end Verif.HashRing
