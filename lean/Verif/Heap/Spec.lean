/-!
# Specification vocabulary for heaps and sorting (independent of the model)
-/
namespace Verif

/-- A strict weak order given by a Boolean "less" function: irreflexive, transitive, and
"not less" is transitive as well (incomparability is an equivalence). -/
structure StrictWeak {T : Type} (lt : T → T → Bool) : Prop where
  irrefl : ∀ a, lt a a = false
  trans : ∀ a b c, lt a b = true → lt b c = true → lt a c = true
  negTrans : ∀ a b c, lt a b = false → lt b c = false → lt a c = false

namespace Heap
variable {T : Type}

/-- Heap order of the sequence `l`: the element at a position `k > 0` is not less than the element
at its parent position `(k-1)/2`. -/
def IsHeap (lt : T → T → Bool) (l : List T) : Prop :=
  ∀ k : Nat, 0 < k → ∀ x p : T, l[k]? = some x → l[(k - 1) / 2]? = some p → lt x p = false

/-- `x` is a least element of `l`: it occurs in `l` and nothing in `l` is less. -/
def IsLeast (lt : T → T → Bool) (x : T) (l : List T) : Prop :=
  x ∈ l ∧ ∀ y ∈ l, lt y x = false

/-- Nondecreasing sequence: no element is less than an earlier one. -/
def Sorted (lt : T → T → Bool) (l : List T) : Prop :=
  l.Pairwise (fun a b => lt b a = false)

end Heap
end Verif
