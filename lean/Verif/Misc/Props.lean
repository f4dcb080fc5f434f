import Verif.Misc.Model
import Mathlib.Order.Lattice
import Mathlib.Order.Defs.LinearOrder
/-!
# `utils.Max` and the constructors of `rbtree` (C148)
-/
namespace Verif.Misc
variable {T : Type}

/-- C148: `Max` returns one of its arguments, and the second one unless the first is greater. -/
theorem C148_max (gt : T → T → Bool) (a b : T) : (max gt a b = a ∨ max gt a b = b) ∧ (gt a b = false → max gt a b = b) ∧
    (gt a b = true → max gt a b = a) := by
  cases h : gt a b <;> simp [max, h]

/-- C148: on a linear order it is the greatest: not less than either argument and one of them; in any order of the arguments. -/
theorem C148_greatest [LinearOrder T] (a b : T) : a ≤ max (fun x y => decide (x > y)) a b ∧ b ≤ max (fun x y => decide (x > y)) a b ∧
    max (fun x y => decide (x > y)) a b = max (fun x y => decide (x > y)) b a ∧
    ∀ c, a ≤ c → b ≤ c → max (fun x y => decide (x > y)) a b ≤ c := by
  rcases lt_trichotomy a b with h | h | h
  · simp [max, h, h.le, not_lt.2 h.le]
  · subst h; simp [max]
  · simp [max, h, h.le, not_lt.2 h.le]; exact fun c h1 _ => h1

/-- C148: `Max` does not depend on the order of its arguments exactly if one of them is greater than the other and not conversely, or they are the same:
with a NaN, of which nothing is greater or less, it returns the second argument. -/
theorem C148_order (gt : T → T → Bool) (a b : T) : max gt a b = max gt b a ↔ a = b ∨ gt a b ≠ gt b a := by
  cases h : gt a b <;> cases h' : gt b a <;> simp [max, h, h', eq_comm]

/-- C148: `NewNode` makes a red node with the value and no relatives, different from all nodes there are, which stay as they are. -/
theorem C148_newNode (m : Mem T) (v : T) : (newNode m v).1.nodes[(newNode m v).2]? = some ⟨v, RED, none, none, none⟩ ∧
    m.nodes[(newNode m v).2]? = none ∧ (∀ (p : Nat) n, m.nodes[p]? = some n → (newNode m v).1.nodes[p]? = some n) ∧ (newNode m v).1.trees = m.trees := by
  refine ⟨by simp [newNode, RED], by simp [newNode], ?_, rfl⟩
  intro p n h
  have : p < m.nodes.length := (List.getElem?_eq_some_iff.1 h).1
  simp [newNode, List.getElem?_append_left this, h]

/-- C148: `NewTree` makes an empty tree, different from all trees there are, which stay as they are. -/
theorem C148_newTree (m : Mem T) : (newTree m).1.trees[(newTree m).2]? = some ⟨none⟩ ∧
    m.trees[(newTree m).2]? = none ∧ (∀ (p : Nat) t, m.trees[p]? = some t → (newTree m).1.trees[p]? = some t) ∧ (newTree m).1.nodes = m.nodes := by
  refine ⟨by simp [newTree], by simp [newTree], ?_, rfl⟩
  intro p n h
  have : p < m.trees.length := (List.getElem?_eq_some_iff.1 h).1
  simp [newTree, List.getElem?_append_left this, h]

/-- Floats: `none` is NaN. -/
def fgt : Option Nat → Option Nat → Bool
  | some a, some b => decide (a > b)
  | _, _ => false

example : max fgt (some 3) (some 5) = some 5 ∧ max fgt (some 5) (some 3) = some 5 ∧ max fgt none (some 5) = some 5 ∧
    max fgt (some 5) none = none := by decide

example : (newNode (newNode ⟨[], []⟩ 7).1 8).1.nodes = [⟨7, RED, none, none, none⟩, ⟨8, RED, none, none, none⟩] ∧
    (newNode (newNode ⟨[], []⟩ 7).1 8).2 = 1 := ⟨rfl, rfl⟩

example : (newTree (newTree (⟨[], []⟩ : Mem Nat)).1).1.trees = [⟨none⟩, ⟨none⟩] ∧ (newTree (newTree (⟨[], []⟩ : Mem Nat)).1).2 = 1 := ⟨rfl, rfl⟩

end Verif.Misc
