/-!
# Specification of `tree`: finite binary trees of addresses
-/
namespace Verif.Tree

inductive Tr where
  | nil
  | node (a : Nat) (l r : Tr)

namespace Tr

/-- Nodes in preorder. -/
def pre : Tr → List Nat
  | nil => []
  | node a l r => a :: (pre l ++ pre r)

/-- Nodes at a given distance from the root, from left to right. -/
def atDepth : Tr → Nat → List Nat
  | nil, _ => []
  | node a _ _, 0 => [a]
  | node _ l r, d + 1 => atDepth l d ++ atDepth r d

/-- Number of layers. -/
def height : Tr → Nat
  | nil => 0
  | node _ l r => max (height l) (height r) + 1

/-- Nodes in level order. -/
def levels (t : Tr) : List Nat := ((List.range t.height).map t.atDepth).flatten

def root : Tr → Option Nat
  | nil => none
  | node a _ _ => some a

end Tr
end Verif.Tree
