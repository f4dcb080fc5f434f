/-!
# Model of packages `utils` and `rbtree`

`/repo/utils/utils.go`, `/repo/rbtree/rbtree.go`. Package `sllist` is empty; the methods of `utils.NoCopy` (noCopy.go:3-6) do nothing.
-/
namespace Verif.Misc
variable {T : Type}

/-- `utils.Max(a, b)`: utils.go:5-10; `gt` is Go's `>`. -/
def max (gt : T → T → Bool) (a b : T) : T := if gt a b then a else b

/-- `rbtree.Color`: rbtree.go:5-10; `RED` is `false`, the zero value. -/
abbrev Color := Bool
def RED : Color := false
def BLACK : Color := true

/-- `rbtree.Node`: rbtree.go:12-16; a pointer is an index into the memory, `none` is nil. -/
structure Node (T : Type) where
  value : T
  color : Color
  parent : Option Nat
  left : Option Nat
  right : Option Nat

/-- `rbtree.Tree`: rbtree.go:22-24. -/
structure Tree where
  root : Option Nat

/-- The nodes and the trees allocated so far. -/
structure Mem (T : Type) where
  nodes : List (Node T)
  trees : List Tree

/-- `NewNode(value)`: rbtree.go:18-20. -/
def newNode (m : Mem T) (v : T) : Mem T × Nat := ({ m with nodes := m.nodes ++ [⟨v, false, none, none, none⟩] }, m.nodes.length)

/-- `NewTree()`: rbtree.go:26-28. -/
def newTree (m : Mem T) : Mem T × Nat := ({ m with trees := m.trees ++ [⟨none⟩] }, m.trees.length)

end Verif.Misc
