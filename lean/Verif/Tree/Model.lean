/-!
# Model of package `tree` at pointer level

A `*Node` is an address; `none` is nil.  Dereferencing nil panics: the operation returns `none`.
Loops and recursion along pointers take fuel; `none` also stands for exhausted fuel.
-/
namespace Verif.Tree

/-- The memory of the nodes: tree.go:10-13. -/
structure Mem (T : Type) where
  val : Nat → T
  parent : Nat → Option Nat
  left : Nat → Option Nat
  right : Nat → Option Nat
  /-- next free address -/
  fresh : Nat

variable {T : Type}

def upd {β : Type} (f : Nat → β) (a : Nat) (b : β) : Nat → β := fun x => if x = a then b else f x

/-- `NewNode`: tree.go:15-17. -/
def newNode (m : Mem T) (v : T) : Mem T × Nat :=
  ({ val := upd m.val m.fresh v, parent := upd m.parent m.fresh none,
     left := upd m.left m.fresh none, right := upd m.right m.fresh none, fresh := m.fresh + 1 },
   m.fresh)

/-- `p.Parent = q` if `p` is not nil: tree.go:67-69, 71-73. -/
def setParent (m : Mem T) (p q : Option Nat) : Mem T :=
  match p with
  | none => m
  | some p => { m with parent := upd m.parent p q }

/-- `SetLeft`: tree.go:65-75. -/
def setLeft (m : Mem T) (n : Nat) (left : Option Nat) : Mem T × Option Nat :=
  let old := m.left n
  let m := setParent m (m.left n) none
  let m := { m with left := upd m.left n left }
  let m := setParent m left (some n)
  (m, old)

/-- `SetRight`: tree.go:77-87. -/
def setRight (m : Mem T) (n : Nat) (right : Option Nat) : Mem T × Option Nat :=
  let old := m.right n
  let m := setParent m (m.right n) none
  let m := { m with right := upd m.right n right }
  let m := setParent m right (some n)
  (m, old)

/-- Add a left child, if there is another value: tree.go:28-32. -/
def addLeft (val : List T) (m : Mem T) (node : Nat) (queue : List Nat) (i : Nat) :
    Option (Mem T × List Nat × Nat) :=
  if i < val.length then do
    let v ← val[i]?
    let (m, c) := newNode m v
    let (m, _) := setLeft m node (some c)
    let l ← m.left node
    some (m, queue ++ [l], i + 1)
  else some (m, queue, i)

/-- Add a right child, if there is another value: tree.go:33-37. -/
def addRight (val : List T) (m : Mem T) (node : Nat) (queue : List Nat) (i : Nat) :
    Option (Mem T × List Nat × Nat) :=
  if i < val.length then do
    let v ← val[i]?
    let (m, c) := newNode m v
    let (m, _) := setRight m node (some c)
    let r ← m.right node
    some (m, queue ++ [r], i + 1)
  else some (m, queue, i)

/-- The loop of `BuildTree`: tree.go:25-38. -/
def buildLoop (val : List T) : Nat → Mem T → List Nat → Nat → Option (Mem T)
  | 0, _, _, _ => none
  | k + 1, m, queue, i =>
    if i < val.length then
      match queue with
      | [] => none
      | node :: queue => do
        let (m, queue, i) ← addLeft val m node queue i
        let (m, queue, i) ← addRight val m node queue i
        buildLoop val k m queue i
    else some m

/-- `BuildTree`: tree.go:19-41. -/
def buildTree (fuel : Nat) (m : Mem T) (val : List T) : Option (Mem T × Option Nat) :=
  match val with
  | [] => some (m, none)
  | v :: _ => do
    let (m, root) := newNode m v
    let m ← buildLoop val fuel m [root] 1
    some (m, some root)

/-- `HasLeft`, `HasRight`, `HasChild`, `HasBothChild`, `HasParent`: tree.go:170-188. -/
def hasLeft (m : Mem T) (n : Nat) : Bool := (m.left n).isSome
def hasRight (m : Mem T) (n : Nat) : Bool := (m.right n).isSome
def hasChild (m : Mem T) (n : Nat) : Bool := hasLeft m n || hasRight m n
def hasBothChild (m : Mem T) (n : Nat) : Bool := hasLeft m n && hasRight m n
def hasParent (m : Mem T) (n : Nat) : Bool := (m.parent n).isSome

/-- `IsLeaf`: tree.go:89-91. -/
def isLeaf (m : Mem T) (n : Nat) : Bool := !hasChild m n

/-- `IsRoot`: tree.go:93-95. -/
def isRoot (m : Mem T) (n : Nat) : Bool := !hasParent m n

/-- `IsLeft`: tree.go:97-99. -/
def isLeft (m : Mem T) (n : Nat) : Bool :=
  match m.parent n with
  | none => false
  | some p => m.left p = some n

/-- `IsRight`: tree.go:101-103. -/
def isRight (m : Mem T) (n : Nat) : Bool :=
  match m.parent n with
  | none => false
  | some p => m.right p = some n

/-- `Sibling`: tree.go:105-113; `none` is a panic. -/
def sibling (m : Mem T) (n : Nat) : Option (Option Nat) :=
  if isRoot m n then some none
  else do
    let p ← m.parent n
    if isLeft m n then some (m.right p) else some (m.left p)

/-- `Uncle`: tree.go:115-120. -/
def uncle (m : Mem T) (n : Nat) : Option (Option Nat) :=
  if isRoot m n then some none
  else do
    let p ← m.parent n
    sibling m p

/-- `Grandparent`: tree.go:122-127. -/
def grandparent (m : Mem T) (n : Nat) : Option (Option Nat) :=
  if isRoot m n then some none
  else do
    let p ← m.parent n
    some (m.parent p)

/-- `HasSibling`, `HasUncle`, `HasGrandparent`: tree.go:190-200. -/
def hasSibling (m : Mem T) (n : Nat) : Option Bool := (sibling m n).map (·.isSome)
def hasUncle (m : Mem T) (n : Nat) : Option Bool := (uncle m n).map (·.isSome)
def hasGrandparent (m : Mem T) (n : Nat) : Option Bool := (grandparent m n).map (·.isSome)

/-- `IsLeftRelation`: tree.go:129-131. -/
def isLeftRelation (m : Mem T) (n : Nat) (node : Option Nat) : Bool :=
  match node with
  | none => false
  | some x => isLeft m x && m.parent x = some n

/-- `IsRightRelation`: tree.go:133-135. -/
def isRightRelation (m : Mem T) (n : Nat) (node : Option Nat) : Bool :=
  match node with
  | none => false
  | some x => isRight m x && m.parent x = some n

/-- `IsChildRelation`: tree.go:137-139. -/
def isChildRelation (m : Mem T) (n : Nat) (node : Option Nat) : Bool :=
  isLeftRelation m n node || isRightRelation m n node

/-- `IsUncleRelation`, `IsSiblingRelation`, `IsGrandparentRelation`: tree.go:141-151. -/
def isUncleRelation (m : Mem T) (n : Nat) (node : Option Nat) : Option Bool :=
  (uncle m n).map (fun u => decide (u = node))
def isSiblingRelation (m : Mem T) (n : Nat) (node : Option Nat) : Option Bool :=
  (sibling m n).map (fun u => decide (u = node))
def isGrandparentRelation (m : Mem T) (n : Nat) (node : Option Nat) : Option Bool :=
  (grandparent m n).map (fun u => decide (u = node))

/-- The loop of `IsAncestorRelation`: tree.go:157-162. -/
def ancLoop (m : Mem T) (n : Option Nat) : Nat → Option Nat → Option Bool
  | 0, _ => none
  | k + 1, node =>
    match node with
    | none => some false
    | some x => if some x = n then some true else ancLoop m n k (m.parent x)

/-- `IsAncestorRelation`: tree.go:153-164.  Receiver and argument may be nil. -/
def isAncestorRelation (m : Mem T) (fuel : Nat) (n node : Option Nat) : Option Bool :=
  if node = none then some false else ancLoop m n fuel node

/-- `IsDescendantRelation`: tree.go:166-168. -/
def isDescendantRelation (m : Mem T) (fuel : Nat) (n node : Option Nat) : Option Bool :=
  (isAncestorRelation m fuel node n).map (!·)

/-- `Layer`: tree.go:202-210. -/
def layer (m : Mem T) : Nat → Option Nat → Option Int
  | 0, _ => none
  | k + 1, n =>
    match n with
    | none => some (-1)
    | some n =>
      if isRoot m n then some 0
      else do
        let l ← layer m k (m.parent n)
        some (l + 1)

/-- `utils.Max`: utils/utils.go:5-10. -/
def max' (a b : Nat) : Nat := if a > b then a else b

/-- `MaxDepth`: tree.go:212-217. -/
def maxDepth (m : Mem T) : Nat → Option Nat → Option Nat
  | 0, _ => none
  | k + 1, n =>
    match n with
    | none => some 0
    | some n =>
      if isLeaf m n then some 0
      else do
        let a ← maxDepth m k (m.left n)
        let b ← maxDepth m k (m.right n)
        some (max' a b + 1)

/-- The loop of `TraversalDFS`: tree.go:225-235.  The stack is the slice `queue`, whose last element
comes first here. -/
def dfsLoop (m : Mem T) : Nat → List Nat → List Nat → Option (List Nat)
  | 0, _, _ => none
  | k + 1, queue, res =>
    match queue with
    | [] => some res
    | node :: queue =>
      let res := res ++ [node]
      let queue := match m.right node with
        | some r => r :: queue
        | none => queue
      let queue := match m.left node with
        | some l => l :: queue
        | none => queue
      dfsLoop m k queue res

/-- `TraversalDFS`: tree.go:219-237; panics on a nil receiver. -/
def traversalDFS (m : Mem T) (fuel : Nat) (n : Option Nat) : Option (List Nat) := do
  let n ← n
  if isLeaf m n then some [n] else dfsLoop m fuel [n] []

/-- Add a node to its row: tree.go:252-256.  `none` is a panic (index out of range). -/
def addRow (val : List (List Nat)) (level n : Nat) : Option (List (List Nat)) :=
  if val.length = level then some (val ++ [[n]])
  else do
    let row ← val[level]?
    some (val.set level (row ++ [n]))

/-- `traversalBFS`: tree.go:248-260.  `none` is a panic (index out of range) or exhausted fuel. -/
def bfsRec (m : Mem T) : Nat → Option Nat → List (List Nat) → Nat → Option (List (List Nat))
  | 0, _, _, _ => none
  | k + 1, n, val, level =>
    match n with
    | none => some val
    | some n => do
      let val ← addRow val level n
      let val ← bfsRec m k (m.left n) val (level + 1)
      bfsRec m k (m.right n) val (level + 1)

/-- `TraversalBFS`: tree.go:239-246. -/
def traversalBFS (m : Mem T) (fuel : Nat) (n : Option Nat) : Option (List Nat) := do
  let r ← bfsRec m fuel n [] 0
  some r.flatten

/-- What `DrawTree` writes: `fmt.Sprintf("%v", v)`, a tab, a newline. -/
inductive Tok (T : Type) where
  | val (v : T) | tab | nl

/-- The loop of `DrawTree`: tree.go:47-61. -/
def drawLoop (m : Mem T) : List Nat → Nat → Nat → List (Tok T) → List (Tok T)
  | [], _, _, out => out
  | node :: rest, layer, count, out =>
    if layer = 0 then drawLoop m rest (layer + 1) count (out ++ [.val (m.val node), .nl])
    else
      let out := out ++ [.val (m.val node), .tab]
      let count := count + 1
      if layer * 2 = count then drawLoop m rest (layer + 1) 0 (out ++ [.nl])
      else drawLoop m rest layer count out

/-- `DrawTree`: tree.go:43-63. -/
def drawTree (m : Mem T) (fuel : Nat) (n : Option Nat) : Option (List (Tok T)) := do
  let nodes ← traversalBFS m fuel n
  some (drawLoop m nodes 0 0 [])

/-- The call terminates, without panic, and returns `r`. -/
def Returns {β : Type} (f : Nat → Option β) (r : β) : Prop := ∃ F, ∀ fuel, F ≤ fuel → f fuel = some r

end Verif.Tree
