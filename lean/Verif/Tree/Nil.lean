import Verif.Tree.Ends
/-!
# Calls on nil nodes (C187)

The methods once more, every dereference and index spelled out, with panics and calls that are still running told apart.
-/
namespace Verif.Tree.Nil
open Verif.Tree
variable {T β γ : Type}

/-- What has become of a call. -/
inductive Out (β : Type)
  | runs
  | panics
  | returns (b : β)
  deriving DecidableEq

def Out.bind : Out β → (β → Out γ) → Out γ
  | .runs, _ => .runs
  | .panics, _ => .panics
  | .returns b, f => f b

instance : Monad Out := { pure := .returns, bind := Out.bind }

@[simp] theorem pure_eq (b : β) : (pure b : Out β) = .returns b := rfl
@[simp] theorem bind_returns (b : β) (f : β → Out γ) : (Out.returns b >>= f) = f b := rfl
@[simp] theorem bind_panics (f : β → Out γ) : ((Out.panics : Out β) >>= f) = .panics := rfl
@[simp] theorem bind_runs (f : β → Out γ) : ((Out.runs : Out β) >>= f) = .runs := rfl

/-- Dereferencing a pointer. -/
def deref : Option Nat → Out Nat
  | none => .panics
  | some x => .returns x

@[simp] theorem deref_none : deref none = .panics := rfl
@[simp] theorem deref_some (x : Nat) : deref (some x) = .returns x := rfl

/-- The fields of `*p`: tree.go:10-13. -/
def lft (m : Mem T) (p : Option Nat) : Out (Option Nat) := do pure (m.left (← deref p))
def rgt (m : Mem T) (p : Option Nat) : Out (Option Nat) := do pure (m.right (← deref p))
def par (m : Mem T) (p : Option Nat) : Out (Option Nat) := do pure (m.parent (← deref p))

/-- `p.Left = v`, `p.Right = v`, `p.Parent = v`. -/
def putL (m : Mem T) (p v : Option Nat) : Out (Mem T) := do let x ← deref p; pure { m with left := upd m.left x v }
def putR (m : Mem T) (p v : Option Nat) : Out (Mem T) := do let x ← deref p; pure { m with right := upd m.right x v }
def putP (m : Mem T) (p v : Option Nat) : Out (Mem T) := do let x ← deref p; pure { m with parent := upd m.parent x v }

/-- `SetLeft`: tree.go:65-75. -/
def setLeft (m : Mem T) (n left : Option Nat) : Out (Mem T × Option Nat) := do
  let old ← lft m n
  let m ← if (← lft m n) ≠ none then putP m (← lft m n) none else pure m
  let m ← putL m n left
  let m ← if left ≠ none then putP m left n else pure m
  pure (m, old)

/-- `SetRight`: tree.go:77-87. -/
def setRight (m : Mem T) (n right : Option Nat) : Out (Mem T × Option Nat) := do
  let old ← rgt m n
  let m ← if (← rgt m n) ≠ none then putP m (← rgt m n) none else pure m
  let m ← putR m n right
  let m ← if right ≠ none then putP m right n else pure m
  pure (m, old)

/-- tree.go:170-188. -/
def hasLeft (m : Mem T) (n : Option Nat) : Out Bool := do pure (decide ((← lft m n) ≠ none))
def hasRight (m : Mem T) (n : Option Nat) : Out Bool := do pure (decide ((← rgt m n) ≠ none))
def hasChild (m : Mem T) (n : Option Nat) : Out Bool := do if ← hasLeft m n then pure true else hasRight m n
def hasBothChild (m : Mem T) (n : Option Nat) : Out Bool := do if ← hasLeft m n then hasRight m n else pure false
def hasParent (m : Mem T) (n : Option Nat) : Out Bool := do pure (decide ((← par m n) ≠ none))

/-- tree.go:89-103. -/
def isLeaf (m : Mem T) (n : Option Nat) : Out Bool := do pure (!(← hasChild m n))
def isRoot (m : Mem T) (n : Option Nat) : Out Bool := do pure (!(← hasParent m n))
def isLeft (m : Mem T) (n : Option Nat) : Out Bool := do
  if ← hasParent m n then pure (decide ((← lft m (← par m n)) = n)) else pure false
def isRight (m : Mem T) (n : Option Nat) : Out Bool := do
  if ← hasParent m n then pure (decide ((← rgt m (← par m n)) = n)) else pure false

/-- tree.go:105-127. -/
def sibling (m : Mem T) (n : Option Nat) : Out (Option Nat) := do
  if ← isRoot m n then pure none
  else if ← isLeft m n then rgt m (← par m n)
  else lft m (← par m n)
def uncle (m : Mem T) (n : Option Nat) : Out (Option Nat) := do
  if ← isRoot m n then pure none else sibling m (← par m n)
def grandparent (m : Mem T) (n : Option Nat) : Out (Option Nat) := do
  if ← isRoot m n then pure none else par m (← par m n)

/-- tree.go:129-151. -/
def isLeftRelation (m : Mem T) (n node : Option Nat) : Out Bool := do
  if node = none then pure false
  else if ← isLeft m node then pure (decide ((← par m node) = n))
  else pure false
def isRightRelation (m : Mem T) (n node : Option Nat) : Out Bool := do
  if node = none then pure false
  else if ← isRight m node then pure (decide ((← par m node) = n))
  else pure false
def isChildRelation (m : Mem T) (n node : Option Nat) : Out Bool := do
  if ← isLeftRelation m n node then pure true else isRightRelation m n node
def isUncleRelation (m : Mem T) (n node : Option Nat) : Out Bool := do pure (decide ((← uncle m n) = node))
def isSiblingRelation (m : Mem T) (n node : Option Nat) : Out Bool := do pure (decide ((← sibling m n) = node))
def isGrandparentRelation (m : Mem T) (n node : Option Nat) : Out Bool := do pure (decide ((← grandparent m n) = node))

/-- The loop at tree.go:157-162. -/
def ancLoop (m : Mem T) (n : Option Nat) : Nat → Option Nat → Out Bool
  | 0, _ => .runs
  | k + 1, node => do
    if node = none then pure false
    else if node = n then pure true
    else ancLoop m n k (← par m node)

/-- tree.go:153-168. -/
def isAncestorRelation (m : Mem T) (fuel : Nat) (n node : Option Nat) : Out Bool :=
  if node = none then pure false else ancLoop m n fuel node
def isDescendantRelation (m : Mem T) (fuel : Nat) (n node : Option Nat) : Out Bool := do
  pure (!(← isAncestorRelation m fuel node n))

/-- tree.go:190-200. -/
def hasSibling (m : Mem T) (n : Option Nat) : Out Bool := do pure (decide ((← sibling m n) ≠ none))
def hasUncle (m : Mem T) (n : Option Nat) : Out Bool := do pure (decide ((← uncle m n) ≠ none))
def hasGrandparent (m : Mem T) (n : Option Nat) : Out Bool := do pure (decide ((← grandparent m n) ≠ none))

/-- `Layer`: tree.go:202-210. -/
def layer (m : Mem T) : Nat → Option Nat → Out Int
  | 0, _ => .runs
  | k + 1, n => do
    if n = none then pure (-1)
    else if ← isRoot m n then pure 0
    else pure ((← layer m k (← par m n)) + 1)

/-- `MaxDepth`: tree.go:212-217. -/
def maxDepth (m : Mem T) : Nat → Option Nat → Out Nat
  | 0, _ => .runs
  | k + 1, n => do
    if n = none then pure 0
    else if ← isLeaf m n then pure 0
    else
      let a ← maxDepth m k (← lft m n)
      let b ← maxDepth m k (← rgt m n)
      pure (max' a b + 1)

/-- The loop at tree.go:225-235; the last element of `queue` comes first here. -/
def dfsLoop (m : Mem T) : Nat → List (Option Nat) → List (Option Nat) → Out (List (Option Nat))
  | 0, _, _ => .runs
  | _ + 1, [], res => pure res
  | k + 1, node :: queue, res => do
    let res := res ++ [node]
    let queue ← if ← hasRight m node then pure ((← rgt m node) :: queue) else pure queue
    let queue ← if ← hasLeft m node then pure ((← lft m node) :: queue) else pure queue
    dfsLoop m k queue res

/-- `TraversalDFS`: tree.go:219-237. -/
def traversalDFS (m : Mem T) (fuel : Nat) (n : Option Nat) : Out (List (Option Nat)) := do
  if ← isLeaf m n then pure [n] else dfsLoop m fuel [n] []

/-- A node is added to its row: tree.go:252-256; `val[level]` panics if there is no such row. -/
def addTo (val : List (List (Option Nat))) (level : Nat) (n : Option Nat) : Out (List (List (Option Nat))) :=
  if val.length = level then pure (val ++ [[n]])
  else match val[level]? with
    | none => .panics
    | some row => pure (val.set level (row ++ [n]))

/-- `traversalBFS`: tree.go:248-260. -/
def bfsRec (m : Mem T) : Nat → Option Nat → List (List (Option Nat)) → Nat → Out (List (List (Option Nat)))
  | 0, _, _, _ => .runs
  | k + 1, n, val, level => do
    if n = none then pure val
    else
      let val ← addTo val level n
      let val ← bfsRec m k (← lft m n) val (level + 1)
      bfsRec m k (← rgt m n) val (level + 1)

/-- `TraversalBFS`: tree.go:239-246. -/
def traversalBFS (m : Mem T) (fuel : Nat) (n : Option Nat) : Out (List (Option Nat)) := do
  pure (← bfsRec m fuel n [] 0).flatten

/-- The loop at tree.go:47-61. -/
def drawLoop (m : Mem T) : List (Option Nat) → Nat → Nat → List (Tok T) → Out (List (Tok T))
  | [], _, _, out => pure out
  | node :: rest, layer, count, out => do
    let x ← deref node
    if layer = 0 then drawLoop m rest (layer + 1) count (out ++ [.val (m.val x), .nl])
    else
      let out := out ++ [.val (m.val x), .tab]
      let count := count + 1
      if layer * 2 = count then drawLoop m rest (layer + 1) 0 (out ++ [.nl])
      else drawLoop m rest layer count out

/-- `DrawTree`: tree.go:43-63. -/
def drawTree (m : Mem T) (fuel : Nat) (n : Option Nat) : Out (List (Tok T)) := do
  drawLoop m (← traversalBFS m fuel n) 0 0 []

/-- The methods of `*Node`, with their arguments. -/
inductive Call
  | setLeft (x : Option Nat) | setRight (x : Option Nat)
  | isLeaf | isRoot | isLeft | isRight
  | sibling | uncle | grandparent
  | isLeftRelation (x : Option Nat) | isRightRelation (x : Option Nat) | isChildRelation (x : Option Nat)
  | isUncleRelation (x : Option Nat) | isSiblingRelation (x : Option Nat) | isGrandparentRelation (x : Option Nat)
  | isAncestorRelation (x : Option Nat) | isDescendantRelation (x : Option Nat)
  | hasLeft | hasRight | hasChild | hasBothChild | hasParent | hasSibling | hasUncle | hasGrandparent
  | layer | maxDepth | dfs | bfs | draw
  deriving DecidableEq

/-- What a method returns. -/
inductive Ans (T : Type)
  | bool (b : Bool) | ptr (p : Option Nat) | int (i : Int) | ptrs (l : List (Option Nat)) | text (l : List (Tok T))

/-- A call leaves the memory as it is. -/
def reads (m : Mem T) (o : Out β) (f : β → Ans T) : Out (Mem T × Ans T) := do pure (m, f (← o))

/-- A method of `n` is called. -/
def call (m : Mem T) (fuel : Nat) (n : Option Nat) : Call → Out (Mem T × Ans T)
  | .setLeft x => do let (m, p) ← setLeft m n x; pure (m, .ptr p)
  | .setRight x => do let (m, p) ← setRight m n x; pure (m, .ptr p)
  | .isLeaf => reads m (isLeaf m n) .bool
  | .isRoot => reads m (isRoot m n) .bool
  | .isLeft => reads m (isLeft m n) .bool
  | .isRight => reads m (isRight m n) .bool
  | .sibling => reads m (sibling m n) .ptr
  | .uncle => reads m (uncle m n) .ptr
  | .grandparent => reads m (grandparent m n) .ptr
  | .isLeftRelation x => reads m (isLeftRelation m n x) .bool
  | .isRightRelation x => reads m (isRightRelation m n x) .bool
  | .isChildRelation x => reads m (isChildRelation m n x) .bool
  | .isUncleRelation x => reads m (isUncleRelation m n x) .bool
  | .isSiblingRelation x => reads m (isSiblingRelation m n x) .bool
  | .isGrandparentRelation x => reads m (isGrandparentRelation m n x) .bool
  | .isAncestorRelation x => reads m (isAncestorRelation m fuel n x) .bool
  | .isDescendantRelation x => reads m (isDescendantRelation m fuel n x) .bool
  | .hasLeft => reads m (hasLeft m n) .bool
  | .hasRight => reads m (hasRight m n) .bool
  | .hasChild => reads m (hasChild m n) .bool
  | .hasBothChild => reads m (hasBothChild m n) .bool
  | .hasParent => reads m (hasParent m n) .bool
  | .hasSibling => reads m (hasSibling m n) .bool
  | .hasUncle => reads m (hasUncle m n) .bool
  | .hasGrandparent => reads m (hasGrandparent m n) .bool
  | .layer => reads m (layer m fuel n) .int
  | .maxDepth => reads m (maxDepth m fuel n) fun d => .int d
  | .dfs => reads m (traversalDFS m fuel n) .ptrs
  | .bfs => reads m (traversalBFS m fuel n) .ptrs
  | .draw => reads m (drawTree m fuel n) .text

/-! ## On nodes: the model of `Model.lean` -/

/-- Calls that `Model.lean` has as `none` are still running. -/
def up : Option β → Out β
  | none => .runs
  | some b => .returns b

section nodes
variable (m : Mem T) (x : Nat)

theorem setLeft_node (l : Option Nat) : setLeft m (some x) l = .returns (Tree.setLeft m x l) := by
  cases hx : m.left x <;> cases l <;> simp [setLeft, lft, putL, putP, hx, Tree.setLeft, setParent]

theorem setRight_node (l : Option Nat) : setRight m (some x) l = .returns (Tree.setRight m x l) := by
  cases hx : m.right x <;> cases l <;> simp [setRight, rgt, putR, putP, hx, Tree.setRight, setParent]

theorem hasLeft_node : hasLeft m (some x) = .returns (Tree.hasLeft m x) := by
  simp only [hasLeft, lft, Tree.hasLeft, deref_some, bind_returns, pure_eq]; cases m.left x <;> rfl
theorem hasRight_node : hasRight m (some x) = .returns (Tree.hasRight m x) := by
  simp only [hasRight, rgt, Tree.hasRight, deref_some, bind_returns, pure_eq]; cases m.right x <;> rfl
theorem hasParent_node : hasParent m (some x) = .returns (Tree.hasParent m x) := by
  simp only [hasParent, par, Tree.hasParent, deref_some, bind_returns, pure_eq]; cases m.parent x <;> rfl
theorem hasChild_node : hasChild m (some x) = .returns (Tree.hasChild m x) := by
  simp only [hasChild, hasLeft_node, hasRight_node, bind_returns, Tree.hasChild]; cases Tree.hasLeft m x <;> rfl
theorem hasBothChild_node : hasBothChild m (some x) = .returns (Tree.hasBothChild m x) := by
  simp only [hasBothChild, hasLeft_node, hasRight_node, bind_returns, Tree.hasBothChild]; cases Tree.hasLeft m x <;> rfl
theorem isLeaf_node : isLeaf m (some x) = .returns (Tree.isLeaf m x) := by simp [isLeaf, hasChild_node, Tree.isLeaf]
theorem isRoot_node : isRoot m (some x) = .returns (Tree.isRoot m x) := by simp [isRoot, hasParent_node, Tree.isRoot]
theorem isLeft_node : isLeft m (some x) = .returns (Tree.isLeft m x) := by
  simp only [isLeft, hasParent_node, Tree.isLeft, Tree.hasParent, bind_returns, par, lft, deref_some, pure_eq]
  cases h : m.parent x <;> simp
theorem isRight_node : isRight m (some x) = .returns (Tree.isRight m x) := by
  simp only [isRight, hasParent_node, Tree.isRight, Tree.hasParent, bind_returns, par, rgt, deref_some, pure_eq]
  cases h : m.parent x <;> simp
theorem sibling_node : sibling m (some x) = up (Tree.sibling m x) := by
  cases h : m.parent x with
  | none => simp [sibling, isRoot_node, Tree.sibling, Tree.isRoot, Tree.hasParent, h, up]
  | some p =>
    simp only [sibling, isRoot_node, isLeft_node, Tree.sibling, Tree.isRoot, Tree.hasParent, h, bind_returns, par, lft, rgt, deref_some, pure_eq, Option.isSome_some,
      Bool.not_true, Bool.false_eq_true, if_false, Option.bind_eq_bind, Option.bind_some]
    split <;> rfl
theorem uncle_node : uncle m (some x) = up (Tree.uncle m x) := by
  cases h : m.parent x with
  | none => simp [uncle, isRoot_node, Tree.uncle, Tree.isRoot, Tree.hasParent, h, up]
  | some p =>
    simp only [uncle, isRoot_node, sibling_node, Tree.uncle, Tree.isRoot, Tree.hasParent, h, bind_returns, par, deref_some, pure_eq, Option.isSome_some,
      Bool.not_true, Bool.false_eq_true, if_false, Option.bind_eq_bind, Option.bind_some]
theorem grandparent_node : grandparent m (some x) = up (Tree.grandparent m x) := by
  cases h : m.parent x with
  | none => simp [grandparent, isRoot_node, Tree.grandparent, Tree.isRoot, Tree.hasParent, h, up]
  | some p =>
    simp only [grandparent, isRoot_node, Tree.grandparent, Tree.isRoot, Tree.hasParent, h, bind_returns, par, deref_some, pure_eq, Option.isSome_some,
      Bool.not_true, Bool.false_eq_true, if_false, Option.bind_eq_bind, Option.bind_some]
    rfl

theorem sibling_some : ∃ s, Tree.sibling m x = some s := by
  cases h : m.parent x with
  | none => exact ⟨none, by simp [Tree.sibling, Tree.isRoot, Tree.hasParent, h]⟩
  | some p =>
    simp only [Tree.sibling, Tree.isRoot, Tree.hasParent, h, Option.isSome_some, Bool.not_true, Bool.false_eq_true, if_false, Option.bind_eq_bind,
      Option.bind_some]
    split <;> exact ⟨_, rfl⟩
theorem uncle_some : ∃ s, Tree.uncle m x = some s := by
  cases h : m.parent x with
  | none => exact ⟨none, by simp [Tree.uncle, Tree.isRoot, Tree.hasParent, h]⟩
  | some p =>
    simp only [Tree.uncle, Tree.isRoot, Tree.hasParent, h, Option.isSome_some, Bool.not_true, Bool.false_eq_true, if_false, Option.bind_eq_bind,
      Option.bind_some]
    exact sibling_some m p
theorem grandparent_some : ∃ s, Tree.grandparent m x = some s := by
  cases h : m.parent x with
  | none => exact ⟨none, by simp [Tree.grandparent, Tree.isRoot, Tree.hasParent, h]⟩
  | some p =>
    simp only [Tree.grandparent, Tree.isRoot, Tree.hasParent, h, Option.isSome_some, Bool.not_true, Bool.false_eq_true, if_false, Option.bind_eq_bind,
      Option.bind_some]
    exact ⟨_, rfl⟩

/-- The receiver of these may be nil. -/
theorem isLeftRelation_eq (n node : Option Nat) :
    isLeftRelation m n node = .returns (match n with | some x => Tree.isLeftRelation m x node | none => false) := by
  cases node with
  | none => cases n <;> rfl
  | some y =>
    simp only [isLeftRelation, isLeft_node, par, deref_some, bind_returns, pure_eq, reduceCtorEq, if_false]
    cases hl : Tree.isLeft m y with
    | false => cases n <;> simp [Tree.isLeftRelation, hl]
    | true =>
      have hp : m.parent y ≠ none := by intro h; simp [Tree.isLeft, h] at hl
      cases n with
      | none => simp [hp]
      | some x => simp [Tree.isLeftRelation, hl]
theorem isRightRelation_eq (n node : Option Nat) :
    isRightRelation m n node = .returns (match n with | some x => Tree.isRightRelation m x node | none => false) := by
  cases node with
  | none => cases n <;> rfl
  | some y =>
    simp only [isRightRelation, isRight_node, par, deref_some, bind_returns, pure_eq, reduceCtorEq, if_false]
    cases hl : Tree.isRight m y with
    | false => cases n <;> simp [Tree.isRightRelation, hl]
    | true =>
      have hp : m.parent y ≠ none := by intro h; simp [Tree.isRight, h] at hl
      cases n with
      | none => simp [hp]
      | some x => simp [Tree.isRightRelation, hl]
theorem isChildRelation_eq (n node : Option Nat) :
    isChildRelation m n node = .returns (match n with | some x => Tree.isChildRelation m x node | none => false) := by
  simp only [isChildRelation, isLeftRelation_eq, isRightRelation_eq, bind_returns, pure_eq]
  cases n with
  | none => rfl
  | some x => simp only [Tree.isChildRelation]; cases Tree.isLeftRelation m x node <;> rfl

theorem ancLoop_eq (n : Option Nat) (k : Nat) (node : Option Nat) : ancLoop m n k node = up (Tree.ancLoop m n k node) := by
  induction k generalizing node with
  | zero => rfl
  | succ k ih =>
    cases node with
    | none => rfl
    | some y =>
      simp only [ancLoop, Tree.ancLoop, par, deref_some, bind_returns, pure_eq, reduceCtorEq, if_false, ih]
      split <;> rfl
theorem isAncestorRelation_eq (k : Nat) (n node : Option Nat) : isAncestorRelation m k n node = up (Tree.isAncestorRelation m k n node) := by
  simp only [isAncestorRelation, Tree.isAncestorRelation, ancLoop_eq]
  split <;> rfl
theorem isDescendantRelation_eq (k : Nat) (n node : Option Nat) :
    isDescendantRelation m k n node = up (Tree.isDescendantRelation m k n node) := by
  simp only [isDescendantRelation, Tree.isDescendantRelation, isAncestorRelation_eq]
  cases Tree.isAncestorRelation m k node n <;> rfl

theorem layer_eq (k : Nat) (n : Option Nat) : layer m k n = up (Tree.layer m k n) := by
  induction k generalizing n with
  | zero => rfl
  | succ k ih =>
    cases n with
    | none => rfl
    | some y =>
      simp only [layer, Tree.layer, isRoot_node, par, deref_some, bind_returns, pure_eq, reduceCtorEq, if_false, ih]
      split
      · rfl
      · cases Tree.layer m k (m.parent y) <;> rfl

theorem maxDepth_eq (k : Nat) (n : Option Nat) : maxDepth m k n = up (Tree.maxDepth m k n) := by
  induction k generalizing n with
  | zero => rfl
  | succ k ih =>
    cases n with
    | none => rfl
    | some y =>
      simp only [maxDepth, Tree.maxDepth, isLeaf_node, lft, rgt, deref_some, bind_returns, pure_eq, reduceCtorEq, if_false, ih]
      split
      · rfl
      · cases Tree.maxDepth m k (m.left y) with
        | none => rfl
        | some a => cases Tree.maxDepth m k (m.right y) <;> rfl

theorem dfsLoop_eq (k : Nat) (queue res : List Nat) :
    dfsLoop m k (queue.map some) (res.map some) = up ((Tree.dfsLoop m k queue res).map (·.map some)) := by
  induction k generalizing queue res with
  | zero => rfl
  | succ k ih =>
    cases queue with
    | nil => rfl
    | cons y queue =>
      simp only [List.map_cons, dfsLoop, Tree.dfsLoop, hasRight_node, hasLeft_node, lft, rgt, deref_some, bind_returns, pure_eq,
        Tree.hasLeft, Tree.hasRight]
      have hr : res.map some ++ [some y] = (res ++ [y]).map some := by simp
      rw [hr]
      cases hr : m.right y <;> cases hl : m.left y <;> simp only [Option.isSome_none, Option.isSome_some, Bool.false_eq_true, if_false,
        if_true, ← List.map_cons] <;> exact ih _ _

theorem traversalDFS_node (k : Nat) : traversalDFS m k (some x) = up ((Tree.traversalDFS m k (some x)).map (·.map some)) := by
  simp only [traversalDFS, Tree.traversalDFS, isLeaf_node, bind_returns, pure_eq, Option.bind_eq_bind, Option.bind_some]
  split
  · rfl
  · exact dfsLoop_eq m k [x] []

theorem bfsRec_eq (k : Nat) (n : Option Nat) (val : List (List Nat)) (level : Nat) (h : level ≤ val.length) :
    bfsRec m k n (val.map (·.map some)) level = up ((Tree.bfsRec m k n val level).map (·.map (·.map some))) ∧
      ∀ r, Tree.bfsRec m k n val level = some r → val.length ≤ r.length := by
  induction k generalizing n val level with
  | zero => exact ⟨rfl, fun r hr => by cases hr⟩
  | succ k ih =>
    cases n with
    | none => exact ⟨rfl, fun r hr => by cases hr; exact Nat.le_refl _⟩
    | some y =>
      have hadd : ∃ v, addRow val level y = some v ∧ level + 1 ≤ v.length ∧ val.length ≤ v.length ∧
          addTo (val.map (·.map some)) level (some y) = Out.returns (v.map (·.map some)) := by
        unfold addRow addTo
        by_cases hl : val.length = level
        · exact ⟨_, by rw [if_pos hl], by simp; omega, by simp, by rw [if_pos (by simpa using hl)]; simp⟩
        · have hlt : level < val.length := by omega
          refine ⟨val.set level (val[level] ++ [y]), by rw [if_neg hl]; simp [List.getElem?_eq_getElem hlt], by simp; omega, by simp, ?_⟩
          rw [if_neg (by simpa using hl)]
          simp [List.getElem?_eq_getElem hlt, List.map_set]
      obtain ⟨v, a1, a2, a3, a4⟩ := hadd
      simp only [bfsRec, Tree.bfsRec, lft, rgt, deref_some, bind_returns, reduceCtorEq, if_false, a1, a4, Option.bind_eq_bind, Option.bind_some,
        pure_eq]
      obtain ⟨l1, l2⟩ := ih (m.left y) v (level + 1) a2
      rw [l1]
      cases hb : Tree.bfsRec m k (m.left y) v (level + 1) with
      | none => exact ⟨rfl, fun r hr => by cases hr⟩
      | some w =>
        have := l2 w hb
        obtain ⟨r1, r2⟩ := ih (m.right y) w (level + 1) (by omega)
        refine ⟨r1, fun r hr => ?_⟩
        have := r2 r hr
        omega

theorem traversalBFS_eq (k : Nat) (n : Option Nat) : traversalBFS m k n = up ((Tree.traversalBFS m k n).map (·.map some)) := by
  simp only [traversalBFS, Tree.traversalBFS]
  have h := (bfsRec_eq m k n [] 0 (Nat.le_refl _)).1
  simp only [List.map_nil] at h
  rw [h]
  cases Tree.bfsRec m k n [] 0 with
  | none => rfl
  | some r => simp [up, List.map_flatten]

theorem drawLoop_eq (l : List Nat) (d c : Nat) (out : List (Tok T)) : drawLoop m (l.map some) d c out = .returns (Tree.drawLoop m l d c out) := by
  induction l generalizing d c out with
  | nil => rfl
  | cons y l ih =>
    simp only [List.map_cons, drawLoop, Tree.drawLoop, deref_some, bind_returns, ih]
    split
    · rfl
    · split <;> rfl

theorem drawTree_eq (k : Nat) (n : Option Nat) : drawTree m k n = up (Tree.drawTree m k n) := by
  simp only [drawTree, Tree.drawTree, traversalBFS_eq]
  cases Tree.traversalBFS m k n with
  | none => rfl
  | some l => exact drawLoop_eq m l 0 0 []

end nodes

/-! ## Specification -/

/-- The methods that may be called on nil. -/
def NilOk : Call → Prop
  | .isLeftRelation _ | .isRightRelation _ | .isChildRelation _ | .isAncestorRelation _ | .isDescendantRelation _
  | .layer | .maxDepth | .bfs | .draw => True
  | _ => False

theorem up_ne (o : Option β) : up o ≠ .panics := by cases o <;> intro h <;> cases h

theorem reads_panics {m : Mem T} {o : Out β} {f : β → Ans T} : reads m o f = .panics ↔ o = .panics := by
  cases o <;> simp [reads]

/-- **C187**: a call panics only if it is made on nil, and then unless the method is one of those that may be called on nil, whatever the
nodes are linked to, and also while it has not come to an end. -/
theorem C187_panics (m : Mem T) (fuel : Nat) (n : Option Nat) (c : Call) : call m fuel n c = .panics ↔ n = none ∧ ¬ NilOk c := by
  cases n with
  | none =>
    cases c <;> simp [call, NilOk, reads_panics, setLeft, setRight, lft, rgt, par, isLeaf, isRoot, hasChild, hasParent, hasLeft, hasRight,
      hasBothChild, isLeft, isRight, sibling, uncle, grandparent, isUncleRelation, isSiblingRelation, isGrandparentRelation, hasSibling, hasUncle,
      hasGrandparent, traversalDFS, isLeftRelation_eq, isRightRelation_eq, isChildRelation_eq, isAncestorRelation_eq, isDescendantRelation_eq,
      layer_eq, maxDepth_eq, traversalBFS_eq, drawTree_eq, up_ne]
  | some x =>
    obtain ⟨s, hs⟩ := sibling_some m x
    obtain ⟨u, hu⟩ := uncle_some m x
    obtain ⟨g, hg⟩ := grandparent_some m x
    cases c <;> simp [call, reads_panics, setLeft_node, setRight_node, hasLeft_node, hasRight_node, hasParent_node, hasChild_node, hasBothChild_node,
      isLeaf_node, isRoot_node, isLeft_node, isRight_node, sibling_node, uncle_node, grandparent_node, isUncleRelation, isSiblingRelation,
      isGrandparentRelation, hasSibling, hasUncle, hasGrandparent, hs, hu, hg, isLeftRelation_eq, isRightRelation_eq, isChildRelation_eq,
      isAncestorRelation_eq, isDescendantRelation_eq, layer_eq, maxDepth_eq, traversalDFS_node, traversalBFS_eq, drawTree_eq, up_ne]
    all_goals simp [up]

/-- What calls on nil return. -/
def nilAns : Call → Ans T
  | .layer => .int (-1)
  | .maxDepth => .int 0
  | .bfs => .ptrs []
  | .draw => .text []
  | .isDescendantRelation _ => .bool true
  | .isAncestorRelation _ => .bool false
  | _ => .bool false

/-- **C187**: what they return on nil: nil is in layer -1, has depth 0 and no nodes, is nobody's parent, is an ancestor of nobody, and, so
`IsDescendantRelation`, a descendant of everybody.  `IsAncestorRelation` walks up from its argument, and returns if the walk ends. -/
theorem C187_nil (m : Mem T) (c : Call) (h : NilOk c) (hx : ∀ x, c = .isAncestorRelation (some x) → ∃ k, Up m x k) :
    ∃ F, ∀ fuel, F ≤ fuel → call m fuel none c = .returns (m, nilAns c) := by
  cases c <;> simp only [NilOk] at h
  case isAncestorRelation x =>
    cases x with
    | none => exact ⟨0, fun fuel _ => rfl⟩
    | some x =>
      obtain ⟨k, hk⟩ := hx x rfl
      clear hx
      suffices key : ∀ fuel, k + 2 ≤ fuel → Tree.ancLoop m none fuel (some x) = some false from
        ⟨k + 2, fun fuel hf => by simp [call, reads, isAncestorRelation_eq, Tree.isAncestorRelation, key fuel hf, up, nilAns]⟩
      induction hk with
      | @root x h =>
        intro fuel hf
        obtain ⟨j, rfl⟩ : ∃ j, fuel = j + 2 := ⟨fuel - 2, by omega⟩
        simp [Tree.ancLoop, h]
      | @step x p k h _ ih =>
        intro fuel hf
        obtain ⟨j, rfl⟩ : ∃ j, fuel = j + 1 := ⟨fuel - 1, by omega⟩
        simp [Tree.ancLoop, h, ih j (by omega)]
  case isDescendantRelation x => exact ⟨1, fun fuel hf => by
    obtain ⟨k, rfl⟩ : ∃ k, fuel = k + 1 := ⟨fuel - 1, by omega⟩
    rfl⟩
  all_goals exact ⟨1, fun fuel hf => by
    obtain ⟨k, rfl⟩ : ∃ k, fuel = k + 1 := ⟨fuel - 1, by omega⟩
    first | rfl | simp [call, reads, isLeftRelation_eq, isRightRelation_eq, isChildRelation_eq, nilAns]⟩

/-- What a call on a node does in `Model.lean`. -/
def modelCall (m : Mem T) (fuel x : Nat) : Call → Option (Mem T × Ans T)
  | .setLeft l => some ((Tree.setLeft m x l).1, .ptr (Tree.setLeft m x l).2)
  | .setRight l => some ((Tree.setRight m x l).1, .ptr (Tree.setRight m x l).2)
  | .isLeaf => some (m, .bool (Tree.isLeaf m x))
  | .isRoot => some (m, .bool (Tree.isRoot m x))
  | .isLeft => some (m, .bool (Tree.isLeft m x))
  | .isRight => some (m, .bool (Tree.isRight m x))
  | .sibling => (Tree.sibling m x).map fun p => (m, .ptr p)
  | .uncle => (Tree.uncle m x).map fun p => (m, .ptr p)
  | .grandparent => (Tree.grandparent m x).map fun p => (m, .ptr p)
  | .isLeftRelation y => some (m, .bool (Tree.isLeftRelation m x y))
  | .isRightRelation y => some (m, .bool (Tree.isRightRelation m x y))
  | .isChildRelation y => some (m, .bool (Tree.isChildRelation m x y))
  | .isUncleRelation y => (Tree.isUncleRelation m x y).map fun b => (m, .bool b)
  | .isSiblingRelation y => (Tree.isSiblingRelation m x y).map fun b => (m, .bool b)
  | .isGrandparentRelation y => (Tree.isGrandparentRelation m x y).map fun b => (m, .bool b)
  | .isAncestorRelation y => (Tree.isAncestorRelation m fuel (some x) y).map fun b => (m, .bool b)
  | .isDescendantRelation y => (Tree.isDescendantRelation m fuel (some x) y).map fun b => (m, .bool b)
  | .hasLeft => some (m, .bool (Tree.hasLeft m x))
  | .hasRight => some (m, .bool (Tree.hasRight m x))
  | .hasChild => some (m, .bool (Tree.hasChild m x))
  | .hasBothChild => some (m, .bool (Tree.hasBothChild m x))
  | .hasParent => some (m, .bool (Tree.hasParent m x))
  | .hasSibling => (Tree.hasSibling m x).map fun b => (m, .bool b)
  | .hasUncle => (Tree.hasUncle m x).map fun b => (m, .bool b)
  | .hasGrandparent => (Tree.hasGrandparent m x).map fun b => (m, .bool b)
  | .layer => (Tree.layer m fuel (some x)).map fun d => (m, .int d)
  | .maxDepth => (Tree.maxDepth m fuel (some x)).map fun d => (m, .int d)
  | .dfs => (Tree.traversalDFS m fuel (some x)).map fun l => (m, .ptrs (l.map some))
  | .bfs => (Tree.traversalBFS m fuel (some x)).map fun l => (m, .ptrs (l.map some))
  | .draw => (Tree.drawTree m fuel (some x)).map fun l => (m, .text l)

theorem reads_up {m : Mem T} (o : Option β) (f : β → Ans T) : reads m (up o) f = up (o.map fun b => (m, f b)) := by cases o <;> rfl

/-- **C187**: on nodes the calls do what C66 to C73 and C128 are about, and none of their dereferences and index expressions panics, also while
they run; the traversals return no nil. -/
theorem C187_node (m : Mem T) (fuel x : Nat) (c : Call) : call m fuel (some x) c = up (modelCall m fuel x c) := by
  obtain ⟨s, hs⟩ := sibling_some m x
  obtain ⟨u, hu⟩ := uncle_some m x
  obtain ⟨g, hg⟩ := grandparent_some m x
  cases c <;> simp only [call, modelCall, setLeft_node, setRight_node, hasLeft_node, hasRight_node, hasParent_node, hasChild_node, hasBothChild_node,
    isLeaf_node, isRoot_node, isLeft_node, isRight_node, sibling_node, uncle_node, grandparent_node, isUncleRelation, isSiblingRelation,
    isGrandparentRelation, hasSibling, hasUncle, hasGrandparent, hs, hu, hg, isLeftRelation_eq, isRightRelation_eq, isChildRelation_eq,
    isAncestorRelation_eq, isDescendantRelation_eq, layer_eq, maxDepth_eq, traversalDFS_node, traversalBFS_eq, drawTree_eq, reads_up, Option.map_map]
  all_goals first | rfl | simp [up, reads, Tree.isUncleRelation, Tree.isSiblingRelation, Tree.isGrandparentRelation, Tree.hasSibling, Tree.hasUncle,
    Tree.hasGrandparent, hs, hu, hg]
  case hasSibling => cases s <;> rfl
  case hasUncle => cases u <;> rfl
  case hasGrandparent => cases g <;> rfl
  case maxDepth => cases Tree.maxDepth m fuel (some x) <;> rfl

/-- `NewNode` twice, and `SetLeft`. -/
def exTwo : Mem Nat := (Tree.setLeft (newNode (newNode (Mem.empty 0) 5).1 6).1 0 (some 1)).1

/-- What a call returns, or that it panics. -/
inductive See
  | bool (b : Bool) | int (i : Int) | ptrs (l : List (Option Nat)) | panics | other
  deriving DecidableEq

def see : Out (Mem Nat × Ans Nat) → See
  | .returns (_, .bool b) => .bool b
  | .returns (_, .int i) => .int i
  | .returns (_, .ptrs l) => .ptrs l
  | .panics => .panics
  | _ => .other

example : [(none, .layer), (none, .dfs), (some 0, .bfs), (some 0, .dfs), (none, .isChildRelation (some 1)), (none, .isDescendantRelation (some 1)),
      (none, .isAncestorRelation (some 1)), (none, .setLeft (some 1)), (some 1, .isLeft), (none, .isLeft)].map
        (fun q : Option Nat × Call => see (call exTwo 9 q.1 q.2)) =
    [.int (-1), .panics, .ptrs [some 0, some 1], .ptrs [some 0, some 1], .bool false, .bool true, .bool false, .panics, .bool true, .panics] := by
  decide +kernel

/-- The hypothesis of `C187_nil` holds of the two nodes. -/
example : ∃ k, Up exTwo 1 k := ⟨1, .step rfl (.root rfl)⟩

end Verif.Tree.Nil
