import Verif.Set.Props
import Verif.Vec.Order
import Verif.HashRing.Spec
/-!
# Model of package `hashring`

Built on the models of `set` and `vec`.  Parameters: the hash function `hash` (`hashKey`,
hashring.go:85-87: CRC-32 of `fmt.Sprintf("%v-%d", key, index)`, see `Crc.lean`), the map iteration
orders `ω`, the decisions of the allocator `g`, the sorting function `P`.  `none` is a panic.
Simplification: each ring has a memory of its own — its set and vector are not reachable from outside.
-/
namespace Verif.HashRing
variable {N : Type} [DecidableEq N]

/-- `HashRing`: hashring.go:12-16. -/
structure Ring (N : Type) where
  replicas : Int
  sm : GoSet.Mem N
  raw : MRef
  vm : Vec.VMem (Pt N)
  nodes : Nat

/-- What has to be known of the environment. -/
structure Env (N : Type) where
  hash : N → Nat → Nat
  zero : N
  ω : GoSet.Ord N
  g : Nat → Nat
  P : Vec.SortImpl (Pt N)

/-- The element type `node[Node]` (hashring.go:18-21) is a struct: no comparison is detected. -/
def Env.elt (e : Env N) : Vec.Elt (Pt N) := { zero := ⟨e.zero, 0⟩, less := none, eq := none }

/-- hashring.go:28-30. -/
def ptLess (a b : Pt N) : Bool := decide (a.hash < b.hash)
/-- hashring.go:31-33. -/
def ptEq (a b : Pt N) : Bool := decide (a.hash = b.hash)

variable (e : Env N)

/-- A call of a method of the vector. -/
def vcall (vm : Vec.VMem (Pt N)) (op : Vec.Mut (Pt N)) : Option (Vec.VMem (Pt N)) :=
  (Vec.exec e.elt e.g e.P vm op).map (·.1)

/-- `New`: hashring.go:23-36. -/
def new (replicas : Int) : Option (Ring N) := do
  let (sm, raw) := GoSet.new (MMem.empty : GoSet.Mem N)
  let vm ← vcall e Vec.VMem.empty (.new (some ptLess) (some ptEq))
  some { replicas, sm, raw, vm, nodes := 0 }

/-- The loop over the replicas: hashring.go:44-49; `k` rounds are left, `v` is the loop variable. -/
def pushPts (val : N) (nodes : Nat) : Nat → Nat → Vec.VMem (Pt N) → Option (Vec.VMem (Pt N))
  | 0, _, vm => some vm
  | k + 1, v, vm => do
    let vm ← vcall e vm (.push nodes [⟨val, e.hash val v⟩])
    pushPts val nodes k (v + 1) vm

/-- The function given to `Range`: hashring.go:43-51. -/
def addBody (nodes : Nat) (replicas : Int) (vm : Vec.VMem (Pt N)) (val : N) : Option (Vec.VMem (Pt N) × Bool) :=
  (pushPts e val nodes replicas.toNat 0 vm).map fun vm => (vm, true)

/-- `AddNodes`: hashring.go:38-55. -/
def addNodes (hr : Ring N) (ns : List N) : Option (Ring N) :=
  if ns.length = 0 then some hr
  else do
    let (sm, t) := GoSet.new hr.sm
    let sm ← GoSet.push sm t ns
    let (sm, s) ← GoSet.difference e.ω sm t hr.raw
    let (sm, es) := sm.keys e.ω s
    let vm ← GoSet.rangeLoop (addBody e hr.nodes hr.replicas) hr.vm es
    let (sm, xs) := GoSet.slice e.ω sm s
    let sm ← GoSet.push sm hr.raw xs
    let vm ← vcall e vm (.sort hr.nodes)
    some { hr with sm, vm }

/-- `ResetNodes`: hashring.go:57-61. -/
def resetNodes (hr : Ring N) (ns : List N) : Option (Ring N) := do
  let vm ← vcall e hr.vm (.clear hr.nodes)
  let sm := GoSet.clear e.ω hr.sm hr.raw
  addNodes e { hr with vm, sm } ns

/-- `RemoveNodes`: hashring.go:89-95. -/
def removeNodes (hr : Ring N) (ns : List N) : Option (Ring N) :=
  if ns.length = 0 then some hr
  else do
    let (sm, t) := GoSet.new hr.sm
    let sm ← GoSet.push sm t ns
    let (sm, s) ← GoSet.intersection e.ω sm hr.raw t
    let (sm, d) ← GoSet.difference e.ω sm hr.raw s
    let (sm, xs) := GoSet.slice e.ω sm d
    resetNodes e { hr with sm } xs

/-- `GetNode`: hashring.go:63-83. -/
def getNode (hr : Ring N) (key : N) : Option N :=
  if hr.vm.len hr.nodes = 0 then some e.zero
  else do
    let hash := e.hash key 0
    let (i, ok) ← hr.vm.binarySearch e.elt hr.nodes ⟨key, hash⟩
    if ok then some key
    else if i = hr.vm.len hr.nodes then some (hr.vm.first e.elt hr.nodes).1.node
    else some (hr.vm.get e.elt hr.nodes i).1.node

/-- One call. -/
def exec (hr : Ring N) : Call N → Option (Ring N)
  | .add ns => addNodes e hr ns
  | .remove ns => removeNodes e hr ns
  | .reset ns => resetNodes e hr ns

/-- `New(replicas)` and then the calls. -/
def run (replicas : Int) (cs : List (Call N)) : Option (Ring N) := do
  let hr ← new e replicas
  cs.foldlM (exec e) hr

end Verif.HashRing
