import Verif.Lib.GMap
import Verif.RWMap.Spec
/-!
# Model of `rwmap.RWMap`

A transition system: any number of calls in progress, each advancing one step at a time, in any
order.  A step is one access to shared memory that other goroutines can observe: an atomic load,
store, swap, compare-and-swap or add, or locking or unlocking the mutex.  Accesses to the plain
fields `dirty` and `misses` are part of the neighbouring step of the same call: they happen only
between its locking and its unlocking (proved as `lock_invariant`: only the holder of the mutex is
ever at such a step).

* A Go map is an association list.  The maps in `read` and `dirty` are kept by value: whenever a map
  object moves from `dirty` to `read.m` (rwmap.go:488-491, 547-548), `dirty` is set to nil in the
  same critical section, and nothing ever modifies a map reachable from `read`.
* An entry is an address; `ent` is the memory of the `p` fields.
* A `*V` other than nil and `expunged` points to a box that is never modified.  Every call publishes
  at most one box (`&value`, `&nc`, `&ic`, or the one made by `newEntry`), containing its value
  argument, so a box is named by the number of the call.
* `reflect.ValueOf(*p).Equal(reflect.ValueOf(old))` is `eqv *p old`, an arbitrary function; `none`:
  it panics (incomparable dynamic types).  `CompareAndSwap` then unlocks by its deferred call.
* `misses` and `len` do not overflow.
-/
namespace Verif.RWMap
variable {K V : Type}

/-- The contents of `entry.p`: rwmap.go:85-106. -/
inductive Ptr where
  | nil
  | exp
  | val (b : Nat)
  deriving DecidableEq

/-- `readOnly`: rwmap.go:79-82. -/
structure RO (K : Type) where
  m : List (K × Nat)
  amended : Bool

/-- Shared memory: `RWMap` (rwmap.go:36-71), and the entries. -/
structure Sh (K : Type) where
  /-- `read`; a nil pointer is the zero `readOnly` (`loadReadOnly`, rwmap.go:114-119) -/
  read : RO K
  /-- `dirty`; `none` is nil -/
  dirty : Option (List (K × Nat))
  misses : Nat
  len : Int
  /-- which call holds `mu` -/
  mu : Option Nat
  ent : Nat → Ptr
  /-- next free entry address -/
  fresh : Nat

/-- How an entry is being accessed: without `mu`; with `mu`; with `mu`, followed by `missLocked`. -/
inductive Lk where
  | u | l | lm
  deriving DecidableEq

/-- What follows the critical section. -/
inductive Nx (K V : Type) where
  /-- access entry `e` without the lock -/
  | ent (e : Nat)
  /-- iterate over the map -/
  | rng (m : List (K × Nat))
  /-- return -/
  | res (r : Res K V)

/-- Where a call is; the next step is described. -/
inductive PC (K V : Type) where
  /-- not yet invoked -/
  | idle
  /-- load `read` -/
  | start
  /-- lock `mu` -/
  | acq
  /-- with `mu` held: load `read` again -/
  | crit
  /-- load `e.p` -/
  | ent (e : Nat) (lk : Lk)
  /-- compare-and-swap `e.p`, expecting `p` -/
  | cas (e : Nat) (lk : Lk) (p : Ptr)
  /-- `unexpungeLocked` -/
  | unexp (e : Nat)
  /-- `swapLocked` -/
  | swp (e : Nat)
  /-- `dirtyLocked`, about to load `read`; `rm` is the `read.m` of the caller -/
  | copy0 (rm : List (K × Nat))
  /-- loop of `dirtyLocked`: load the `p` of the first of the remaining entries -/
  | copy (es rm : List (K × Nat))
  /-- loop of `dirtyLocked`: compare-and-swap from nil to expunged -/
  | expunge (es rm : List (K × Nat))
  /-- store `read` with `amended` set -/
  | amend (rm : List (K × Nat))
  /-- promote `dirty` to `read` -/
  | promo (nx : Nx K V)
  /-- `Clear`: store the empty `read` -/
  | wipe
  /-- `Clear`: `m.len = 0` -/
  | zero
  /-- unlock `mu` -/
  | unl (nx : Nx K V)
  /-- loop of `Range`; remaining entries, visited pairs -/
  | rng (es : List (K × Nat)) (acc : List (K × V))
  /-- deferred `atomic.AddInt64(&m.len, d)` -/
  | add (d : Int) (r : Res K V)
  /-- return `r` -/
  | fin (r : Res K V)
  /-- returned -/
  | done (r : Res K V)
  /-- write to a nil map, or a read through `expunged` -/
  | panic

structure State (K V : Type) where
  sh : Sh K
  pc : Nat → PC K V

/-- The zero `RWMap`, no calls made. -/
def State.init : State K V :=
  { sh := { read := ⟨[], false⟩, dirty := none, misses := 0, len := 0, mu := none
            ent := fun _ => .nil, fresh := 0 }
    pc := fun _ => .idle }

def State.goto (s : State K V) (i : Nat) (c : PC K V) : State K V :=
  { s with pc := fun j => if j = i then c else s.pc j }

def Sh.setEnt (h : Sh K) (e : Nat) (p : Ptr) : Sh K :=
  { h with ent := fun x => if x = e then p else h.ent x }

variable [DecidableEq K] [Inhabited V] (eqv : V → V → Option Bool) (prog : Nat → Op K V)

/-- The value argument of a call, which is what its box contains. -/
def Op.arg : Op K V → V
  | .swap _ v | .loadOrStore _ v | .compareAndSwap _ _ v => v
  | _ => default

/-- `*p`, or nothing if `p` is nil or expunged. -/
def deref : Ptr → Option V
  | .val b => some (prog b).arg
  | _ => none

/-- The deferred updates of `len`: rwmap.go:208-212, 282-286, 345-349, 426-430. -/
def finish (op : Op K V) (r : Res K V) : PC K V :=
  match op, r with
  | .swap _ _, .opt none => .add 1 r
  | .loadOrStore _ _, .los _ false => .add 1 r
  | .loadAndDelete _, .opt (some _) => .add (-1) r
  | .compareAndDelete _ _, .bool true => .add (-1) r
  | _, _ => .fin r

/-- `missLocked` up to the atomic store: rwmap.go:542-546. -/
def missLocked (h : Sh K) (nx : Nx K V) : Sh K × PC K V :=
  let h := { h with misses := h.misses + 1 }
  if h.misses < (h.dirty.getD []).length then (h, .unl nx) else (h, .promo nx)

/-- The result `r` of an entry operation is known. -/
def after (h : Sh K) (op : Op K V) (lk : Lk) (r : Res K V) : Sh K × PC K V :=
  match lk with
  | .u => (h, finish op r)
  | .l => (h, .unl (.res r))
  | .lm => missLocked h (.res r)

/-- After a panic the mutex is unlocked by the deferred call (rwmap.go:402), and `missLocked` is not reached. -/
def Lk.raise : Lk → Lk
  | .lm => .l
  | lk => lk

/-- `m.dirty[key] = newEntry(value)` with the value of call `i`, then go on to unlock with result
`r`: rwmap.go:108-112, 239-240, 384.  Writing to a nil map panics. -/
def putNew (h : Sh K) (i : Nat) (k : K) (r : Res K V) : Sh K × PC K V :=
  match h.dirty with
  | none => (h, .panic)
  | some d =>
    ({ h with dirty := some (aput d k h.fresh), fresh := h.fresh + 1
              ent := fun x => if x = h.fresh then .val i else h.ent x }, .unl (.res r))

/-- The first step after the invocation, which loads `read` (or `len`): rwmap.go:125-127, 214-215,
287-289, 350-351, 394-399, 431-433, 479-480, 510-514, 530-532. -/
def startStep (ord : List (K × Nat) → List (K × Nat)) (h : Sh K) (op : Op K V) : PC K V :=
  match op with
  | .load k | .loadAndDelete k => match aget h.read.m k with
    | some e => .ent e .u
    | none => if h.read.amended then .acq else .fin (.opt none)
  | .compareAndSwap k _ _ | .compareAndDelete k _ => match aget h.read.m k with
    | some e => .ent e .u
    | none => if h.read.amended then .acq else .fin (.bool false)
  | .swap k _ | .loadOrStore k _ => match aget h.read.m k with
    | some e => .ent e .u
    | none => .acq
  | .clear => if h.read.m = [] ∧ h.read.amended = false then .fin .unit else .acq
  | .range => if h.read.amended then .acq else .rng (ord h.read.m) []
  | .len => .fin (.int h.len)

/-- The first step with `mu` held, which loads `read` again, up to the next atomic access:
rwmap.go:132-140, 223-239, 291-300, 361-385, 403-416, 435-447, 486-489, 519-526. -/
def critStep (h : Sh K) (i : Nat) (op : Op K V) : Sh K × PC K V :=
  let dirtyGet (k : K) : Option Nat := aget (h.dirty.getD []) k
  match op with
  | .load k => match aget h.read.m k with
    | some e => (h, .unl (.ent e))
    | none =>
      if h.read.amended then
        match dirtyGet k with
        | some e => missLocked h (.ent e)
        | none => missLocked h (.res (.opt none))
      else (h, .unl (.res (.opt none)))
  | .compareAndDelete k _ => match aget h.read.m k with
    | some e => (h, .unl (.ent e))
    | none =>
      if h.read.amended then
        match dirtyGet k with
        | some e => missLocked h (.ent e)
        | none => missLocked h (.res (.bool false))
      else (h, .unl (.res (.bool false)))
  | .loadAndDelete k => match aget h.read.m k with
    | some e => (h, .unl (.ent e))
    | none =>
      if h.read.amended then
        let h' := { h with dirty := h.dirty.map (adel · k) }
        match dirtyGet k with
        | some e => missLocked h' (.ent e)
        | none => missLocked h' (.res (.opt none))
      else (h, .unl (.res (.opt none)))
  | .swap k _ => match aget h.read.m k with
    | some e => (h, .unexp e)
    | none => match dirtyGet k with
      | some e => (h, .swp e)
      | none => if h.read.amended then putNew h i k (.opt none) else (h, .copy0 h.read.m)
  | .loadOrStore k v => match aget h.read.m k with
    | some e => (h, .unexp e)
    | none => match dirtyGet k with
      | some e => (h, .ent e .lm)
      | none => if h.read.amended then putNew h i k (.los v false) else (h, .copy0 h.read.m)
  | .compareAndSwap k _ _ => match aget h.read.m k with
    | some e => (h, .ent e .l)
    | none => match dirtyGet k with
      | some e => (h, .ent e .lm)
      | none => (h, .unl (.res (.bool false)))
  | .clear =>
    if h.read.m ≠ [] ∨ h.read.amended = true then (h, .wipe)
    else ({ h with dirty := h.dirty.map (fun _ => []), misses := 0 }, .zero)
  | .range =>
    if h.read.amended then (h, .promo (.rng (h.dirty.getD []))) else (h, .unl (.rng h.read.m))
  | .len => (h, .panic)

/-- Load `e.p` and decide: `load` rwmap.go:149-155, `trySwap` 330-335, `tryLoadOrStore` 252-259 and
269-275, `delete` 314-319, `tryCompareAndSwap` 168-172 and 182-185, `CompareAndDelete` 451-455. -/
def entStep (h : Sh K) (op : Op K V) (e : Nat) (lk : Lk) : Sh K × PC K V :=
  let p := h.ent e
  match op with
  | .load _ => after h op lk (.opt (deref prog p))
  | .swap _ _ => if p = .exp then (h, .acq) else (h, .cas e lk p)
  | .loadOrStore _ _ => match p with
    | .exp => if lk = .u then (h, .acq) else after h op lk (.los default false)
    | .val b => after h op lk (.los (prog b).arg true)
    | .nil => (h, .cas e lk .nil)
  | .loadAndDelete _ => match p with
    | .val _ => (h, .cas e lk p)
    | _ => after h op lk (.opt none)
  | .compareAndSwap _ old _ | .compareAndDelete _ old => match p with
    | .val b => match eqv (prog b).arg old with
      | some true => (h, .cas e lk p)
      | some false => after h op lk (.bool false)
      | none => after h op lk.raise .panicked
    | _ => after h op lk (.bool false)
  | _ => (h, .panic)

/-- Compare-and-swap `e.p` from `p`; start over if it fails: rwmap.go:179-182, 266-269, 320-322,
336-338, 456-458. -/
def casStep (h : Sh K) (i : Nat) (op : Op K V) (e : Nat) (lk : Lk) (p : Ptr) : Sh K × PC K V :=
  if h.ent e = p then
    match op with
    | .swap _ _ => after (h.setEnt e (.val i)) op lk (.opt (deref prog p))
    | .loadOrStore _ v => after (h.setEnt e (.val i)) op lk (.los v false)
    | .compareAndSwap _ _ _ => after (h.setEnt e (.val i)) op lk (.bool true)
    | .loadAndDelete _ => after (h.setEnt e .nil) op lk (.opt (deref prog p))
    | .compareAndDelete _ _ => after (h.setEnt e .nil) op lk (.bool true)
    | _ => (h, .panic)
  else (h, .ent e lk)

/-- `unexpungeLocked` and `m.dirty[key] = e`: rwmap.go:193-195, 225-227, 363-367. -/
def unexpStep (h : Sh K) (op : Op K V) (e : Nat) : Sh K × PC K V :=
  let next : PC K V := match op with
    | .swap _ _ => .swp e
    | .loadOrStore _ _ => .ent e .l
    | _ => .panic
  if h.ent e = .exp then
    match op with
    | .swap k _ | .loadOrStore k _ => match h.dirty with
      | none => (h, .panic)
      | some d => ({ h.setEnt e .nil with dirty := some (aput d k e) }, next)
    | _ => (h, .panic)
  else (h, next)

/-- `swapLocked`: rwmap.go:200-202, 368-371, 373-376; reading through `expunged` is undefined. -/
def swpStep (h : Sh K) (i : Nat) (e : Nat) : Sh K × PC K V :=
  match h.ent e with
  | .exp => (h, .panic)
  | p => (h.setEnt e (.val i), .unl (.res (.opt (deref prog p))))

/-- The result of adding a new key. -/
def newRes (op : Op K V) : Res K V :=
  match op with
  | .loadOrStore _ v => .los v false
  | _ => .opt none

/-- The key of a call. -/
def Op.key? : Op K V → Option K
  | .load k | .swap k _ | .loadOrStore k _ | .loadAndDelete k | .compareAndSwap k _ _
  | .compareAndDelete k _ => some k
  | _ => none

/-- Insert an entry into `dirty` (in the loop of `dirtyLocked`). -/
def dirtyPut (h : Sh K) (k : K) (e : Nat) : Sh K :=
  { h with dirty := h.dirty.map (aput · k e) }

/-- One step of call `i`.  `ord` is the order in which a map is iterated, `go` what the callback of
`Range` returns. -/
def next (ord : List (K × Nat) → List (K × Nat)) (go : Bool) (s : State K V) (i : Nat) :
    Option (State K V) :=
  let h := s.sh
  let op := prog i
  let up (r : Sh K × PC K V) : Option (State K V) := some ({ s with sh := r.1 }.goto i r.2)
  match s.pc i with
  | .idle => up (h, .start)
  | .start => up (h, startStep ord h op)
  | .acq => if h.mu = none then up ({ h with mu := some i }, .crit) else none
  | .crit => up (critStep h i op)
  | .ent e lk => up (entStep eqv prog h op e lk)
  | .cas e lk p => up (casStep prog h i op e lk p)
  | .unexp e => up (unexpStep h op e)
  | .swp e => up (swpStep prog h i e)
  -- dirtyLocked: rwmap.go:552-564
  | .copy0 rm =>
    if h.dirty.isSome then up (h, .amend rm)
    else up ({ h with dirty := some [] }, .copy (ord h.read.m) rm)
  | .copy [] rm => up (h, .amend rm)
  -- tryExpungeLocked: rwmap.go:566-575
  | .copy ((k, e) :: es) rm => match h.ent e with
    | .nil => up (h, .expunge ((k, e) :: es) rm)
    | .exp => up (h, .copy es rm)
    | .val _ => up (dirtyPut h k e, .copy es rm)
  | .expunge [] _ => none
  | .expunge ((k, e) :: es) rm =>
    if h.ent e = .nil then up (h.setEnt e .exp, .copy es rm) else up (h, .copy ((k, e) :: es) rm)
  -- rwmap.go:237-240, 382-384
  | .amend rm => match op.key? with
    | none => up (h, .panic)
    | some k => up (putNew { h with read := ⟨rm, true⟩ } i k (newRes op))
  -- rwmap.go:488-492, 547-549
  | .promo nx =>
    up ({ h with read := ⟨h.dirty.getD [], false⟩, dirty := none, misses := 0 }, .unl nx)
  -- rwmap.go:520-526
  | .wipe =>
    up ({ h with read := ⟨[], false⟩, dirty := h.dirty.map (fun _ => []), misses := 0 }, .zero)
  -- rwmap.go:527
  | .zero => up ({ h with len := 0 }, .unl (.res .unit))
  | .unl nx =>
    let h := { h with mu := none }
    match nx with
    | .ent e => up (h, .ent e .u)
    | .rng m => up (h, .rng (ord m) [])
    | .res r => up (h, finish op r)
  -- rwmap.go:497-505
  | .rng [] acc => up (h, .fin (.visited acc false))
  | .rng ((k, e) :: es) acc => match deref prog (h.ent e) with
    | none => up (h, .rng es acc)
    | some v =>
      if go then up (h, .rng es (acc ++ [(k, v)]))
      else up (h, .fin (.visited (acc ++ [(k, v)]) true))
  | .add d r => up ({ h with len := h.len + d }, .fin r)
  | .fin r => up (h, .done r)
  | .done _ => none
  | .panic => none

/-- What the environment sees of a step of call `i`. -/
def event (s : State K V) (i : Nat) : List (Ev K V) :=
  match s.pc i with
  | .idle => [.inv i]
  | .fin r => [.ret i r]
  -- rwmap.go:497-502
  | .rng ((k, e) :: _) _ => match deref prog (s.sh.ent e) with
    | some v => [.visit i k v]
    | none => []
  | _ => []

/-- One step of some call, under any iteration order. -/
def Step (s : State K V) (evs : List (Ev K V)) (s' : State K V) : Prop :=
  ∃ i ord go, (∀ l, (ord l).Perm l) ∧ next eqv prog ord go s i = some s' ∧ evs = event prog s i

/-- The executions, with their histories. -/
inductive Exec : List (Ev K V) → State K V → Prop
  | init : Exec [] State.init
  | step {h s evs s'} : Exec h s → Step eqv prog s evs s' → Exec (h ++ evs) s'

end Verif.RWMap
