import Verif.Refresh.Spec
import Mathlib.Logic.Function.Basic
/-!
# Model of packages `refreshcache`, `refreshcache0`, `refreshcache1`

The three packages differ only in the number of arguments of the functions (any type `A` here; `Unit` for
`refreshcache0`, a list for `refreshcache`); lines are those of refreshcache/refreshcache.go.

A step machine: every access to a shared field, every lock operation and every reading of the clock is a
step of its own; the clock returns arbitrary values.  The functions of the user may do anything (calls made
by them are calls of other threads) and may panic; `runtime.Goexit` is like a panic.
Simplifications: the reads of the field `r.last` under the lock (line 108) race with the store of `Clear`
and are taken to be atomic; integers are unbounded; only values made by the constructors are considered.
Not modelled separately: `LastTime` and `LastErrTime` (lines 159-161, 167-169) are `Last` and `LastErr` as a `time.Time`; `MaxAge` and
`MaxErrAge` (lines 171-177) return fields that are never written after construction.
-/
namespace Verif.Refresh
variable {T E F A : Type}

/-- The fields fixed at construction: refreshcache.go:68, 70; `zero` is the zero value of `T`. -/
structure Cfg (T : Type) where
  zero : T
  maxAge : Int
  errAge : Int

/-- Where a thread is.  `f`, `a`: the function and arguments of the call; `r`: the result to return. -/
inductive PC (T E F A : Type) where
  | idle
  -- `RefreshCache`: load the function, lines 49, 53, 61
  | cGet (a : A)
  | cRefresh (a : A)
  | cClear (a : A)
  | setRefresh (f : F)
  | setClear (f : Option F)
  -- `Get` before the lock, lines 99-106
  | gLast (f : F) (a : A)
  | gChk (f : F) (a : A) (l : Int)
  | gData
  | gErrNow (f : F) (a : A)
  | gErrChk (f : F) (a : A) (now : Int)
  | gErr
  | gLock (f : F) (a : A)
  -- `Get` under the lock, lines 108-113
  | lLast (f : F) (a : A)
  | lNow (f : F) (a : A)
  | lChk (f : F) (a : A) (now : Int)
  | lCmp (f : F) (a : A) (l : Int)
  | lData
  | lErrNow (f : F) (a : A)
  | lErrChk (f : F) (a : A) (now : Int)
  | lErr
  -- the refresh, lines 125, 142
  | rLock (f : F) (a : A)
  | old (f : F) (a : A)
  | running
  -- the deferred function, lines 114-124, 131-141
  | wData (v : T) (r : Res T E)
  | wNow (r : Res T E)
  | wLast (now : Int) (r : Res T E)
  | wLastErr (r : Res T E)
  | wErr (e : E) (r : Res T E)
  | wErrNow (r : Res T E)
  | wErrLast (now : Int) (r : Res T E)
  | wErrClr (r : Res T E)
  | unlock (r : Res T E)
  -- `Clear`, lines 145-153
  | kLoad (f : F) (a : A)
  | kStore (x : Option (F × A × T))
  | kCall (f : F) (a : A) (d : T)
  | kRun
  -- `Raw`, `Last`, `LastErr`, lines 155-188
  | wRaw
  | wRawChk (l : Int)
  | wRawData
  | wRawErrNow
  | wRawErrChk (now : Int)
  | wRawErr
  | wRawBoth
  | wRawBoth2 (d : T)
  | rdLast
  | rdLastErr
  | done (r : Res T E)

/-- `RefreshData` and `RefreshCache`: refreshcache.go:14-18, 64-72, and the threads. -/
structure State (T E F A : Type) where
  err : Option E
  data : T
  last : Int
  lastErr : Int
  lock : Option Nat
  rf : F
  cf : Option F
  pc : Nat → PC T E F A

/-- `NewRefreshCache` and `NewRefreshData`: refreshcache.go:20-26, 82-92. -/
def init (c : Cfg T) (rf : F) : State T E F A :=
  { err := none, data := c.zero, last := 0, lastErr := 0, lock := none, rf, cf := none, pc := fun _ => .idle }

/-- Thread `i` moves. -/
def State.go (s : State T E F A) (i : Nat) (p : PC T E F A) : State T E F A :=
  { s with pc := Function.update s.pc i p }

/-- What the environment decides in a step: a call, nothing, the time, the end of a function. -/
inductive In (T E F A : Type) where
  | call (op : Op F A)
  | go
  | time (now : Int)
  | fin (o : Outcome T E)
  | clearFin (o : Option (Option E))

/-- The first step of a call. -/
def entry : Op F A → PC T E F A
  | .get f a => .gLast f a
  | .refresh f a => .rLock f a
  | .clear none _ => .kStore none
  | .clear (some f) a => .kLoad f a
  | .raw => .wRaw
  | .last => .rdLast
  | .lastErr => .rdLastErr
  | .cget a => .cGet a
  | .crefresh a => .cRefresh a
  | .cclear a => .cClear a
  | .setRefresh f => .setRefresh f
  | .setClear f => .setClear f

/-- The deferred function starts: refreshcache.go:115, 132; after a panic the named results have their
zero values. -/
def Outcome.back (c : Cfg T) : Outcome T E → PC T E F A
  | .ret v none => .wData v (.val v none)
  | .ret v (some e) => .wErr e (.val v (some e))
  | .panic => .wData c.zero .panicked

/-- After a failed check of the age before the lock: refreshcache.go:103. -/
def gNext (c : Cfg T) (f : F) (a : A) : PC T E F A := if c.errAge > 0 then .gErrNow f a else .gLock f a
/-- After a failed check of the age under the lock: refreshcache.go:111. -/
def lNext (c : Cfg T) (f : F) (a : A) : PC T E F A := if c.errAge > 0 then .lErrNow f a else .old f a
/-- After a failed check of the age in `Raw`: refreshcache.go:184. -/
def rawNext (c : Cfg T) : PC T E F A := if c.errAge > 0 then .wRawErrNow else .wRawBoth

/-- One step of thread `i`. -/
def step (c : Cfg T) (s : State T E F A) (i : Nat) (inp : In T E F A) : Option (State T E F A × Ev T E F A) :=
  match s.pc i, inp with
  | .idle, .call op => some (s.go i (entry op), .call i op)
  -- `RefreshCache`, lines 28-46, 49, 53, 61
  | .cGet a, .go => some (s.go i (.gLast s.rf a), .tau i)
  | .cRefresh a, .go => some (s.go i (.rLock s.rf a), .tau i)
  | .cClear a, .go =>
    some (s.go i (match s.cf with | none => .kStore none | some f => .kLoad f a), .tau i)
  | .setRefresh f, .go => some ({ s with rf := f }.go i (.done .unit), .stored i f)
  | .setClear f, .go => some ({ s with cf := f }.go i (.done .unit), .storedClear i f)
  -- line 99
  | .gLast f a, .go => some (s.go i (.gChk f a s.last), .tau i)
  -- line 100; the clock is read only if the first operand of `||` is false
  | .gChk _ _ l, .go => if c.maxAge < 0 ∧ l > 0 then some (s.go i .gData, .tau i) else none
  | .gChk f a l, .time now =>
    if c.maxAge < 0 ∧ l > 0 then none
    else some (s.go i (if now - l < c.maxAge then .gData else gNext c f a), .clock i now)
  -- line 101
  | .gData, .go => some (s.go i (.done (.val s.data none)), .tau i)
  -- line 103
  | .gErrNow f a, .time now => some (s.go i (.gErrChk f a now), .clock i now)
  | .gErrChk f a now, .go => some (s.go i (if now - s.lastErr < c.errAge then .gErr else .gLock f a), .tau i)
  -- line 104
  | .gErr, .go => some (s.go i (.done (.val c.zero s.err)), .tau i)
  -- line 106
  | .gLock f a, .go =>
    if s.lock = none then some ({ s with lock := some i }.go i (if c.maxAge < 0 then .lLast f a else .lNow f a), .locked i)
    else none
  -- line 108; in the second operand the field and the clock are read in any order
  | .lLast f a, .go => some (s.go i (if s.last > 0 then .lData else .lNow f a), .tau i)
  | .lNow f a, .time now => some (s.go i (.lChk f a now), .clock i now)
  | .lChk f a now, .go => some (s.go i (if now - s.last < c.maxAge then .lData else lNext c f a), .tau i)
  | .lNow f a, .go => some (s.go i (.lCmp f a s.last), .tau i)
  | .lCmp f a l, .time now => some (s.go i (if now - l < c.maxAge then .lData else lNext c f a), .clock i now)
  -- line 109
  | .lData, .go => some (s.go i (.unlock (.val s.data none)), .tau i)
  -- line 111
  | .lErrNow f a, .time now => some (s.go i (.lErrChk f a now), .clock i now)
  | .lErrChk f a now, .go => some (s.go i (if now - s.lastErr < c.errAge then .lErr else .old f a), .tau i)
  -- line 112
  | .lErr, .go => some (s.go i (.unlock (.val c.zero s.err)), .tau i)
  -- line 129
  | .rLock f a, .go => if s.lock = none then some ({ s with lock := some i }.go i (.old f a), .locked i) else none
  -- lines 125, 142
  | .old f a, .go => some (s.go i .running, .start i f a s.data)
  | .running, .fin o => some (s.go i (o.back c), .finish i o)
  -- lines 115-118, 132-135
  | .wData v r, .go => some ({ s with data := v }.go i (.wNow r), .tau i)
  | .wNow r, .time now => some (s.go i (.wLast now r), .clock i now)
  | .wLast now r, .go => some ({ s with last := now }.go i (.wLastErr r), .tau i)
  | .wLastErr r, .go => some ({ s with lastErr := 0 }.go i (.unlock r), .tau i)
  -- lines 119-123, 136-140
  | .wErr e r, .go => some ({ s with err := some e }.go i (.wErrNow r), .tau i)
  | .wErrNow r, .time now => some (s.go i (.wErrLast now r), .clock i now)
  | .wErrLast now r, .go => some ({ s with lastErr := now }.go i (.wErrClr r), .tau i)
  | .wErrClr r, .go => some ({ s with last := 0 }.go i (.unlock r), .tau i)
  -- lines 107, 130
  | .unlock r, .go => some ({ s with lock := none }.go i (.done r), .tau i)
  -- lines 147-152
  | .kLoad f a, .go => some (s.go i (.kStore (some (f, a, s.data))), .tau i)
  | .kStore x, .go =>
    some ({ s with last := 0 }.go i (match x with | none => .done (.err none) | some (f, a, d) => .kCall f a d), .cleared i)
  | .kCall f a d, .go => some (s.go i .kRun, .clearStart i f a d)
  | .kRun, .clearFin o =>
    some (s.go i (.done (match o with | none => .panicked | some e => .err e)), .clearEnd i o)
  -- lines 180-187
  | .wRaw, .go => some (s.go i (.wRawChk s.last), .tau i)
  | .wRawChk l, .go => if c.maxAge < 0 ∧ l > 0 then some (s.go i .wRawData, .tau i) else none
  | .wRawChk l, .time now =>
    if c.maxAge < 0 ∧ l > 0 then none
    else some (s.go i (if now - l < c.maxAge then .wRawData else rawNext c), .clock i now)
  | .wRawData, .go => some (s.go i (.done (.val s.data none)), .tau i)
  | .wRawErrNow, .time now => some (s.go i (.wRawErrChk now), .clock i now)
  | .wRawErrChk now, .go => some (s.go i (if now - s.lastErr < c.errAge then .wRawErr else .wRawBoth), .tau i)
  | .wRawErr, .go => some (s.go i (.done (.val c.zero s.err)), .tau i)
  | .wRawBoth, .go => some (s.go i (.wRawBoth2 s.data), .tau i)
  | .wRawBoth2 d, .go => some (s.go i (.done (.val d s.err)), .tau i)
  -- lines 156, 164
  | .rdLast, .go => some (s.go i (.done (.time s.last)), .tau i)
  | .rdLastErr, .go => some (s.go i (.done (.time s.lastErr)), .tau i)
  -- the call returns
  | .done r, .go => some (s.go i .idle, .ret i r)
  | _, _ => none

/-- The executions: the events, the states after them, the last state. -/
inductive Exec (c : Cfg T) (rf : F) : List (Ev T E F A) → List (State T E F A) → State T E F A → Prop where
  | nil : Exec c rf [] [] (init c rf)
  | snoc {tr ss s i inp s' e} : Exec c rf tr ss s → step c s i inp = some (s', e) → Exec c rf (tr ++ [e]) (ss ++ [s']) s'

/-- Run a schedule. -/
def play (c : Cfg T) : List (Nat × In T E F A) → List (Ev T E F A) → List (State T E F A) → State T E F A →
    Option (List (Ev T E F A) × List (State T E F A) × State T E F A)
  | [], tr, ss, s => some (tr, ss, s)
  | (i, inp) :: l, tr, ss, s =>
    match step c s i inp with
    | some (s', e) => play c l (tr ++ [e]) (ss ++ [s']) s'
    | none => none

end Verif.Refresh
