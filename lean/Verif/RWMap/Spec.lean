/-!
# Specification of `RWMap`: an ordinary map, and linearizability

Calls are numbered; `prog i` says what the `i`-th call is.  Since `prog` is arbitrary, adaptive
clients are covered: whatever calls are made in an execution, some `prog` lists them.
-/
namespace Verif.RWMap

/-- The methods of `RWMap`.  `Store`, `Delete` and `SlowLen` are `Swap`, `LoadAndDelete` and `Range`
with part of the result dropped (rwmap.go:158-160, 310-312, 534-540). -/
inductive Op (K V : Type) where
  | load (k : K)
  | swap (k : K) (v : V)
  | loadOrStore (k : K) (v : V)
  | loadAndDelete (k : K)
  | compareAndSwap (k : K) (old new : V)
  | compareAndDelete (k : K) (old : V)
  | clear
  | range
  | len

/-- What the methods return.  `opt none` is (zero value, false).  For `Range`, the pairs passed to
the callback in order, and whether the callback stopped the iteration.  `panicked`: the call panics instead of returning. -/
inductive Res (K V : Type) where
  | opt (v : Option V)
  | los (actual : V) (loaded : Bool)
  | bool (b : Bool)
  | unit
  | visited (es : List (K × V)) (stopped : Bool)
  | int (n : Int)
  | panicked

/-- The contents of an ordinary map. -/
abbrev AMap (K V : Type) := K → Option V

def AMap.empty {K V : Type} : AMap K V := fun _ => none

def AMap.set {K V : Type} [DecidableEq K] (A : AMap K V) (k : K) (o : Option V) : AMap K V :=
  fun x => if x = k then o else A x

section
variable {K V : Type} [DecidableEq K] (eqv : V → V → Option Bool)

/-- What each method does on an ordinary map when executed alone; `eqv stored old` is the
comparison used by `CompareAndSwap` and `CompareAndDelete`, which panics (`none`) if the values cannot be compared.  (`Range` and `Len` are not specified
as single instants: see C02 and C04.) -/
def apply (op : Op K V) (A : AMap K V) : AMap K V × Res K V :=
  match op with
  | .load k => (A, .opt (A k))
  | .swap k v => (A.set k (some v), .opt (A k))
  | .loadOrStore k v => match A k with
    | some w => (A, .los w true)
    | none => (A.set k (some v), .los v false)
  | .loadAndDelete k => (A.set k none, .opt (A k))
  | .compareAndSwap k old new => match A k with
    | some w => match eqv w old with
      | some true => (A.set k (some new), .bool true)
      | some false => (A, .bool false)
      | none => (A, .panicked)
    | none => (A, .bool false)
  | .compareAndDelete k old => match A k with
    | some w => match eqv w old with
      | some true => (A.set k none, .bool true)
      | some false => (A, .bool false)
      | none => (A, .panicked)
    | none => (A, .bool false)
  | .clear => (AMap.empty, .unit)
  | .range => (A, .unit)
  | .len => (A, .unit)
end

/-- The calls that C01 is about. -/
def Op.isMap {K V : Type} : Op K V → Bool
  | .range | .len => false
  | _ => true

/-- Observable events: call `i` is invoked, the Range call `i` calls its function with `k` and `v`, call `i` returns `r`. -/
inductive Ev (K V : Type) where
  | inv (i : Nat)
  | visit (i : Nat) (k : K) (v : V)
  | ret (i : Nat) (r : Res K V)

/-- A history together with the instants at which calls take effect. -/
inductive LEv (K V : Type) where
  | inv (i : Nat)
  | eff (i : Nat)
  | visit (i : Nat) (k : K) (v : V)
  | ret (i : Nat) (r : Res K V)

section
variable {K V : Type} [DecidableEq K] (eqv : V → V → Option Bool) (prog : Nat → Op K V)

/-- Forget the instants. -/
def LEv.ev? : LEv K V → Option (Ev K V)
  | .inv i => some (.inv i)
  | .eff _ => none
  | .visit i k v => some (.visit i k v)
  | .ret i r => some (.ret i r)

def LEv.call : LEv K V → Nat
  | .inv i | .eff i | .visit i _ _ | .ret i _ => i

/-- The map after the effects in `L`. -/
def effects : List (LEv K V) → AMap K V → AMap K V
  | [], A => A
  | .eff i :: L, A => effects L (apply eqv (prog i) A).1
  | _ :: L, A => effects L A

/-- What call `i` returns if it takes effect on the map `A`. -/
def resultOn (i : Nat) (A : AMap K V) : Res K V := (apply eqv (prog i) A).2

/-- `L` is the history `h` with instants inserted such that every call takes effect at most once,
after its invocation; every call that returned took effect before its return, and returned what an
ordinary map returns at that instant. -/
def Linearizes (L : List (LEv K V)) (h : List (Ev K V)) : Prop :=
  L.filterMap LEv.ev? = h ∧
    ∀ i, (prog i).isMap →
      let Li := L.filter (·.call == i)
      (Li = [] ∨ Li = [.inv i] ∨ Li = [.inv i, .eff i] ∨
        ∃ r, Li = [.inv i, .eff i, .ret i r]) ∧
      ∀ L1 L2 r, L = L1 ++ .eff i :: L2 → .ret i r ∈ L2 →
        r = resultOn eqv prog i (effects eqv prog L1 AMap.empty)

/-- `h` is linearizable. -/
def Linearizable (h : List (Ev K V)) : Prop := ∃ L, Linearizes eqv prog L h

/-- A Range call that returned `r`: it visited no key twice; every pair it visited was in the map
at some instant between its invocation and its return; if it was not stopped, every key it did not
visit was missing at some such instant. -/
def RangeOk (L : List (LEv K V)) (i : Nat) (r : Res K V) : Prop :=
  ∃ es stop, r = .visited es stop ∧ (es.map Prod.fst).Nodup ∧
    (∀ k v, (k, v) ∈ es → ∃ L1 L2, L = L1 ++ L2 ∧ .inv i ∈ L1 ∧ .ret i r ∈ L2 ∧
      effects eqv prog L1 AMap.empty k = some v) ∧
    (stop = false → ∀ k, k ∉ es.map Prod.fst → ∃ L1 L2, L = L1 ++ L2 ∧ .inv i ∈ L1 ∧
      .ret i r ∈ L2 ∧ effects eqv prog L1 AMap.empty k = none)

/-- Whenever a Range call calls its function with a pair, the pair was in the map at some instant between its invocation and then. -/
def VisitOk (L : List (LEv K V)) : Prop :=
  ∀ i k v L1 L2, L = L1 ++ .visit i k v :: L2 →
    ∃ M1 M2, L1 = M1 ++ M2 ∧ .inv i ∈ M1 ∧ effects eqv prog M1 AMap.empty k = some v

/-- The pairs the Range call `i` has called its function with. -/
def visitsOf (i : Nat) (h : List (Ev K V)) : List (K × V) :=
  h.filterMap fun
    | .visit j k v => if j = i then some (k, v) else none
    | _ => none
end
end Verif.RWMap

namespace Verif.RWMap
variable {K V : Type}

/-- Call `i` has been invoked and has not returned. -/
def pendingIn (h : List (Ev K V)) (i : Nat) : Prop := .inv i ∈ h ∧ ∀ r, .ret i r ∉ h

/-- No `Clear` overlaps another call that is neither `Range` nor `Len`. -/
def ClearAlone (prog : Nat → Op K V) (h : List (Ev K V)) : Prop :=
  ∀ h1 h2, h = h1 ++ h2 → ∀ c j, prog c = .clear → (prog j).isMap = true → j ≠ c →
    pendingIn h1 c → ¬ pendingIn h1 j

/-- `A` has `n` keys. -/
def AMap.Card (A : AMap K V) (n : Nat) : Prop :=
  ∃ ks : List K, ks.Nodup ∧ (∀ k, k ∈ ks ↔ A k ≠ none) ∧ ks.length = n
end Verif.RWMap

namespace Verif.RWMap
variable {K V : Type} [DecidableEq K]

/-- The call may store a value for `k`. -/
def Op.stores (k : K) : Op K V → Bool
  | .swap k' _ | .loadOrStore k' _ | .compareAndSwap k' _ _ => k' = k
  | _ => false

/-- The call may change what the map has for `k`. -/
def Op.writes (k : K) : Op K V → Bool
  | .loadAndDelete k' | .compareAndDelete k' _ => k' = k
  | .clear => true
  | op => op.stores k

/-- `v` is the value stored by `op`. -/
def Op.Stored (k : K) (op : Op K V) (v : V) : Prop :=
  op = .swap k v ∨ op = .loadOrStore k v ∨ ∃ u, op = .compareAndSwap k u v

/-- The result `r` of `op` says that it removed `k`; for `LoadAndDelete`, the removed value. -/
def Op.Removed (k : K) (op : Op K V) (r : Res K V) (v : Option V) : Prop :=
  (op = .loadAndDelete k ∧ ∃ w, r = .opt (some w) ∧ v = some w) ∨
  (∃ o, op = .compareAndDelete k o ∧ r = .bool true ∧ v = none)
end Verif.RWMap
