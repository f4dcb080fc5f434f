/-!
# Specification of `genmap`: finite partial functions
-/
namespace Verif.GenMap.Spec
variable {K V : Type}

/-- The calls.  `range` collects what `Range` visits until the callback returns false. -/
inductive Op (K V : Type) where
  | new
  | len (h : Option Nat) | keys (h : Option Nat) | values (h : Option Nat)
  | clone (h : Option Nat) | clear (h : Option Nat)
  | load (h : Option Nat) (k : K) | delete (h : Option Nat) (k : K)
  | loadAndDelete (h : Option Nat) (k : K)
  | store (h : Option Nat) (k : K) (v : V)
  | loadOrStoreFunc (h : Option Nat) (k : K) (v : V)
  | loadAndStore (h : Option Nat) (k : K) (v : V)
  | copyFrom (h src : Option Nat) | copyTo (h dst : Option Nat)
  | deleteFunc (h : Option Nat) (f : K → V → Bool)
  | equalFunc (h h2 : Option Nat) (eq : V → V → Bool)
  | range (h : Option Nat) (go : K → V → Bool)

/-- What a call returns. -/
inductive Res (K V : Type) where
  | unit
  | map (h : Option Nat)
  | bool (b : Bool)
  | int (n : Nat)
  | keys (xs : List K)
  | values (xs : List V)
  | found (v : V) (ok : Bool)
  | visited (es : List (K × V)) (all : Bool)

/-- Abstract state: the maps that exist, as partial functions. -/
structure St (K V : Type) where
  alive : Nat → Prop
  val : Nat → K → Option V

def St.empty : St K V := { alive := fun _ => False, val := fun _ _ => none }

/-- Lookup in a possibly nil map. -/
def St.get (s : St K V) : Option Nat → K → Option V
  | none, _ => none
  | some a, k => s.val a k

def St.ok (s : St K V) : Option Nat → Prop
  | none => True
  | some a => s.alive a

/-- `es` lists the bindings of `g`, each once. -/
def Lists (es : List (K × V)) (g : K → Option V) : Prop :=
  (es.map Prod.fst).Nodup ∧ ∀ k v, (k, v) ∈ es ↔ g k = some v

/-- `s'` is `s` where the map `r` has become `g` (nothing changes if `r` is nil). -/
def St.Becomes (s : St K V) (r : Option Nat) (g : K → Option V) (s' : St K V) : Prop :=
  s'.alive = s.alive ∧ (∀ a, some a ≠ r → s'.val a = s.val a) ∧ ∀ a, some a = r → s'.val a = g

/-- `s'` is `s` with one more map, `g`, and `r` is its handle. -/
def St.Creates (s : St K V) (r : Option Nat) (g : K → Option V) (s' : St K V) : Prop :=
  ∃ n, r = some n ∧ ¬ s.alive n ∧ (∀ a, s'.alive a ↔ a = n ∨ s.alive a) ∧
  (∀ a, s.alive a → s'.val a = s.val a) ∧ s'.val n = g

/-- A value and whether it was there; the zero value if not. -/
def Found [Inhabited V] (o : Option V) (r : Res K V) : Prop :=
  match o with
  | some v => r = .found v true
  | none => r = .found default false

/-- `x` is the update of `g` by `k ↦ v`. -/
def Upd (g : K → Option V) (k : K) (v : Option V) (x : K → Option V) : Prop :=
  x k = v ∧ ∀ k', k' ≠ k → x k' = g k'

/-- Effect and result of each call. -/
def St.Step [Inhabited V] (s : St K V) : Op K V → Res K V → St K V → Prop
  | .new, r, s' => ∃ n, r = .map n ∧ s.Creates n (fun _ => none) s'
  | .len a, r, s' => s' = s ∧ ∃ es, Lists es (s.get a) ∧ r = .int es.length
  | .keys a, r, s' => s' = s ∧ ∃ es, Lists es (s.get a) ∧ r = .keys (es.map Prod.fst)
  | .values a, r, s' => s' = s ∧ ∃ es, Lists es (s.get a) ∧ r = .values (es.map Prod.snd)
  | .clone a, r, s' => ∃ n, r = .map n ∧ s.Creates n (s.get a) s'
  | .clear a, r, s' => r = .map a ∧ s.Becomes a (fun _ => none) s'
  | .load a k, r, s' => s' = s ∧ Found (s.get a k) r
  | .delete a k, r, s' => r = .map a ∧ ∃ g, Upd (s.get a) k none g ∧ s.Becomes a g s'
  | .loadAndDelete a k, r, s' => Found (s.get a k) r ∧
      ∃ g, Upd (s.get a) k none g ∧ s.Becomes a g s'
  | .store a k v, r, s' => r = .map a ∧ ∃ g, Upd (s.get a) k (some v) g ∧ s.Becomes a g s'
  | .loadAndStore a k v, r, s' => Found (s.get a k) r ∧
      ∃ g, Upd (s.get a) k (some v) g ∧ s.Becomes a g s'
  | .loadOrStoreFunc a k v, r, s' => match s.get a k with
    | some w => r = .found w true ∧ s' = s
    | none => r = .found v false ∧ ∃ g, Upd (s.get a) k (some v) g ∧ s.Becomes a g s'
  | .copyFrom a src, r, s' => r = .map a ∧ s.Becomes a (fun k => (s.get src k).or (s.get a k)) s'
  | .copyTo a dst, r, s' => r = .map a ∧ s.Becomes dst (fun k => (s.get a k).or (s.get dst k)) s'
  | .deleteFunc a f, r, s' => r = .unit ∧ s.Becomes a (fun k => (s.get a k).filter (!f k ·)) s'
  | .equalFunc a b eq, r, s' => s' = s ∧ ∃ t, r = .bool t ∧
      (t = true ↔ ∀ k, (∃ v w, s.get a k = some v ∧ s.get b k = some w ∧ eq v w = true) ∨
        (s.get a k = none ∧ s.get b k = none))
  | .range a go, r, s' => s' = s ∧ ∃ es, Lists es (s.get a) ∧
      (r = .visited es true ∧ (∀ e ∈ es, go e.1 e.2 = true) ∨
      ∃ xs e ys, es = xs ++ e :: ys ∧ (∀ e ∈ xs, go e.1 e.2 = true) ∧ go e.1 e.2 = false ∧
        r = .visited (xs ++ [e]) false)

/-- Calls the specification speaks about: handles exist, and nothing is put into a nil map. -/
def Valid (ok : Option Nat → Prop) : Op K V → Prop
  | .new => True
  | .len a | .keys a | .values a | .clone a | .clear a | .load a _ | .delete a _
  | .loadAndDelete a _ | .deleteFunc a _ | .range a _ => ok a
  | .store a _ _ | .loadOrStoreFunc a _ _ | .loadAndStore a _ _ => ok a ∧ a ≠ none
  | .copyFrom a t => ok a ∧ a ≠ none ∧ ok t
  | .copyTo a t => ok a ∧ ok t ∧ t ≠ none
  | .equalFunc a t _ => ok a ∧ ok t

/-- A handle a program may use after the calls `tr`: nil, or one returned to it. -/
def Given (tr : List (Op K V × Res K V)) (h : Option Nat) : Prop :=
  h = none ∨ ∃ c ∈ tr, c.2 = .map h

/-- The histories the specification allows, oldest call first. -/
inductive Run [Inhabited V] : List (Op K V × Res K V) → St K V → Prop
  | nil : Run [] St.empty
  | snoc {tr s op r s'} : Run tr s → Valid (Given tr) op → s.Step op r s' →
      Run (tr ++ [(op, r)]) s'

end Verif.GenMap.Spec
