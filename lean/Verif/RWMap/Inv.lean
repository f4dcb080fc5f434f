import Verif.RWMap.Timeline
/-!
# The invariant of `RWMap`
-/
namespace Verif.RWMap
variable {K V : Type} [DecidableEq K] [Inhabited V]

/-- The entry a lookup of `k` finds. -/
def cur (h : Sh K) (k : K) : Option Nat :=
  match aget h.read.m k with
  | some e => some e
  | none => if h.read.amended then aget (h.dirty.getD []) k else none

/-- A place in the timeline: the effect of call `i`, or a cut. -/
inductive Pos where
  | lin (i : Nat)
  | cut (n : Nat)
  deriving DecidableEq

def IsPos (y : TE K V) (p : Pos) : Prop :=
  match p with
  | .lin i => ∃ r, y = .lin i r
  | .cut n => y = .cut n

theorem IsPos.inj {y : TE K V} {p q : Pos} (h1 : IsPos y p) (h2 : IsPos y q) : p = q := by
  cases p <;> cases q <;> simp only [IsPos] at h1 h2
  · obtain ⟨_, rfl⟩ := h1; obtain ⟨_, h2⟩ := h2; cases h2; rfl
  · obtain ⟨_, rfl⟩ := h1; cases h2
  · obtain ⟨_, rfl⟩ := h2; cases h1
  · subst h1; cases h2; rfl

/-- Auxiliary history variables. -/
structure Ghost (K V : Type) where
  /-- the timeline -/
  L : List (TE K V)
  /-- the key an entry was made for -/
  key : Nat → Option K
  /-- the entry has been in `read.m` -/
  pub : Nat → Prop
  /-- the entry is no longer reachable; where to insert operations on it -/
  orph : Nat → Option Pos
  /-- next unused cut -/
  cuts : Nat

def Ghost.init : Ghost K V :=
  { L := [], key := fun _ => none, pub := fun _ => False, orph := fun _ => none, cuts := 0 }

/-- Steps taken with `mu` held. -/
def PC.locked : PC K V → Bool
  | .crit | .ent _ .l | .ent _ .lm | .cas _ .l _ | .cas _ .lm _ | .unexp _ | .swp _ | .copy0 _
  | .copy _ _ | .expunge _ _ | .amend _ | .promo _ | .wipe | .zero | .unl _ => true
  | _ => false

/-- The entry a call is going to access. -/
def PC.target : PC K V → Option Nat
  | .ent e _ | .cas e _ _ | .unl (.ent e) | .promo (.ent e) => some e
  | _ => none

/-- The entries a call may access without looking them up again. -/
def PC.touches (c : PC K V) (e : Nat) : Prop :=
  match c with
  | .rng es _ | .unl (.rng es) | .promo (.rng es) => ∃ k, (k, e) ∈ es
  | c => c.target = some e

/-- The entries of `read.m` that `dirtyLocked` has yet to look at. -/
def PC.remaining : PC K V → List (K × Nat)
  | .copy es _ | .expunge es _ => es
  | _ => []

def remaining (s : State K V) : List (K × Nat) :=
  match s.sh.mu with
  | some i => (s.pc i).remaining
  | none => []

section
variable (eqv : V → V → Option Bool) (prog : Nat → Op K V)

/-- The value of an entry. -/
def vl (h : Sh K) (e : Nat) : Option V := deref prog (h.ent e)

/-- The contents of the map. -/
def curv (h : Sh K) : AMap K V := fun k => (cur h k).bind (vl prog h)

/-- Reachable or known to be unreachable. -/
def Held (h : Sh K) (g : Ghost K V) (e : Nat) : Prop :=
  (∃ k, g.key e = some k ∧ cur h k = some e) ∨ ∃ p, g.orph e = some p

/-- The invariant on shared memory; `rm` are the entries `dirtyLocked` has yet to copy. -/
structure Core (h : Sh K) (rm : List (K × Nat)) (g : Ghost K V) : Prop where
  rwf : AWF h.read.m
  dwf : ∀ d, h.dirty = some d → AWF d
  rkey : ∀ k e, aget h.read.m k = some e → g.key e = some k ∧ e < h.fresh ∧ g.pub e ∧
    g.orph e = none
  dkey : ∀ d, h.dirty = some d → ∀ k e, aget d k = some e → g.key e = some k ∧ e < h.fresh ∧
    g.orph e = none ∧ h.ent e ≠ .exp ∧ (aget h.read.m k = none → ¬ g.pub e)
  sub : h.read.amended = false → ∀ d, h.dirty = some d → ∀ k e, aget d k = some e →
    aget h.read.m k = some e
  amd : h.read.amended = true → h.dirty ≠ none
  rem : ∀ d, h.dirty = some d → ∀ k e, aget h.read.m k = some e → (k, e) ∈ rm →
    aget d k = none ∧ h.ent e ≠ .exp
  con : ∀ d, h.dirty = some d → ∀ k e, aget h.read.m k = some e → (k, e) ∉ rm →
    aget d k = if h.ent e = .exp then none else some e
  nod : h.dirty = none → ∀ k e, aget h.read.m k = some e → h.ent e ≠ .exp
  expub : ∀ e, h.ent e = .exp → g.pub e
  fr : ∀ e, h.fresh ≤ e → ¬ g.pub e ∧ g.orph e = none ∧ g.key e = none
  ocut : ∀ e n, g.orph e = some (.cut n) → n < g.cuts ∧
    (h.ent e = .exp ∨ (h.ent e = .nil ∧ ¬ g.pub e))

structure Str (s : State K V) (g : Ghost K V) : Prop where
  core : Core s.sh (remaining s) g
  mu : ∀ i, (s.pc i).locked = true ↔ s.sh.mu = some i
  olin : ∀ e j, g.orph e = some (.lin j) → prog j = .clear ∨
    ∃ k, prog j = .loadAndDelete k ∧ g.key e = some k ∧ ¬ g.pub e ∧ (s.pc j).target = some e
  oinj : ∀ e e' p, g.orph e = some p → g.orph e' = some p → g.key e = g.key e' → e = e'

/-- Calls that do not change an entry they find with a value unequal to what they look for, and
never store a value. -/
def Op.passive : Op K V → Bool
  | .load _ | .compareAndDelete _ _ => true
  | _ => false

/-- `Swap` and `LoadOrStore`. -/
def Op.adds : Op K V → Bool
  | .swap _ _ | .loadOrStore _ _ => true
  | _ => false

/-- What call `i` knows about the entry it accesses. -/
structure EntOk (s : State K V) (g : Ghost K V) (i e : Nat) (lk : Lk) (k : K) : Prop where
  key : (prog i).key? = some k
  ekey : g.key e = some k
  lt : e < s.sh.fresh
  un : lk = .u → Held s.sh g e ∧
    (g.pub e ∨ (prog i).passive = true ∨ (prog i = .loadAndDelete k ∧ g.orph e = some (.lin i)))
  loc : lk ≠ .u → cur s.sh k = some e ∧
    ((∃ v, prog i = .loadOrStore k v ∧ s.sh.ent e ≠ .exp) ∨ ∃ o n, prog i = .compareAndSwap k o n)
  lm : lk = .lm → s.sh.read.amended = true

/-- What a call knows about the pointer it is going to replace. -/
def Guard (op : Op K V) (p : Ptr) : Prop :=
  match op with
  | .swap _ _ => p ≠ .exp
  | .loadOrStore _ _ => p = .nil
  | .loadAndDelete _ => ∃ b, p = .val b
  | .compareAndSwap _ old _ | .compareAndDelete _ old =>
    ∃ b, p = .val b ∧ eqv (prog b).arg old = some true
  | _ => False

/-- A call that is adding the key `k`, not present. -/
def Adding (s : State K V) (i : Nat) (rm : List (K × Nat)) : Prop :=
  ∃ k, (prog i).adds = true ∧ (prog i).key? = some k ∧ rm = s.sh.read.m ∧
    s.sh.read.amended = false ∧ aget s.sh.read.m k = none

def RngOk (s : State K V) (g : Ghost K V) (es : List (K × Nat)) : Prop :=
  (es.map Prod.fst).Nodup ∧ ∀ k e, (k, e) ∈ es → g.key e = some k ∧ e < s.sh.fresh ∧ Held s.sh g e

def NxOk (s : State K V) (g : Ghost K V) (i : Nat) (nx : Nx K V) : Prop :=
  match nx with
  | .ent e => ((prog i).passive = true ∨ ∃ k, prog i = .loadAndDelete k) ∧
      ∃ k, EntOk prog s g i e .u k
  | .rng m => prog i = .range ∧ RngOk s g m
  | .res _ => prog i ≠ .range

/-- What a call in progress knows. -/
def OpOk (s : State K V) (g : Ghost K V) (i : Nat) : Prop :=
  match s.pc i with
  | .acq | .crit => prog i ≠ .len
  | .ent e lk => ∃ k, EntOk prog s g i e lk k
  | .cas e lk p => (∃ k, EntOk prog s g i e lk k) ∧ Guard eqv prog (prog i) p
  | .unexp e => (prog i).adds = true ∧ ∃ k, (prog i).key? = some k ∧ aget s.sh.read.m k = some e
  | .swp e => s.sh.ent e ≠ .exp ∧ ∃ k v, prog i = .swap k v ∧ cur s.sh k = some e
  | .copy0 rm => Adding prog s i rm
  | .copy es rm => Adding prog s i rm ∧ s.sh.dirty ≠ none ∧ (es.map Prod.fst).Nodup ∧
      ∀ k e, (k, e) ∈ es → aget s.sh.read.m k = some e
  | .expunge es rm => Adding prog s i rm ∧ s.sh.dirty ≠ none ∧ (es.map Prod.fst).Nodup ∧
      (∀ k e, (k, e) ∈ es → aget s.sh.read.m k = some e) ∧ es ≠ []
  | .amend rm => Adding prog s i rm ∧ s.sh.dirty ≠ none
  | .promo nx => s.sh.read.amended = true ∧ NxOk prog s g i nx ∧
      ∀ m, nx = .rng m → s.sh.dirty = some m
  | .unl nx => NxOk prog s g i nx
  | .wipe | .zero => prog i = .clear
  | .rng es _ => prog i = .range ∧ RngOk s g es
  | .panic => False
  | _ => True

/-- The events of call `i` that is going to access `t`: it has taken effect if it is a
`LoadAndDelete` that has deleted the entry from `dirty`. -/
def pend (h : Sh K) (g : Ghost K V) (i : Nat) (t : Option Nat) : List (TE K V) :=
  match t with
  | some e => if g.orph e = some (.lin i) then [.inv i, .lin i (.opt (vl prog h e))] else [.inv i]
  | none => [.inv i]

/-- The events call `i` has in the timeline, if it is a map operation. -/
def evs (h : Sh K) (g : Ghost K V) (i : Nat) (c : PC K V) : List (TE K V) :=
  match c with
  | .idle => []
  | .zero => [.inv i, .lin i .unit]
  | .unl (.res r) | .promo (.res r) | .add _ r | .fin r => [.inv i, .lin i r]
  | .done r => [.inv i, .lin i r, .ret i r]
  | c => pend prog h g i c.target

/-- The events of a Range call with the remaining entries `es` that visited `acc`. -/
structure RngEvs (i : Nat) (es : List K) (acc : List (K × V)) (rest : List (TE K V)) : Prop where
  only : ∀ x ∈ rest, (∃ ks, x = .snap i ks) ∨ ∃ k o, x = .vis i k o
  snap : ∃ ks, .snap i ks ∈ rest ∧ ∀ k ∈ ks, k ∈ es ∨ ∃ o, .vis i k o ∈ rest
  seen : ∀ k v, (k, v) ∈ acc ↔ .vis i k (some v) ∈ rest
  nodup : (acc.map Prod.fst).Nodup
  disj : ∀ k ∈ es, k ∉ acc.map Prod.fst

/-- The events of a Range call. -/
def RngTL (i : Nat) (c : PC K V) (P : List (TE K V)) : Prop :=
  match c with
  | .idle => P = []
  | .unl (.rng m) | .promo (.rng m) => P = [.inv i, .snap i (m.map Prod.fst)]
  | .rng es acc => ∃ rest, P = .inv i :: rest ∧ RngEvs i (es.map Prod.fst) acc rest
  | .fin r => ∃ rest acc stop es, r = .visited acc stop ∧ P = .inv i :: rest ∧
      RngEvs i es acc rest ∧ (stop = false → es = [])
  | .done r => ∃ rest acc stop es, r = .visited acc stop ∧ P = .inv i :: (rest ++ [.ret i r]) ∧
      RngEvs i es acc rest ∧ (stop = false → es = [])
  | .add _ _ => False
  | _ => P = [.inv i]

def OpTL (h : Sh K) (g : Ghost K V) (i : Nat) (c : PC K V) (P : List (TE K V)) : Prop :=
  match prog i with
  | .range => RngTL i c P
  | .len => match c with
    | .idle => P = []
    | .done r => P = [.inv i, .ret i r]
    | _ => P = [.inv i]
  | _ => P = evs prog h g i c

/-- Operations on the unreachable entry `e` can be inserted in the timeline at `p`: the value there
is that of `e`, and all calls that can access `e` have been invoked before. -/
def PosOk (s : State K V) (g : Ghost K V) (e : Nat) (p : Pos) : Prop :=
  ∃ k L1 y L2, g.key e = some k ∧ g.L = L1 ++ y :: L2 ∧ IsPos y p ∧
    run eqv prog L1 AMap.empty k = vl prog s.sh e ∧ (∀ j, (s.pc j).touches e → .inv j ∈ L1) ∧
    ∀ j r, y = .lin j r → prog j ≠ .clear → r = .opt (vl prog s.sh e)

/-- A Range call has seen what it calls its function with. -/
def VOk (L : List (TE K V)) : Prop :=
  ∀ L1 i k v L2, L = L1 ++ .visit i k v :: L2 → .vis i k (some v) ∈ L1

/-- The invariant on the timeline. -/
structure TL (s : State K V) (g : Ghost K V) : Prop where
  legal : Legal eqv prog g.L AMap.empty
  st : ∀ k, run eqv prog g.L AMap.empty k = curv prog s.sh k
  pos : ∀ e p, g.orph e = some p → PosOk eqv prog s g e p
  tl : ∀ i, OpTL prog s.sh g i (s.pc i) (proj i g.L)
  seen : VOk g.L

/-- The invariant. -/
structure Inv (s : State K V) (g : Ghost K V) : Prop where
  str : Str prog s g
  ops : ∀ i, OpOk eqv prog s g i
  tl : TL eqv prog s g
end
end Verif.RWMap
