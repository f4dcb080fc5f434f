import Verif.Lib.GMap
import Verif.Lib.Pan
import Mathlib.Data.List.Induction
/-!
# Containers declared without their constructors (C167)

`var x Lhashmap[K, V]`, `HashRing`, `PQueue`, `RefreshCache`: pointers, maps and interfaces in them are nil. One goroutine calls the methods; panics are recovered. A nil
map is read like an empty one and panics when written; a method of a list, vector or `RefreshData` panics when the pointer is nil, as its first line reads or writes
a field; a method of a nil interface panics. `none` in a field is nil.
-/
namespace Verif.Zero

/-! ## The linked hash map -/

section Linked
variable {K V : Type} [DecidableEq K] [Inhabited V]

/-- `Lhashmap`: lhashmap.go:6-14. `m`: the numbers of the elements; `l`: the elements from front to back; `log`: the calls of the functions given to `Range`. -/
structure Lm (K V : Type) where
  m : Option (List (K × Nat))
  l : Option (List (Nat × K × V))
  fresh : Nat
  log : List (K × V)

/-- The zero value. -/
def Lm.zero : Lm K V := ⟨none, none, 0, []⟩

/-- A method of `l.l`, which panics on a nil list: dllist.go:19, 28, 59, 88-95. -/
def Lm.list : Pan (Lm K V) (List (Nat × K × V)) := Pan.try_ fun s => s.l.map fun l => (s, l)

/-- `l.m[key]`. -/
def Lm.find (k : K) : Pan (Lm K V) (Option Nat) := Pan.read fun s => aget (s.m.getD []) k

/-- `l.l.MoveToFront(element)`; the element's entry afterwards. -/
def Lm.front (e : Nat) (f : V → V) : Pan (Lm K V) V := do
  let l ← Lm.list
  match l.find? (·.1 = e) with
  | some (_, k, v) =>
    Pan.change fun s => { s with l := some ((e, k, f v) :: l.filter (·.1 ≠ e)) }
    pure (f v)
  | none => Pan.raise

inductive LOp (K V : Type)
  | load (k : K)
  | store (k : K) (v : V)
  | remove (k : K)
  | len
  | range (f : K → V → Option Bool)
  | clear

inductive LRes (V : Type)
  | val (v : V) (ok : Bool)
  | int (n : Nat)
  | unit

/-- The loop of `Range`: lhashmap.go:69-73. -/
def Lm.walk (f : K → V → Option Bool) : List (Nat × K × V) → Pan (Lm K V) Unit
  | [] => pure ()
  | (_, k, v) :: l => do
    Pan.change fun s => { s with log := s.log ++ [(k, v)] }
    match f k v with
    | none => Pan.raise
    | some true => Lm.walk f l
    | some false => pure ()

/-- `Load`, `Store`, `Remove`, `Len`, `Range`, `Clear`: lhashmap.go:39-79. -/
def Lm.exec : LOp K V → Pan (Lm K V) (LRes V)
  | .load k => do
    match ← Lm.find k with
    | some e => do
      let v ← Lm.front e id
      pure (.val v true)
    | none => pure (.val default false)
  | .store k v => do
    match ← Lm.find k with
    | some e => do
      let _ ← Lm.front e fun _ => v
      pure .unit
    | none => do
      let l ← Lm.list
      let e ← Pan.read fun s => s.fresh
      Pan.change fun s => { s with l := some ((e, k, v) :: l), fresh := e + 1 }
      let m ← Pan.try_ fun s => s.m.map fun m => (s, m)
      Pan.change fun s => { s with m := some (aput m k e) }
      pure .unit
  | .remove k => do
    match ← Lm.find k with
    | some e => do
      let l ← Lm.list
      Pan.change fun s => { s with l := some (l.filter (·.1 ≠ e)) }
      Pan.change fun s => { s with m := s.m.map fun m => adel m k }
      pure .unit
    | none => pure .unit
  | .len => do
    let n ← Pan.read fun s => (s.m.getD []).length
    pure (.int n)
  | .range f => do
    let l ← Lm.list
    Lm.walk f l
    pure .unit
  | .clear => do
    Pan.change fun s => { s with m := some [] }
    let _ ← Lm.list
    Pan.change fun s => { s with l := some [] }
    pure .unit

end Linked

/-- What calls give one after the other, `none` for a panic, and the state at the end. -/
def calls {S O R : Type} (exec : O → Pan S R) : S → List O → S × List (Option R)
  | s, [] => (s, [])
  | s, o :: os =>
    let (s1, r) := (exec o).run s
    let (s2, rs) := calls exec s1 os
    (s2, r :: rs)

/-- If an invariant holds, every call gives what `spec` says. -/
theorem calls_all {S O R : Type} {exec : O → Pan S R} {I : S → Prop} {spec : O → Option R}
    (h : ∀ s o, I s → I ((exec o).run s).1 ∧ ((exec o).run s).2 = spec o) (s : S) (hs : I s) (os : List O) :
    I (calls exec s os).1 ∧ (calls exec s os).2 = os.map spec := by
  induction os generalizing s with
  | nil => exact ⟨hs, rfl⟩
  | cons o os ih =>
    obtain ⟨h1, h2⟩ := h s o hs
    obtain ⟨h3, h4⟩ := ih _ h1
    exact ⟨h3, by simp only [calls, List.map_cons, h2, h4]⟩

section Linked
variable {K V : Type} [DecidableEq K] [Inhabited V]

/-- What a call on the zero linked hash map gives. -/
def LOp.zero : LOp K V → Option (LRes V)
  | .load _ => some (.val default false)
  | .remove _ => some .unit
  | .len => some (.int 0)
  | .store _ _ | .range _ | .clear => none

/-- **C167**, linked hash map: in any sequence of calls on the zero value, `Load` finds nothing, `Remove` does nothing, `Len` is 0, and `Store`, `Range` and `Clear`
panic, after a `Clear` too; no function given to `Range` is called. -/
theorem C167_linked (os : List (LOp K V)) :
    (calls Lm.exec Lm.zero os).2 = os.map LOp.zero ∧ (calls Lm.exec (Lm.zero : Lm K V) os).1.log = [] := by
  have h := calls_all (exec := Lm.exec (K := K) (V := V)) (spec := LOp.zero)
    (I := fun s => s.l = none ∧ s.m.getD [] = [] ∧ s.log = []) (fun s o hI => by
      obtain ⟨m, l, fr, lg⟩ := s
      obtain ⟨h1, h2, h3⟩ := hI
      dsimp only at h1 h2 h3
      subst h1 h3
      cases o <;> simp [Lm.exec, Lm.find, Lm.list, Pan.run_bind, Pan.run_pure, Pan.run_change, Pan.run_read, Pan.try_, h2, aget, LOp.zero])
    Lm.zero ⟨rfl, rfl, rfl⟩ os
  exact ⟨h.2, h.1.2.2⟩

end Linked

/-! ## The hash ring -/

section Ring
variable {N : Type}

/-- `HashRing`: hashring.go:12-16. -/
structure Hr (N : Type) where
  replicas : Int
  raw : Option (List N)
  nodes : Option (List (N × UInt32))

/-- The zero value. -/
def Hr.zero : Hr N := ⟨0, none, none⟩

/-- What the calls depend on: `==` of the nodes (floats too), the order of iterations, the hashes, the sorting of the points. -/
structure HEnv (N : Type) where
  eq : N → N → Bool
  ord : List N → List N
  perm : ∀ l, (ord l).Perm l
  hash : N → Nat → UInt32
  sort : List (N × UInt32) → List (N × UInt32)
  search : List (N × UInt32) → N → N

variable (E : HEnv N)

/-- `s[v] = struct{}{}` for all of them, on a map that is there: set.go:30-35. -/
def pushAll (s : List N) (l : List N) : List N := l.foldl (fun s v => if s.any (E.eq · v) then s else s ++ [v]) s

/-- `s.Difference(set)`: set.go:119-128; a nil set contains nothing. -/
def diff (s : List N) (t : Option (List N)) : List N := (E.ord s).filter fun v => !(t.getD []).any (E.eq · v)

/-- A method of `hr.nodes`, which panics if that is nil: vec.go:110-121, 167-170. -/
def Hr.vec : Pan (Hr N) (List (N × UInt32)) := Pan.try_ fun s => s.nodes.map fun l => (s, l)

/-- The points of the nodes, one after the other: hashring.go:43-51. -/
def Hr.points : List N → Pan (Hr N) Unit
  | [] => pure ()
  | v :: vs => do
    let r ← Pan.read fun s => s.replicas
    if r ≤ 0 then Hr.points vs
    else
      let l ← Hr.vec
      Pan.change fun s => { s with nodes := some (l ++ (List.range r.toNat).map fun i => (v, E.hash v i)) }
      Hr.points vs

/-- `hr.rawNodes.Push(…)`: a panic if the map is nil and there is something to push. -/
def Hr.pushRaw (l : List N) : Pan (Hr N) Unit := do
  let raw ← Pan.read fun s => s.raw
  match raw, l with
  | _, [] => pure ()
  | none, _ :: _ => Pan.raise
  | some t, l => Pan.change fun s => { s with raw := some (pushAll E t l) }

/-- `AddNodes`: hashring.go:38-55. -/
def Hr.add (l : List N) : Pan (Hr N) Unit :=
  match l with
  | [] => pure ()
  | l => do
    let raw ← Pan.read fun s => s.raw
    let s := diff E (pushAll E [] l) raw
    Hr.points E (E.ord s)
    Hr.pushRaw E (E.ord s)
    let ns ← Hr.vec
    Pan.change fun s => { s with nodes := some (E.sort ns) }

/-- `ResetNodes`: hashring.go:57-61. -/
def Hr.reset (l : List N) : Pan (Hr N) Unit := do
  let _ ← Hr.vec
  Pan.change fun s => { s with nodes := some [] }
  Pan.change fun s => { s with raw := s.raw.map fun _ => [] }
  Hr.add E l

inductive HOp (N : Type)
  | add (l : List N)
  | reset (l : List N)
  | remove (l : List N)
  | get (k : N)

variable [Inhabited N]

/-- `AddNodes`, `ResetNodes`, `RemoveNodes` (hashring.go:89-95), `GetNode` (hashring.go:64-83; the binary search is `search`). -/
def Hr.exec : HOp N → Pan (Hr N) (Option N)
  | .add l => do
    Hr.add E l
    pure none
  | .reset l => do
    Hr.reset E l
    pure none
  | .remove [] => pure none
  | .remove l => do
    let raw ← Pan.read fun s => s.raw
    let s := (E.ord (raw.getD [])).filter fun v => (pushAll E [] l).any (E.eq · v)
    Hr.reset E (E.ord (diff E (raw.getD []) (some s)))
    pure none
  | .get k => do
    let l ← Hr.vec
    if l.length = 0 then pure (some default)
    else pure (some (E.search l k))

omit [Inhabited N] in
theorem pushAll_ne {x : N} {l : List N} : ∀ {s : List N}, s ≠ [] ∨ x ∈ l → pushAll E s l ≠ [] := by
  induction l with
  | nil => intro s h; simpa [pushAll] using h
  | cons y l ih =>
    intro s _
    have : pushAll E s (y :: l) = pushAll E (if s.any (E.eq · y) then s else s ++ [y]) l := rfl
    rw [this]
    refine ih (.inl ?_)
    split
    · intro e; simp_all
    · simp

omit [Inhabited N] in
theorem ord_ne {s : List N} (h : s ≠ []) : E.ord s ≠ [] := fun e => h (by simpa [e] using (E.perm s).symm)

omit [Inhabited N] in
theorem diff_nil {s : List N} (h : s ≠ []) : diff E s none ≠ [] := by
  have := ord_ne E h
  simpa [diff] using this

omit [Inhabited N] in
/-- Without replicas no points are made. -/
theorem points_zero (vs : List N) : (Hr.points E vs).run Hr.zero = (Hr.zero, some ()) := by
  induction vs with
  | nil => rfl
  | cons v vs ih => simpa [Hr.points, Pan.run_bind, Pan.run_read, Hr.zero] using ih

/-- What a call on the zero hash ring gives. -/
def HOp.zero : HOp N → Option (Option N)
  | .add [] | .remove [] => some none
  | _ => none

/-- **C167**, hash ring: in any sequence of calls on the zero value, `AddNodes` and `RemoveNodes` without nodes do nothing; everything else panics, `GetNode` too, and
the value stays as it is. -/
theorem C167_ring (os : List (HOp N)) :
    (calls (Hr.exec E) Hr.zero os).2 = os.map HOp.zero ∧ (calls (Hr.exec E) Hr.zero os).1 = Hr.zero := by
  have h := calls_all (exec := Hr.exec E) (spec := HOp.zero) (I := fun s => s = Hr.zero) (fun s o hI => by
      subst hI
      have hv : (Hr.vec (N := N)).run Hr.zero = (Hr.zero, none) := rfl
      rcases o with l | l | l | k
      · cases l with
        | nil => exact ⟨rfl, rfl⟩
        | cons x l =>
          have hne : E.ord (diff E (pushAll E [] (x :: l)) none) ≠ [] :=
            ord_ne E (diff_nil E (pushAll_ne E (x := x) (.inr (by simp))))
          have hp : (Hr.pushRaw E (E.ord (diff E (pushAll E [] (x :: l)) none))).run Hr.zero = (Hr.zero, none) := by
            cases e : E.ord (diff E (pushAll E [] (x :: l)) none) with
            | nil => exact absurd e hne
            | cons y ys => rfl
          have ha : (Hr.add E (x :: l)).run Hr.zero = (Hr.zero, none) := by
            simp only [Hr.add, Pan.run_bind, Pan.run_read]
            have e : (Hr.zero : Hr N).raw = none := rfl
            rw [e, points_zero]
            dsimp only
            rw [hp]
          simp only [Hr.exec, Pan.run_bind, ha, HOp.zero, and_self]
      · simp only [Hr.exec, Hr.reset, Pan.run_bind, hv, HOp.zero, and_self]
      · cases l with
        | nil => exact ⟨rfl, rfl⟩
        | cons x l => simp only [Hr.exec, Hr.reset, Pan.run_bind, Pan.run_read, hv, HOp.zero, and_self]
      · simp only [Hr.exec, Pan.run_bind, hv, HOp.zero, and_self])
    Hr.zero rfl os
  exact ⟨h.2, h.1⟩

end Ring

/-! ## The priority queue -/

section Queue
variable {H T : Type}

/-- A call of a method of the interface `pq.heap`: `none` is the nil interface, `H` the heaps. -/
def iface {R : Type} (f : H → H × Option R) : Pan (Option H) R := ⟨fun s =>
  match s with
  | none => (none, none)
  | some h => (some (f h).1, (f h).2)⟩

/-- The methods of a heap, whatever it is: heap.go:7-11. -/
structure Methods (H T : Type) where
  len : H → H × Option Int
  less : Int → Int → H → H × Option Bool
  swap : Int → Int → H → H × Option Unit
  push : Int × T → H → H × Option Unit
  pop : H → H × Option (Int × T)

inductive QOp (T : Type)
  | len
  | push (p : Int) (v : T)
  | pop

inductive QRes (T : Type)
  | int (n : Int)
  | item (p : Int) (v : T)
  | unit

/-- `Len`, `Push`, `Pop`: pqueue.go:27-38, with the first lines of `heap.Push` and `heap.Pop` (heap.go:20-30); `up` and `down` are any calls. -/
def qexec (M : Methods H T) (up down : Int → Pan (Option H) Unit) : QOp T → Pan (Option H) (QRes T)
  | .len => do
    let n ← iface M.len
    pure (.int n)
  | .push p v => do
    iface (M.push (p, v))
    let n ← iface M.len
    up (n - 1)
    pure .unit
  | .pop => do
    let n ← iface M.len
    iface (M.swap 0 (n - 1))
    down (n - 1)
    let (p, v) ← iface M.pop
    pure (.item p v)

/-- **C167**, priority queue: every call on the zero value panics. -/
theorem C167_queue (M : Methods H T) (up down : Int → Pan (Option H) Unit) (os : List (QOp T)) :
    (calls (qexec M up down) none os).2 = os.map (fun _ => none) ∧ (calls (qexec M up down) none os).1 = none := by
  have h := calls_all (exec := qexec M up down) (spec := fun _ => none) (I := fun s => s = none)
    (fun s o hI => by subst hI; cases o <;> exact ⟨rfl, rfl⟩) none rfl os
  exact ⟨h.2, h.1⟩

end Queue

/-! ## The refresh cache -/

section Cache
variable {D F C R : Type}

/-- `RefreshCache`: refreshcache.go:14-18; `D`: what a `RefreshData` is; `F`, `C`: refresh and clear functions, nil ones among them. -/
structure Rc (D F C : Type) where
  data : Option D
  rf : Option F
  cf : Option C

/-- The zero value. -/
def Rc.zero : Rc D F C := ⟨none, none, none⟩

/-- The methods of `RefreshData` when it is there; `R`: what they return. -/
structure DMethods (D F C R : Type) where
  get : F → D → D × Option R
  refresh : F → D → D × Option R
  clear : Option C → D → D × Option R
  other : Nat → D → D × Option R

/-- A method of `r.RefreshData`, which panics if that is nil: refreshcache.go:99, 129, 147-152, 156-188. -/
def Rc.on (f : D → D × Option R) : Pan (Rc D F C) R := ⟨fun s =>
  match s.data with
  | none => (s, none)
  | some d => ({ s with data := some (f d).1 }, (f d).2)⟩

inductive ROp (F C : Type)
  | get
  | refresh
  | clear
  /-- `Last`, `LastErr`, `Raw` and the others that come with the embedded `RefreshData` -/
  | other (n : Nat)
  | isNil
  | getRefresh
  | setRefresh (f : F)
  | getClear
  | setClear (f : C)

inductive RRes (F C R : Type)
  | res (r : R)
  | bool (b : Bool)
  | rf (f : F)
  | cf (f : Option C)
  | unit

/-- `*r.RefreshFunc.Load()`: refreshcache.go:41, 49, 53. -/
def Rc.refreshFunc : Pan (Rc D F C) F := Pan.try_ fun s => s.rf.map fun f => (s, f)

/-- The methods: refreshcache.go:28-62; `isNil` is `Data() == nil`. -/
def Rc.exec (M : DMethods D F C R) : ROp F C → Pan (Rc D F C) (RRes F C R)
  | .get => do
    let f ← Rc.refreshFunc
    let r ← Rc.on (M.get f)
    pure (.res r)
  | .refresh => do
    let f ← Rc.refreshFunc
    let r ← Rc.on (M.refresh f)
    pure (.res r)
  | .clear => do
    let c ← Pan.read fun s => s.cf
    let r ← Rc.on (M.clear c)
    pure (.res r)
  | .other n => do
    let r ← Rc.on (M.other n)
    pure (.res r)
  | .isNil => do
    let b ← Pan.read fun s => s.data.isNone
    pure (.bool b)
  | .getRefresh => do
    let f ← Rc.refreshFunc
    pure (.rf f)
  | .setRefresh f => do
    Pan.change fun s => { s with rf := some f }
    pure .unit
  | .getClear => do
    let c ← Pan.read fun s => s.cf
    pure (.cf c)
  | .setClear f => do
    Pan.change fun s => { s with cf := some f }
    pure .unit

/-- The function set last. -/
def lastR (os : List (ROp F C)) : Option F := os.reverse.findSome? fun | .setRefresh f => some f | _ => none

def lastC (os : List (ROp F C)) : Option C := os.reverse.findSome? fun | .setClear f => some f | _ => none

/-- What a call on the zero cache gives, after the calls `os`. -/
def ROp.zero (os : List (ROp F C)) : ROp F C → Option (RRes F C R)
  | .get | .refresh | .clear | .other _ => none
  | .isNil => some (.bool true)
  | .getRefresh => (lastR os).map .rf
  | .getClear => some (.cf (lastC os))
  | .setRefresh _ | .setClear _ => some .unit

theorem calls_append {S O R : Type} (exec : O → Pan S R) (s : S) (as bs : List O) :
    calls exec s (as ++ bs) = ((calls exec (calls exec s as).1 bs).1, (calls exec s as).2 ++ (calls exec (calls exec s as).1 bs).2) := by
  induction as generalizing s with
  | nil => rfl
  | cons a as ih => simp only [List.cons_append, calls, ih]

/-- **C167**, refresh cache: on the zero value the functions can be set and read, reading the refresh function panics until one is set, and everything else panics, with
functions set too; no function of the user is called, as no method of a `RefreshData` is. -/
theorem C167_cache (M : DMethods D F C R) (os : List (ROp F C)) (o : ROp F C) :
    (calls (Rc.exec M) Rc.zero (os ++ [o])).2 = (calls (Rc.exec M) Rc.zero os).2 ++ [o.zero os] ∧
    (calls (Rc.exec M) Rc.zero os).1 = ⟨none, lastR os, lastC os⟩ := by
  have key : ∀ os : List (ROp F C), (calls (Rc.exec M) Rc.zero os).1 = ⟨none, lastR os, lastC os⟩ := by
    intro os
    induction os using List.reverseRecOn with
    | nil => rfl
    | append_singleton os o ih =>
      rw [calls_append, ih]
      have hr : ∀ o : ROp F C, lastR (os ++ [o]) = match o with | .setRefresh f => some f | _ => lastR os := by
        intro o; cases o <;> simp [lastR]
      have hc : ∀ o : ROp F C, lastC (os ++ [o]) = match o with | .setClear f => some f | _ => lastC os := by
        intro o; cases o <;> simp [lastC]
      rw [hr, hc]
      cases o <;> rcases lastR os with _ | _ <;> rfl
  refine ⟨?_, key os⟩
  rw [calls_append, key]
  cases o <;> simp [calls, Rc.exec, Pan.run_bind, Pan.run_read, Pan.run_change, Pan.run_pure, Rc.refreshFunc, Rc.on, Pan.try_, ROp.zero] <;>
    rcases lastR os with _ | _ <;> rfl

end Cache

/-! ## Examples -/

/-- After `Clear` has panicked `Store` still panics. -/
example : (calls Lm.exec (Lm.zero : Lm Nat Nat) [.store 1 5, .load 1, .clear, .store 1 5, .len, .remove 1]).2 =
    [none, some (.val 0 false), none, none, some (.int 0), some .unit] := by rfl

/-- One that is not zero works. -/
example : (calls Lm.exec (⟨some [], some [], 0, []⟩ : Lm Nat Nat) [.store 1 5, .load 1, .store 2 6, .len, .clear, .len]).2 =
    [some .unit, some (.val 5 true), some .unit, some (.int 2), some .unit, some (.int 0)] := by rfl

def exEnv : HEnv Nat := ⟨(· == ·), id, fun _ => .refl _, fun v i => .ofNat (v + i), id, fun l _ => (l.head?.map (·.1)).getD 0⟩

example : (calls (Hr.exec exEnv) Hr.zero [.add [], .add [1, 2], .get 1, .reset [], .remove [1], .remove []]).2 =
    [some none, none, none, none, none, some none] := by rfl

example : (calls (Hr.exec exEnv) ⟨2, some [], some []⟩ [.get 7, .add [4, 4, 5], .get 7, .remove [4], .get 7]).2 =
    [some (some 0), some none, some (some 4), some none, some (some 5)] := by decide +kernel

/-- A priority queue over a list, last in first out. -/
def exM : Methods (List (Int × Nat)) Nat :=
  ⟨fun h => (h, some h.length), fun _ _ h => (h, some false), fun _ _ h => (h, some ()), fun x h => (x :: h, some ()), fun h => (h.tail, h.head?)⟩

example : (calls (qexec exM (fun _ => pure ()) fun _ => pure ()) none [.len, .push 1 2, .pop]).2 = [none, none, none] := by rfl
example : (calls (qexec exM (fun _ => pure ()) fun _ => pure ()) (some []) [.push 1 2, .len, .pop, .pop]).2 =
    [some .unit, some (.int 1), some (.item 1 2), none] := by rfl

def exD : DMethods Nat Nat Nat Nat := ⟨fun f d => (d + f, some (d + f)), fun f d => (d + f, some (d + f)), fun _ _ => (0, some 0), fun _ d => (d, some d)⟩

example : (calls (Rc.exec exD) Rc.zero [.getRefresh, .getClear, .setRefresh 3, .getRefresh, .get, .setClear 4, .clear, .getClear, .isNil, .other 0]).2 =
    [none, some (.cf none), some .unit, some (.rf 3), none, some .unit, none, some (.cf (some 4)), some (.bool true), none] := by rfl
example : (calls (Rc.exec exD) ⟨some 1, some 3, none⟩ [.get, .other 0, .clear]).2 = [some (.res 4), some (.res 4), some (.res 0)] := by rfl

end Verif.Zero
