import Verif.SyncCache.Spec
/-!
# Model of `synccache`

`/repo/synccache/synccache.go`, `/repo/synccache/item.go`: a step machine.  One step is one operation on the underlying `RWMap`
(atomic by C01; see C93), one reading of the clock, one atomic access to an expiration, or the start or end of a function of the user.

Simplified:
* `RWMap.Range` (lines 69, 151, 158 of synccache.go) takes a snapshot of the keys, at least those in the map, in any order,
  then looks them up one after the other; by C02 a look-up gives what the map held for the key at some instant since the snapshot,
  not necessarily the latest. `Sys.lean` has the cache over the steps of `RWMap`; C93: this model misses none of its executions.
* `reflect.Value.Equal` (line 140) is a parameter `eqv`, `none` for a panic.
* The set `caches` of all caches (line 17) is reduced to whether this cache is in it, and the ticker to calls of `tick` at any
  time in any thread. The parameter `trimTime` of `NewSyncCache` is not used by the code (line 49).
* Integers are unbounded.
-/
namespace Verif.SyncCache

/-- The maps from keys to entries. -/
abbrev Map (K : Type) := List (K × Nat)

section
variable {K : Type} [DecidableEq K]
def Map.get (m : Map K) (k : K) : Option Nat := (m.find? (·.1 = k)).map (·.2)
def Map.erase (m : Map K) (k : K) : Map K := m.filter (·.1 ≠ k)
def Map.set (m : Map K) (k : K) (a : Nat) : Map K := (k, a) :: m.erase k
end

/-- Which loop over the map: synccache.go lines 151-154, 69-74, 158-164. -/
inductive Kind where
  | clear
  | trim (now : Int)
  | range

/-- A loop: the keys to come, and when the snapshot was taken. -/
structure Iter (K : Type) where
  kind : Kind
  rest : List K
  start : Nat

/-- Where `IsExpired` is called: synccache.go lines 86, 99, 120, 159; `cvd`: line 86 called from line 140. -/
inductive Site (K V : Type) where
  | load
  | cvd (v : V)
  | los (v : V) (d : Int)
  | lad
  | range (it : Iter K)

/-- What follows a removal and its callback: lines 136 (`user`), 90 (`loadExp`; `cvdExp` if called from line 140), 141 (`cvd`), 102 (`los`),
71, 152, 162 (`iter`), 113 (`del`), 124, 129 (`lad`). -/
inductive After (K V : Type) where
  | user
  | loadExp
  | cvdExp
  | cvd
  | los (k : K) (v : V) (d : Int) (a : Nat)
  | iter (it : Iter K)
  | del
  | lad (live : Option Nat)

/-- Program counters. -/
inductive PC (K V : Type) where
  | idle
  | stMk (k : K) (v : V) (d : Int)
  | stPut (k : K) (a : Nat)
  | ldGet (k : K) (x : Option V)
  | chk (k : K) (a : Nat) (st : Site K V)
  | chkExp (k : K) (a : Nat) (now : Int) (st : Site K V)
  | losMk (k : K) (v : V) (d : Int)
  | losTry (k : K) (v : V) (d : Int) (a : Nat)
  | delTry (k : K)
  | ladTry (k : K)
  | cad (k : K) (a : Nat) (aft : After K V)
  | cbCall (a : Nat) (aft : After K V)
  | cbRun (aft : After K V)
  | cvEq (k : K) (a : Nat) (v : V)
  | clr
  | iStart (kind : Kind)
  | iter (it : Iter K)
  | tChk (k : K) (a : Nat) (now : Int) (it : Iter K)
  | fCall (k : K) (a : Nat) (it : Iter K)
  | fRun (it : Iter K)
  | tkReg
  | trNow
  | regPut (b : Bool)
  | neMk (v : V) (d : Int)
  | valGet (a : Nat)
  | ieNow (a : Nat)
  | ieChk (a : Nat) (now : Int)
  | addE (a : Nat) (d : Int)
  | setE (a : Nat) (t : Int)
  | done (r : Res V)

/-- synccache.go lines 36-39, 17; item.go lines 8-11: entry `a` is `ents[a]`, value and expiration. -/
structure State (K V : Type) where
  m : Map K
  ents : List (V × Int)
  reg : Bool
  pc : Nat → PC K V

/-- Whether there is a deleted callback, and the comparison of values. -/
structure Cfg (V : Type) where
  hasCb : Bool
  eqv : V → V → Option Bool

/-- What decides a step: nothing, the clock, the snapshot of `Range`, the instant of a look-up by `Range`, the end of a callback. -/
inductive In (K V : Type) where
  | call (op : Op K V)
  | go
  | time (now : Int)
  | snap (ks : List K)
  | visit (j : Nat)
  | cbFin (ok : Bool)
  | fFin (b : Option Bool)

variable {K V : Type}

/-- The zero `SyncCache` (not yet registered). -/
def State.init : State K V := ⟨[], [], false, fun _ => .idle⟩

def State.go (s : State K V) (i : Nat) (pc : PC K V) : State K V := { s with pc := Function.update s.pc i pc }

/-- Where a call begins. -/
def enter : Op K V → PC K V
  | .store k v d => .stMk k v d
  | .load k => .ldGet k none
  | .loadOrStore k v d => .losMk k v d
  | .delete k => .delTry k
  | .loadAndDelete k => .ladTry k
  | .compareAndDelete k a => .cad k a .user
  | .compareValueAndDelete k v => .ldGet k (some v)
  | .clear => .clr
  | .range => .iStart .range
  | .tick => .tkReg
  | .start => .regPut true
  | .close => .regPut false
  | .newEntry v d => .neMk v d
  | .value a => .valGet a
  | .isExpired a => .ieNow a
  | .addExpiration a d => .addE a d
  | .setExpiration a t => .setE a t

/-- What follows `CompareAndDelete`, by its result; or a callback. -/
def After.next : After K V → Bool → PC K V
  | .user, b => .done (.bool b)
  | .loadExp, _ => .done .nil
  | .cvdExp, _ => .done (.bool false)
  | .cvd, b => .done (.bool b)
  | .los k v d _, true => .losMk k v d
  | .los _ _ _ a, false => .done (.entry a true)
  | .iter it, _ => .iter it
  | .del, _ => .done .unit
  | .lad none, _ => .done .nil
  | .lad (some a), _ => .done (.entry a true)

/-- After a removal: lines 110-112, 121-123, 126-128, 133-135. -/
def afterDel (c : Cfg V) (a : Nat) (aft : After K V) : PC K V := if c.hasCb then .cbCall a aft else aft.next true

/-- The entry is not expired: lines 87, 100, 126-129, 160. -/
def Site.live (c : Cfg V) (k : K) (a : Nat) : Site K V → PC K V
  | .load => .done (.entry a true)
  | .cvd v => .cvEq k a v
  | .los _ _ => .done (.entry a true)
  | .lad => afterDel c a (.lad (some a))
  | .range it => .fCall k a it

/-- The entry is expired: lines 89, 102, 121-124, 162. -/
def Site.dead (c : Cfg V) (k : K) (a : Nat) : Site K V → PC K V
  | .load => .cad k a .loadExp
  | .cvd _ => .cad k a .cvdExp
  | .los v d => .cad k a (.los k v d a)
  | .lad => afterDel c a (.lad none)
  | .range it => .cad k a (.iter it)

/-- The function of a loop on a key with an entry: lines 152, 70, 159. -/
def Iter.visit (it : Iter K) (k : K) (a : Nat) : PC K V :=
  match it.kind with
  | .clear => .cad k a (.iter it)
  | .trim now => .tChk k a now it
  | .range => .chk k a (.range it)

/-- A new entry: item.go lines 13-18. -/
def State.mk_ (s : State K V) (v : V) (now d : Int) : State K V := { s with ents := s.ents ++ [(v, ms (now + d))] }

variable [DecidableEq K]

/-- One step of thread `i`. `hist` are the contents of the map so far, up to now. -/
def step (c : Cfg V) (hist : List (Map K)) (s : State K V) (i : Nat) (inp : In K V) : Option (State K V × Ev K V) :=
  match s.pc i, inp with
  | .idle, .call op => some (s.go i (enter op), .call i op)
  -- `Store`, lines 77-79
  | .stMk k v d, .time now => some ((s.mk_ v now d).go i (.stPut k s.ents.length), .mk i s.ents.length v now d)
  | .stPut k a, .go => some ({ s with m := s.m.set k a }.go i (.done .unit), .put i k a)
  -- `Load`, lines 82-85; `CompareValueAndDelete`, line 140
  | .ldGet k x, .go =>
    match s.m.get k with
    | none => some (s.go i (.done (match x with | none => .nil | some _ => .bool false)), .tau i)
    | some a => some (s.go i (.chk k a (match x with | none => .load | some v => .cvd v)), .tau i)
  -- `IsExpired`, item.go line 25
  | .chk k a st, .time now => some (s.go i (.chkExp k a now st), .clock i now)
  | .chkExp k a now st, .go =>
    match s.ents[a]? with
    | none => some (s.go i (.done .panicked), .tau i)
    | some x => some (s.go i (if ms now > x.2 then st.dead c k a else st.live c k a), .seen i a)
  -- `LoadOrStore`, lines 95-98
  | .losMk k v d, .time now => some ((s.mk_ v now d).go i (.losTry k v d s.ents.length), .mk i s.ents.length v now d)
  | .losTry k v d a, .go =>
    match s.m.get k with
    | none => some ({ s with m := s.m.set k a }.go i (.done (.entry a false)), .put i k a)
    | some b => some (s.go i (.chk k b (.los v d)), .tau i)
  -- `Delete`, line 110
  | .delTry k, .go =>
    match s.m.get k with
    | none => some (s.go i (.done .unit), .tau i)
    | some a => some ({ s with m := s.m.erase k }.go i (afterDel c a .del), .del i k a)
  -- `LoadAndDelete`, lines 116-119
  | .ladTry k, .go =>
    match s.m.get k with
    | none => some (s.go i (.done .nil), .tau i)
    | some a => some ({ s with m := s.m.erase k }.go i (.chk k a .lad), .del i k a)
  -- `CompareAndDelete`, line 133
  | .cad k a aft, .go =>
    if s.m.get k = some a then some ({ s with m := s.m.erase k }.go i (afterDel c a aft), .del i k a)
    else some (s.go i (aft.next false), .tau i)
  -- the callback, lines 111, 122, 127, 134
  | .cbCall a aft, .go =>
    match s.ents[a]? with
    | none => some (s.go i (.done .panicked), .tau i)
    | some x => some (s.go i (.cbRun aft), .cb i x.1)
  | .cbRun aft, .cbFin ok => some (s.go i (if ok then aft.next true else .done .panicked), .cbEnd i ok)
  -- line 140
  | .cvEq k a v, .go =>
    match s.ents[a]? with
    | none => some (s.go i (.done .panicked), .tau i)
    | some x => some (s.go i (match c.eqv v x.1 with
        | none => .done .panicked
        | some true => .cad k a .cvd
        | some false => .done (.bool false)), .tau i)
  -- `Clear`, lines 147-150
  | .clr, .go => if c.hasCb then some (s.go i (.iStart .clear), .tau i) else some ({ s with m := [] }.go i (.done .unit), .wipe i)
  -- `RWMap.Range`
  | .iStart kind, .snap ks =>
    if ks.Nodup ∧ ∀ x ∈ s.m, x.1 ∈ ks then some (s.go i (.iter ⟨kind, ks, hist.length - 1⟩), .tau i) else none
  | .iter ⟨_, [], _⟩, .go => some (s.go i (.done .unit), .tau i)
  | .iter ⟨kind, k :: ks, st⟩, .visit j =>
    if j < st then none
    else match hist[j]? with
      | none => none
      | some m => match m.get k with
        | none => some (s.go i (.iter ⟨kind, ks, st⟩), .tau i)
        | some a => some (s.go i (Iter.visit ⟨kind, ks, st⟩ k a), .tau i)
  -- line 70
  | .tChk k a now it, .go =>
    match s.ents[a]? with
    | none => some (s.go i (.done .panicked), .tau i)
    | some x => some (s.go i (if now > x.2 then .cad k a (.iter it) else .iter it), .seen i a)
  -- line 160
  | .fCall k a it, .go => some (s.go i (.fRun it), .yield i k a)
  | .fRun it, .fFin b =>
    some (s.go i (match b with | none => .done .panicked | some true => .iter it | some false => .done .unit), .yieldEnd i b)
  -- `runTrim`, lines 27-30; `trim`, line 68
  | .tkReg, .go => some (s.go i (if s.reg then .trNow else .done .unit), .tau i)
  | .trNow, .time now => some (s.go i (.iStart (.trim (ms now))), .clock i now)
  -- `Start`, `Close`, lines 58-65
  | .regPut b, .go => some ({ s with reg := b }.go i (.done .unit), .reg i b)
  -- item.go lines 13-33
  | .neMk v d, .time now => some ((s.mk_ v now d).go i (.done (.ptr s.ents.length)), .mk i s.ents.length v now d)
  | .valGet a, .go => some (s.go i (.done (match s.ents[a]? with | none => .panicked | some x => .val x.1)), .tau i)
  | .ieNow a, .time now => some (s.go i (.ieChk a now), .clock i now)
  | .ieChk a now, .go =>
    match s.ents[a]? with
    | none => some (s.go i (.done .panicked), .tau i)
    | some x => some (s.go i (.done (.bool (decide (ms now > x.2)))), .seen i a)
  | .addE a d, .go =>
    match s.ents[a]? with
    | none => some (s.go i (.done .panicked), .tau i)
    | some x => some ({ s with ents := s.ents.set a (x.1, x.2 + msd d) }.go i (.done .unit), .addExp i a d)
  | .setE a t, .go =>
    match s.ents[a]? with
    | none => some (s.go i (.done .panicked), .tau i)
    | some x => some ({ s with ents := s.ents.set a (x.1, ms t) }.go i (.done .unit), .setExp i a t)
  | .done r, .go => some (s.go i .idle, .ret i r)
  | _, _ => none

/-- Executions: the trace, the contents of the map before and after each event, the state at the end. -/
inductive Exec (c : Cfg V) : List (Ev K V) → List (Map K) → State K V → Prop where
  | nil : Exec c [] [[]] .init
  | snoc {tr hist s i inp s' e} : Exec c tr hist s → step c hist s i inp = some (s', e) → Exec c (tr ++ [e]) (hist ++ [s'.m]) s'

/-- Running a schedule. -/
def play (c : Cfg V) : List (Nat × In K V) → List (Ev K V) → List (Map K) → State K V → Option (List (Ev K V))
  | [], tr, _, _ => some tr
  | (i, inp) :: l, tr, hist, s =>
    match step c hist s i inp with
    | none => none
    | some (s', e) => play c l (tr ++ [e]) (hist ++ [s'.m]) s'

theorem play_exec {c : Cfg V} {l : List (Nat × In K V)} : ∀ {tr hist s}, Exec c tr hist s → ∀ {tr'}, play c l tr hist s = some tr' →
    ∃ hist' s', Exec c tr' hist' s' := by
  induction l with
  | nil => intro tr hist s h tr' h'; cases h'; exact ⟨_, _, h⟩
  | cons x l ih =>
    intro tr hist s h tr' h'
    obtain ⟨i, inp⟩ := x
    simp only [play] at h'
    split at h'
    · cases h'
    · next s' e he => exact ih (h.snoc he) h'

/-- The trace of a schedule from the beginning. -/
def trace (c : Cfg V) (l : List (Nat × In K V)) : Option (List (Ev K V)) := play c l [] [[]] .init

theorem trace_exec {c : Cfg V} {l : List (Nat × In K V)} {tr : List (Ev K V)} (h : trace c l = some tr) : ∃ hist s, Exec c tr hist s :=
  play_exec .nil h

end Verif.SyncCache
