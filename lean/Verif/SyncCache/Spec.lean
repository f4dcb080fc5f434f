import Mathlib.Logic.Function.Basic
/-!
# Specification of `synccache`

What can be seen of an execution: calls and returns, readings of the clock, entries being made, put into the map and
taken out of it, their expiration being read and written, starts and ends of the user's functions.  The properties speak of
such traces only.  Thread `i` is one goroutine; calls made inside a callback count as another thread.
Entries are numbered in the order they are made.  Times and durations are in nanoseconds.
-/
namespace Verif.SyncCache

/-- The calls. `tick` is one round of the background trimmer, `a` an entry. -/
inductive Op (K V : Type) where
  | store (k : K) (v : V) (d : Int)
  | load (k : K)
  | loadOrStore (k : K) (v : V) (d : Int)
  | delete (k : K)
  | loadAndDelete (k : K)
  | compareAndDelete (k : K) (a : Nat)
  | compareValueAndDelete (k : K) (v : V)
  | clear
  | range
  | tick
  | start
  | close
  | newEntry (v : V) (d : Int)
  | value (a : Nat)
  | isExpired (a : Nat)
  | addExpiration (a : Nat) (d : Int)
  | setExpiration (a : Nat) (t : Int)

/-- What a call returns; `nil` is `(nil, false)`. -/
inductive Res (V : Type) where
  | unit
  | nil
  | entry (a : Nat) (loaded : Bool)
  | ptr (a : Nat)
  | bool (b : Bool)
  | val (v : V)
  | panicked

/-- Events; the first argument is the thread.
* `mk`: an entry made at clock `now` to expire after `d`;
* `put`, `del`, `wipe`: an entry put into the map, taken out of it; the map emptied;
* `seen`: the expiration of an entry read; `addExp`, `setExp`: written;
* `cb`, `cbEnd`: start and end (without a panic or with one) of the deleted callback;
* `yield`, `yieldEnd`: start and end (`none`: panic) of the function passed to `Range`;
* `reg`: the cache registered with the trimmer or removed. -/
inductive Ev (K V : Type) where
  | call (i : Nat) (op : Op K V)
  | tau (i : Nat)
  | clock (i : Nat) (now : Int)
  | mk (i : Nat) (a : Nat) (v : V) (now d : Int)
  | put (i : Nat) (k : K) (a : Nat)
  | del (i : Nat) (k : K) (a : Nat)
  | wipe (i : Nat)
  | seen (i : Nat) (a : Nat)
  | addExp (i : Nat) (a : Nat) (d : Int)
  | setExp (i : Nat) (a : Nat) (t : Int)
  | cb (i : Nat) (v : V)
  | cbEnd (i : Nat) (ok : Bool)
  | yield (i : Nat) (k : K) (a : Nat)
  | yieldEnd (i : Nat) (b : Option Bool)
  | reg (i : Nat) (b : Bool)
  | ret (i : Nat) (r : Res V)

variable {K V : Type}

/-- The thread. -/
def Ev.tid : Ev K V → Nat
  | .call i _ | .tau i | .clock i _ | .mk i _ _ _ _ | .put i _ _ | .del i _ _ | .wipe i | .seen i _ | .addExp i _ _ | .setExp i _ _
  | .cb i _ | .cbEnd i _ | .yield i _ _ | .yieldEnd i _ | .reg i _ | .ret i _ => i

/-- Milliseconds since 1970, rounded down (`time.Time.UnixMilli`). -/
def ms (t : Int) : Int := t / 1000000
/-- Milliseconds of a duration, rounded towards 0 (`time.Duration.Milliseconds`). -/
def msd (d : Int) : Int := d.tdiv 1000000

section
variable [DecidableEq K]

/-- The entry the map holds for `k` after an event, if it held `x` before. -/
def Ev.onKey (k : K) (x : Option Nat) : Ev K V → Option Nat
  | .put _ k' a => if k' = k then some a else x
  | .del _ k' _ => if k' = k then none else x
  | .wipe _ => none
  | _ => x

/-- The entry the map holds for `k` after the events. -/
def content (tr : List (Ev K V)) (k : K) : Option Nat := tr.foldl (fun x e => e.onKey k x) none
end

/-- The expiration (in milliseconds) of entry `a` after an event, if it was `x` before. -/
def Ev.onExp (a : Nat) (x : Int) : Ev K V → Int
  | .mk _ a' _ now d => if a' = a then ms (now + d) else x
  | .addExp _ a' d => if a' = a then x + msd d else x
  | .setExp _ a' t => if a' = a then ms t else x
  | _ => x

/-- The expiration of entry `a` after the events. -/
def expOf (tr : List (Ev K V)) (a : Nat) : Int := tr.foldl (fun x e => e.onExp a x) 0

/-- Whether the cache is registered with the trimmer after an event. -/
def Ev.onReg (x : Bool) : Ev K V → Bool
  | .reg _ b => b
  | _ => x

/-- Whether the cache is registered with the trimmer after the events. -/
def regOf (tr : List (Ev K V)) : Bool := tr.foldl Ev.onReg false

/-- Entry `a` was made with value `v`. -/
def Made (tr : List (Ev K V)) (a : Nat) (v : V) : Prop := ∃ (n i : Nat) (now d : Int), tr[n]? = some (.mk i a v now d)

/-- The call at `p` is the latest one of thread `i` before `q`. -/
structure CallAt (tr : List (Ev K V)) (i p : Nat) (op : Op K V) (q : Nat) : Prop where
  lt : p < q
  at_ : tr[p]? = some (.call i op)
  only : ∀ (k : Nat) (op' : Op K V), p < k → k < q → tr[k]? ≠ some (.call i op')

section
variable [DecidableEq K]

/-- At some time after `p` the map holds `x` for `k`. -/
def Was (tr : List (Ev K V)) (p : Nat) (k : K) (x : Option Nat) : Prop := ∃ z, p < z ∧ z ≤ tr.length ∧ content (tr.take z) k = x

/-- At some time after `p` the map does not hold `a` for `k`. -/
def Gone (tr : List (Ev K V)) (p : Nat) (k : K) (a : Nat) : Prop := ∃ z, p < z ∧ z ≤ tr.length ∧ content (tr.take z) k ≠ some a

/-- After `p` thread `i` found `a` for `k`, read the clock and then the expiration of `a`, and the two times satisfy `φ`. -/
def Checked (tr : List (Ev K V)) (i p : Nat) (k : K) (a : Nat) (φ : Int → Int → Prop) : Prop :=
  ∃ (z x y : Nat) (now : Int), p < z ∧ z ≤ y ∧ p < x ∧ x < y ∧ content (tr.take z) k = some a ∧ tr[x]? = some (.clock i now) ∧
    tr[y]? = some (.seen i a) ∧ φ (ms now) (expOf (tr.take y) a)

/-- Found and not expired. -/
abbrev Live (tr : List (Ev K V)) (i p : Nat) (k : K) (a : Nat) : Prop := Checked tr i p k a fun now e => now ≤ e
/-- Found and expired. -/
abbrev Dead (tr : List (Ev K V)) (i p : Nat) (k : K) (a : Nat) : Prop := Checked tr i p k a fun now e => now > e
end

end Verif.SyncCache
