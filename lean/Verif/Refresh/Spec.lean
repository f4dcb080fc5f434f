/-!
# Specification of `refreshcache`

What can be seen of an execution: calls and returns, readings of the clock, starts and ends of the
functions of the user, acquisitions of the lock, and the moments `Clear`, `SetRefreshFunc` and `SetClearFunc` take
effect.  The properties
speak of such traces only.  Thread `i` is one goroutine (also a call made inside a refresh function).
-/
namespace Verif.Refresh

/-- How a function of the user ends. -/
inductive Outcome (T E : Type) where
  | ret (v : T) (err : Option E)
  | panic

/-- The calls. `get`, `refresh`, `clear` are the methods of `RefreshData`, with the function to use and
its arguments; `cget`, `crefresh`, `cclear` those of `RefreshCache`. -/
inductive Op (F A : Type) where
  | get (f : F) (a : A)
  | refresh (f : F) (a : A)
  | clear (f : Option F) (a : A)
  | raw
  | last
  | lastErr
  | cget (a : A)
  | crefresh (a : A)
  | cclear (a : A)
  | setRefresh (f : F)
  | setClear (f : Option F)

variable {T E F A : Type}

/-- It is a `Get`. -/
def Op.isGet : Op F A → Prop
  | .get _ _ | .cget _ => True
  | _ => False

/-- What a call returns. -/
inductive Res (T E : Type) where
  | val (v : T) (err : Option E)
  | panicked
  | time (t : Int)
  | err (e : Option E)
  | unit

/-- What the caller of a refresh sees. -/
def Outcome.res : Outcome T E → Res T E
  | .ret v e => .val v e
  | .panic => .panicked

/-- Events; the first argument is the thread. -/
inductive Ev (T E F A : Type) where
  | call (i : Nat) (op : Op F A)
  | tau (i : Nat)
  | clock (i : Nat) (now : Int)
  | locked (i : Nat)
  | cleared (i : Nat)
  | stored (i : Nat) (f : F)
  | storedClear (i : Nat) (f : Option F)
  | start (i : Nat) (f : F) (a : A) (old : T)
  | finish (i : Nat) (o : Outcome T E)
  | clearStart (i : Nat) (f : F) (a : A) (old : T)
  | clearEnd (i : Nat) (e : Option (Option E))
  | ret (i : Nat) (r : Res T E)

/-- The thread. -/
def Ev.tid : Ev T E F A → Nat
  | .call i _ | .tau i | .clock i _ | .locked i | .cleared i | .stored i _ | .storedClear i _ | .start i _ _ _ | .finish i _
  | .clearStart i _ _ _ | .clearEnd i _ | .ret i _ => i

/-- The refresh that ended at `n` in thread `i` took its time stamp `t` at `m`: the first reading of the
clock after its end. -/
structure Stamp (tr : List (Ev T E F A)) (i n m : Nat) (t : Int) : Prop where
  lt : n < m
  at_ : tr[m]? = some (.clock i t)
  first : ∀ k t', n < k → k < m → tr[k]? ≠ some (.clock i t')

/-- `p` is the call of the current operation of thread `i`, up to `z`. -/
structure CallAt (tr : List (Ev T E F A)) (i p : Nat) (op : Op F A) (z : Nat) : Prop where
  lt : p < z
  at_ : tr[p]? = some (.call i op)
  only : ∀ k op', p < k → k < z → tr[k]? ≠ some (.call i op')

end Verif.Refresh
