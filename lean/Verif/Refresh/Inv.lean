import Verif.Refresh.Trace
/-!
# What a thread knows at each point of its call

Positive facts about the trace, and the absence of some later events of the thread itself: both survive
the steps of other threads.
-/
namespace Verif.Refresh
variable {T E F A : Type}

/-- The value a refresh that ended so leaves in the cache as good: a panic leaves the zero value. -/
def Outcome.yield (z : T) : Outcome T E → Option T
  | .ret v none => some v
  | .ret _ (some _) => none
  | .panic => some z

variable (c : Cfg T) (tr tr' : List (Ev T E F A)) (ss ss' : List (State T E F A)) (i : Nat)

/-- A state with `φ` after `p`. -/
def Saw (p : Nat) (φ : State T E F A → Prop) : Prop := ∃ q s, p < q ∧ ss[q]? = some s ∧ φ s
/-- The thread read the clock after `p`. -/
def Clk (p : Nat) (φ : Int → Prop) : Prop := ∃ q now, p < q ∧ tr[q]? = some (.clock i now) ∧ φ now

/-- A check of the age after `p` succeeded. -/
def Hit (p : Nat) : Prop :=
  ∃ l, Saw ss p (·.last = l) ∧ ((c.maxAge < 0 ∧ l > 0) ∨ Clk tr i p (fun now => now - l < c.maxAge))
/-- A check of the age after `p` succeeded, and then the data was `d`. -/
def DataHit (p : Nat) (d : T) : Prop :=
  ∃ l q, p < q ∧ (∃ s, ss[q]? = some s ∧ s.last = l) ∧
    ((c.maxAge < 0 ∧ l > 0) ∨ Clk tr i p (fun now => now - l < c.maxAge)) ∧ Saw ss q (·.data = d)
/-- A check of the age after `p` failed. -/
def DataFail (p : Nat) : Prop :=
  (∃ l, Saw ss p (·.last = l) ∧ Clk tr i p (fun now => ¬ now - l < c.maxAge)) ∧ (c.maxAge < 0 → Saw ss p (¬ ·.last > 0))
/-- A check of the age of the error after `p` succeeded. -/
def EHit (p : Nat) : Prop :=
  c.errAge > 0 ∧ ∃ l, Saw ss p (·.lastErr = l) ∧ Clk tr i p (fun now => now - l < c.errAge)
/-- A check of the age of the error after `p` succeeded, and then the error was `e`. -/
def ErrHit (p : Nat) (e : Option E) : Prop :=
  c.errAge > 0 ∧ ∃ l q, p < q ∧ (∃ s, ss[q]? = some s ∧ s.lastErr = l) ∧ Clk tr i p (fun now => now - l < c.errAge) ∧
    Saw ss q (·.err = e)
/-- Both checks after `p` failed. -/
def Missed (p : Nat) : Prop :=
  DataFail c tr ss i p ∧ (c.errAge > 0 → ∃ l, Saw ss p (·.lastErr = l) ∧ Clk tr i p (fun now => ¬ now - l < c.errAge))

/-- In a call, before the lock. -/
structure Pre (p : Nat) (op : Op F A) : Prop where
  at_ : tr[p]? = some (.call i op)
  noCall : Never tr i p Ev.isCall
  noLock : Never tr i p Ev.isLocked
  noStart : Never tr i p Ev.isStart

/-- In a call, with the lock, before a refresh. -/
structure Lk (p : Nat) (op : Op F A) (k : Nat) : Prop where
  at_ : tr[p]? = some (.call i op)
  lt : p < k
  lock : tr[k]? = some (.locked i)
  noCall : Never tr i p Ev.isCall
  oneLock : OnlyAt tr i p Ev.isLocked k
  noStart : Never tr i p Ev.isStart

/-- In a call, with the lock, during or after a refresh. -/
structure St (p : Nat) (op : Op F A) (k z : Nat) : Prop where
  at_ : tr[p]? = some (.call i op)
  lt : p < k
  lock : tr[k]? = some (.locked i)
  lt' : k < z
  start : ∃ f a old, tr[z]? = some (.start i f a old)
  noCall : Never tr i p Ev.isCall
  oneLock : OnlyAt tr i p Ev.isLocked k
  oneStart : OnlyAt tr i p Ev.isStart z
  miss : op.isGet → Missed c tr ss i p ∧ Missed c tr ss i k

/-- How a `Get` called at `p` comes to its result. -/
inductive GetOut (p : Nat) : Res T E → Prop where
  | fastData (d : T) : Never tr i p Ev.isLocked → Never tr i p Ev.isStart → DataHit c tr ss i p d →
      GetOut p (.val d none)
  | fastErr (e : Option E) : Never tr i p Ev.isLocked → Never tr i p Ev.isStart → DataFail c tr ss i p →
      ErrHit c tr ss i p e → GetOut p (.val c.zero e)
  | lockData (k : Nat) (d : T) : p < k → tr[k]? = some (.locked i) → OnlyAt tr i p Ev.isLocked k →
      Never tr i p Ev.isStart → Missed c tr ss i p → DataHit c tr ss i k d → GetOut p (.val d none)
  | lockErr (k : Nat) (e : Option E) : p < k → tr[k]? = some (.locked i) → OnlyAt tr i p Ev.isLocked k →
      Never tr i p Ev.isStart → Missed c tr ss i p → DataFail c tr ss i k → ErrHit c tr ss i k e →
      GetOut p (.val c.zero e)
  | refreshed (k z n : Nat) (f : F) (a : A) (old : T) (o : Outcome T E) : p < k → tr[k]? = some (.locked i) →
      OnlyAt tr i p Ev.isLocked k → k < z → tr[z]? = some (.start i f a old) → OnlyAt tr i p Ev.isStart z →
      Missed c tr ss i p → Missed c tr ss i k → z < n → tr[n]? = some (.finish i o) → GetOut p o.res

/-- The write-back after the end at `n` of a refresh. -/
structure WB (n : Nat) (o : Outcome T E) (r : Res T E) : Prop where
  st : ∃ p op k z, St c tr ss i p op k z ∧ z < n
  at_ : tr[n]? = some (.finish i o)
  res : r = o.res
  quiet : Never tr i n Ev.isLoud

/-- Before the lock. -/
def InPre (Q : Nat → Prop) : Prop := ∃ p op, Pre tr i p op ∧ op.isGet ∧ Q p
/-- With the lock. -/
def InLk (Q : Nat → Prop) : Prop := ∃ p op k, Lk tr i p op k ∧ op.isGet ∧ Missed c tr ss i p ∧ Q k
/-- In another call. -/
def InOther : Prop := ∃ p op, Pre tr i p op ∧ ¬ op.isGet
/-- At the end of a call. -/
def InEnd (r : Res T E) : Prop :=
  ∃ p op, tr[p]? = some (.call i op) ∧ Never tr i p Ev.isCall ∧ (op.isGet → GetOut c tr ss i p r)

/-- What thread `i` knows at each point. -/
def PcInv : PC T E F A → Prop
  | .idle => True
  | .cGet _ | .gLast _ _ => InPre tr i fun _ => True
  | .gChk _ _ l => InPre tr i fun p => Saw ss p (·.last = l)
  | .gData => InPre tr i fun p => Hit c tr ss i p
  | .gErrNow _ _ => InPre tr i fun p => DataFail c tr ss i p ∧ c.errAge > 0
  | .gErrChk _ _ now => InPre tr i fun p => DataFail c tr ss i p ∧ c.errAge > 0 ∧ Clk tr i p (· = now)
  | .gErr => InPre tr i fun p => DataFail c tr ss i p ∧ EHit c tr ss i p
  | .gLock _ _ => InPre tr i fun p => Missed c tr ss i p
  | .lLast _ _ => InLk c tr ss i fun _ => c.maxAge < 0
  | .lNow _ _ => InLk c tr ss i fun k => c.maxAge < 0 → Saw ss k (¬ ·.last > 0)
  | .lChk _ _ now => InLk c tr ss i fun k => (c.maxAge < 0 → Saw ss k (¬ ·.last > 0)) ∧ Clk tr i k (· = now)
  | .lCmp _ _ l => InLk c tr ss i fun k => (c.maxAge < 0 → Saw ss k (¬ ·.last > 0)) ∧ Saw ss k (·.last = l)
  | .lData => InLk c tr ss i fun k => Hit c tr ss i k
  | .lErrNow _ _ => InLk c tr ss i fun k => DataFail c tr ss i k ∧ c.errAge > 0
  | .lErrChk _ _ now => InLk c tr ss i fun k => DataFail c tr ss i k ∧ c.errAge > 0 ∧ Clk tr i k (· = now)
  | .lErr => InLk c tr ss i fun k => DataFail c tr ss i k ∧ EHit c tr ss i k
  | .old _ _ => ∃ p op k, Lk tr i p op k ∧ (op.isGet → Missed c tr ss i p ∧ Missed c tr ss i k)
  | .running => ∃ p op k z, St c tr ss i p op k z ∧ Never tr i z Ev.isLoud
  | .wData v r => ∃ n o, WB c tr ss i n o r ∧ o.yield c.zero = some v ∧ Never tr i n Ev.isClock
  | .wNow r => ∃ n o, WB c tr ss i n o r ∧ (o.yield c.zero).isSome ∧ Never tr i n Ev.isClock
  | .wLast now r => ∃ n o m, WB c tr ss i n o r ∧ (o.yield c.zero).isSome ∧ Stamp tr i n m now
  | .wLastErr r => ∃ n o m t, WB c tr ss i n o r ∧ (o.yield c.zero).isSome ∧ Stamp tr i n m t
  | .wErr e r => ∃ n v, WB c tr ss i n (.ret v (some e)) r ∧ Never tr i n Ev.isClock
  | .wErrNow r => ∃ n v e, WB c tr ss i n (.ret v (some e)) r ∧ Never tr i n Ev.isClock
  | .wErrLast now r => ∃ n v e m, WB c tr ss i n (.ret v (some e)) r ∧ Stamp tr i n m now
  | .wErrClr r => ∃ n v e m t, WB c tr ss i n (.ret v (some e)) r ∧ Stamp tr i n m t
  | .unlock r | .done r => InEnd c tr ss i r
  | _ => InOther tr i

end Verif.Refresh
