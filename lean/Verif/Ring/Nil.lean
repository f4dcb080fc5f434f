import Verif.Lib.Pan
import Verif.Ring.Props
/-!
# Calls on nil rings (C189)

`Pan` keeps what a panic leaves.  Loops take fuel; without fuel left they count as panics, so theorems are about enough of it.
-/
namespace Verif.Ring.Nil
open Verif.Ring
open Verif.Ring.Spec (Op Res)
variable {T : Type}

abbrev P (T α : Type) := Pan (Mem T) α

/-- The fields of `*p`: ring.go:3-6. -/
def nx : Option Nat → P T (Option Nat)
  | none => Pan.raise
  | some p => Pan.read (·.next p)
def pv : Option Nat → P T (Option Nat)
  | none => Pan.raise
  | some p => Pan.read (·.prev p)
def vl : Option Nat → P T T
  | none => Pan.raise
  | some p => Pan.read (·.val p)

/-- `p.next = v`, `p.prev = v`, `p.Value = v`. -/
def putN (p v : Option Nat) : P T Unit :=
  match p with
  | none => Pan.raise
  | some p => Pan.change (·.setNext p v)
def putP (p v : Option Nat) : P T Unit :=
  match p with
  | none => Pan.raise
  | some p => Pan.change (·.setPrev p v)
def putV (p : Option Nat) (v : T) : P T Unit :=
  match p with
  | none => Pan.raise
  | some p => Pan.change fun m => { m with val := upd m.val p v }

/-- `init`: ring.go:8-12. -/
def init (r : Option Nat) : P T (Option Nat) := do
  putN r r
  putP r r
  pure r

/-- `Next`, `Prev`: ring.go:14-26. -/
def next (r : Option Nat) : P T (Option Nat) := do
  if (← nx r) = none then init r else nx r
def prev (r : Option Nat) : P T (Option Nat) := do
  if (← nx r) = none then init r else pv r

/-- The loops of `Move`: ring.go:34-36, 38-40. -/
def walkP : Nat → Option Nat → P T (Option Nat)
  | 0, r => pure r
  | k + 1, r => do walkP k (← pv r)
def walkN : Nat → Option Nat → P T (Option Nat)
  | 0, r => pure r
  | k + 1, r => do walkN k (← nx r)

/-- `Move(n)`: ring.go:28-43. -/
def move (r : Option Nat) (n : Int) : P T (Option Nat) := do
  if (← nx r) = none then init r
  else if n < 0 then walkP n.natAbs r
  else if n > 0 then walkN n.natAbs r
  else pure r

/-- `Link(s)`: ring.go:60-71. -/
def link (r s : Option Nat) : P T (Option Nat) := do
  let n ← next r
  if s = none then pure n
  else
    let p ← prev s
    putN r s
    putP s r
    putP n p
    putN p n
    pure n

/-- `Unlink(n)`: ring.go:73-78. -/
def unlink (r : Option Nat) (n : Int) : P T (Option Nat) := do
  if n ≤ 0 then pure none else link r (← move r (n + 1))

/-- `for ...; p != r; p = p.next { body }`: ring.go:84-86, 94-96. -/
def loop {A : Type} (r : Option Nat) (body : A → Option Nat → P T A) : Nat → A → Option Nat → P T A
  | 0, _, _ => Pan.raise
  | k + 1, a, p =>
    if p = r then pure a
    else do
      let a ← body a p
      loop r body k a (← nx p)

/-- `Len`: ring.go:80-89. -/
def len (fuel : Nat) (r : Option Nat) : P T Nat := do
  if r = none then pure 0 else loop r (fun n _ => pure (n + 1)) fuel 1 (← next r)

/-- `Do(f)`: ring.go:91-98, where `f` appends its argument to a list. -/
def do_ (fuel : Nat) (r : Option Nat) : P T (List T) := do
  if r = none then pure []
  else
    let v ← vl r
    loop r (fun acc p => do pure (acc ++ [← vl p])) fuel [v] (← next r)

/-- Calls on rings that may be nil. -/
inductive NOp (T : Type)
  | next (r : Option Nat) | prev (r : Option Nat) | move (r : Option Nat) (n : Int) | link (r s : Option Nat) | unlink (r : Option Nat) (n : Int)
  | len (r : Option Nat) | do_ (r : Option Nat) | getValue (r : Option Nat) | setValue (r : Option Nat) (v : T)

/-- A call. -/
def call (fuel : Nat) : NOp T → P T (Res T)
  | .next r => do pure (.elem (← next r))
  | .prev r => do pure (.elem (← prev r))
  | .move r n => do pure (.elem (← move r n))
  | .link r s => do pure (.elem (← link r s))
  | .unlink r n => do pure (.elem (← unlink r n))
  | .len r => do pure (.int (← len fuel r))
  | .do_ r => do pure (.vals (← do_ fuel r))
  | .getValue r => do pure (.val (← vl r))
  | .setValue r v => do putV r v; pure .unit

/-- The call on a ring that is not nil. -/
def NOp.plain : NOp T → Option (Op T)
  | .next r => r.map .next
  | .prev r => r.map .prev
  | .move r n => r.map (.move · n)
  | .link r s => r.map (.link · s)
  | .unlink r n => r.map (.unlink · n)
  | .len r => some (.len r)
  | .do_ r => some (.do_ r)
  | .getValue r => r.map .getValue
  | .setValue r v => r.map (.setValue · v)

macro "pan" : tactic => `(tactic| simp only [Pan.run_bind, Pan.run_pure, Pan.run_raise, Pan.run_change, Pan.run_read, nx, pv, vl, putN, putP, putV])

theorem next_run (m : Mem T) (r : Nat) : (next (some r)).run m = ((Ring.next m r).1, some (Ring.next m r).2) := by
  simp only [next, Ring.next]
  pan
  split <;> rfl

theorem prev_run (m : Mem T) (r : Nat) : (prev (some r)).run m = ((Ring.prev m r).1, some (Ring.prev m r).2) := by
  simp only [prev, Ring.prev]
  pan
  split <;> rfl

theorem walkN_run (m : Mem T) (k : Nat) (r q : Option Nat) (h : walk m.next k r = some q) : (walkN k r).run m = (m, some q) := by
  induction k generalizing r with
  | zero => cases h; rfl
  | succ k ih =>
    simp only [walk, Option.bind_eq_bind, Option.bind_eq_some_iff] at h
    obtain ⟨p, rfl, h⟩ := h
    simp only [walkN]
    pan
    exact ih _ h

theorem walkP_run (m : Mem T) (k : Nat) (r q : Option Nat) (h : walk m.prev k r = some q) : (walkP k r).run m = (m, some q) := by
  induction k generalizing r with
  | zero => cases h; rfl
  | succ k ih =>
    simp only [walk, Option.bind_eq_bind, Option.bind_eq_some_iff] at h
    obtain ⟨p, rfl, h⟩ := h
    simp only [walkP]
    pan
    exact ih _ h

theorem move_run {m m' : Mem T} {r : Nat} {n : Int} {q : Option Nat} (h : Ring.move m r n = some (m', q)) : (move (some r) n).run m = (m', some q) := by
  simp only [Ring.move] at h
  simp only [move]
  pan
  split at h
  next hn => cases h; rw [if_pos hn]; rfl
  next hn =>
    rw [if_neg hn]
    split at h
    next h0 =>
      simp only [Option.bind_eq_bind, Option.bind_eq_some_iff, Option.some.injEq, Prod.mk.injEq] at h
      obtain ⟨q, h, rfl, rfl⟩ := h
      rw [if_pos h0]
      exact walkP_run _ _ _ _ h
    next h0 =>
      simp only [Option.bind_eq_bind, Option.bind_eq_some_iff, Option.some.injEq, Prod.mk.injEq] at h
      obtain ⟨q, h, rfl, rfl⟩ := h
      rw [if_neg h0]
      by_cases h1 : n > 0
      · rw [if_pos h1]
        exact walkN_run _ _ _ _ h
      · rw [if_neg h1]
        have : n.natAbs = 0 := by omega
        rw [this] at h
        cases h; rfl

theorem link_run {m m' : Mem T} {r : Nat} {s q : Option Nat} (h : Ring.link m r s = some (m', q)) : (link (some r) s).run m = (m', some q) := by
  simp only [Ring.link] at h
  simp only [link, Pan.run_bind, next_run]
  cases s with
  | none => cases h; rfl
  | some s =>
    simp only [Option.bind_eq_bind, Option.bind_eq_some_iff, Option.some.injEq, Prod.mk.injEq] at h
    obtain ⟨n', hn, p, hp, rfl, rfl⟩ := h
    simp only [reduceCtorEq, if_false, Pan.run_bind, prev_run, hn, hp]
    pan

theorem unlink_run {m m' : Mem T} {r : Nat} {n : Int} {q : Option Nat} (h : Ring.unlink m r n = some (m', q)) : (unlink (some r) n).run m = (m', some q) := by
  simp only [Ring.unlink] at h
  simp only [unlink]
  split at h
  next hn => cases h; rw [if_pos hn]; rfl
  next hn =>
    simp only [Option.bind_eq_bind, Option.bind_eq_some_iff, Prod.exists] at h
    obtain ⟨m1, s, h1, h2⟩ := h
    rw [if_neg hn, Pan.run_bind, move_run h1]
    exact link_run h2

theorem loop_run {A : Type} {m : Mem T} {r : Nat} {body : A → Nat → A} {body' : A → Option Nat → P T A}
    (hb : ∀ a p, (body' a (some p)).run m = (m, some (body a p))) {k : Nat} {a b : A} {p : Option Nat}
    (h : Ring.loop m r body k a p = some b) : (loop (some r) body' k a p).run m = (m, some b) := by
  induction k generalizing a p with
  | zero => cases h
  | succ k ih =>
    simp only [Ring.loop] at h
    simp only [loop]
    split at h
    next hp => cases h; rw [if_pos hp]; rfl
    next hp =>
      rw [if_neg hp]
      simp only [Option.bind_eq_bind, Option.bind_eq_some_iff] at h
      obtain ⟨q, rfl, h⟩ := h
      simp only [Pan.run_bind, hb]
      pan
      exact ih h

/-- **C189**: on rings that are not nil, calls do what C39 to C43 are about. -/
theorem C189_some {dflt : T} {fuel : Nat} {m m' : Mem T} {op : Op T} {r : Res T} {c : NOp T} (hc : c.plain = some op)
    (h : exec dflt fuel m op = some (m', r)) : (call fuel c).run m = (m', some r) := by
  cases c <;> simp only [NOp.plain, Option.map_eq_some_iff, Option.some.injEq] at hc
  case next x =>
    obtain ⟨x, rfl, rfl⟩ := hc
    cases h
    simp only [call, Pan.run_bind, next_run]; rfl
  case prev x =>
    obtain ⟨x, rfl, rfl⟩ := hc
    cases h
    simp only [call, Pan.run_bind, prev_run]; rfl
  case move x n =>
    obtain ⟨x, rfl, rfl⟩ := hc
    simp only [exec, Option.bind_eq_bind, Option.bind_eq_some_iff, Prod.exists, Option.some.injEq, Prod.mk.injEq] at h
    obtain ⟨_, _, h, rfl, rfl⟩ := h
    simp only [call, Pan.run_bind, move_run h]; rfl
  case link x n =>
    obtain ⟨x, rfl, rfl⟩ := hc
    simp only [exec, Option.bind_eq_bind, Option.bind_eq_some_iff, Prod.exists, Option.some.injEq, Prod.mk.injEq] at h
    obtain ⟨_, _, h, rfl, rfl⟩ := h
    simp only [call, Pan.run_bind, link_run h]; rfl
  case unlink x n =>
    obtain ⟨x, rfl, rfl⟩ := hc
    simp only [exec, Option.bind_eq_bind, Option.bind_eq_some_iff, Prod.exists, Option.some.injEq, Prod.mk.injEq] at h
    obtain ⟨_, _, h, rfl, rfl⟩ := h
    simp only [call, Pan.run_bind, unlink_run h]; rfl
  case len x =>
    subst hc
    simp only [exec, Option.bind_eq_bind, Option.bind_eq_some_iff, Prod.exists, Option.some.injEq, Prod.mk.injEq] at h
    obtain ⟨_, _, h, rfl, rfl⟩ := h
    cases x with
    | none => cases h; rfl
    | some x =>
      simp only [Ring.len, Option.bind_eq_bind, Option.bind_eq_some_iff, Option.some.injEq, Prod.mk.injEq] at h
      obtain ⟨_, h, rfl, rfl⟩ := h
      simp only [call, len, reduceCtorEq, if_false, Pan.run_bind, next_run]
      rw [loop_run (fun _ _ => rfl) h]
      rfl
  case do_ x =>
    subst hc
    simp only [exec, Option.bind_eq_bind, Option.bind_eq_some_iff, Prod.exists, Option.some.injEq, Prod.mk.injEq] at h
    obtain ⟨_, _, h, rfl, rfl⟩ := h
    cases x with
    | none => cases h; rfl
    | some x =>
      simp only [Ring.do_, Option.bind_eq_bind, Option.bind_eq_some_iff, Option.some.injEq, Prod.mk.injEq] at h
      obtain ⟨_, h, rfl, rfl⟩ := h
      simp only [call, do_, reduceCtorEq, if_false, Pan.run_bind, next_run, vl, Pan.run_read]
      rw [loop_run (fun _ _ => rfl) h]
      rfl
  case getValue x =>
    obtain ⟨x, rfl, rfl⟩ := hc
    cases h
    rfl
  case setValue x v =>
    obtain ⟨x, rfl, rfl⟩ := hc
    cases h
    rfl

/-- The calls that panic: those on nil, but not `Len`, `Do` and `Unlink` of nothing. -/
def Panics : NOp T → Prop
  | .next r | .prev r | .move r _ | .link r _ | .getValue r | .setValue r _ => r = none
  | .unlink r n => r = none ∧ 0 < n
  | .len _ | .do_ _ => False

/-- The calls on nil that return, and what. -/
def NilRes : NOp T → Res T → Prop
  | .unlink none n, x => n ≤ 0 ∧ x = .elem none
  | .len none, x => x = .int 0
  | .do_ none, x => x = .vals []
  | _, _ => False

/-- **C189**: calls that panic because of nil change nothing, in any memory. -/
theorem C189_panics (m : Mem T) (fuel : Nat) (c : NOp T) (h : Panics c) : (call fuel c).run m = (m, none) := by
  cases c <;> simp only [Panics] at h
  case unlink r n =>
    obtain ⟨rfl, h⟩ := h
    have : ¬ n ≤ 0 := by omega
    simp only [call, unlink, this, if_false]
    rfl
  all_goals subst h; rfl

/-- **C189**: the other calls on nil do nothing. -/
theorem C189_nil (m : Mem T) (fuel : Nat) (c : NOp T) (x : Res T) (h : NilRes c x) : (call fuel c).run m = (m, some x) := by
  cases c
  case len r => cases r with
    | none => cases h; rfl
    | some r => cases h
  case do_ r => cases r with
    | none => cases h; rfl
    | some r => cases h
  case unlink r n => cases r with
    | none => obtain ⟨h, rfl⟩ := h; simp only [call, unlink, h, if_true]; rfl
    | some r => cases h
  all_goals cases h

/-- The elements of a call exist. -/
def Args (m : Mem T) (c : NOp T) : Prop := ∀ op, c.plain = some op → m.Args op

/-- **C189**: in every state that calls lead to, the calls on `Panics` are all that panic; the others end and return. -/
theorem C189_total {dflt : T} {h : List (Op T × Res T)} {m : Mem T} (hr : MRun dflt h m) (c : NOp T) (ha : Args m c) :
    ¬ Panics c ↔ ∃ m' r F, ∀ fuel, F ≤ fuel → (call fuel c).run m = (m', some r) := by
  constructor
  · intro hp
    cases hc : c.plain with
    | some op =>
      obtain ⟨r, m', F, h1⟩ := ring_total hr op (ha op hc)
      exact ⟨m', r, F, fun fuel hf => C189_some hc (h1 fuel hf)⟩
    | none =>
      cases c <;> simp only [NOp.plain, Option.map_eq_none_iff, reduceCtorEq] at hc <;> subst hc <;> simp only [Panics, not_true_eq_false, true_and] at hp
      case unlink n => exact ⟨m, .elem none, 0, fun fuel _ => C189_nil m fuel _ _ ⟨by omega, rfl⟩⟩
  · rintro ⟨m', r, F, h1⟩ hp
    have := h1 F (Nat.le_refl _)
    rw [C189_panics m F c hp] at this
    cases this

/-- A ring of three. -/
def three : Mem Nat := (Ring.new 0 (Mem.empty 0) 3).1

example : ((call 5 (.len none)).run three).2 = some (.int 0) := rfl
example : ((call 5 (.len (some 1))).run three).2 = some (.int 3) := rfl
example : ((call 5 (.move none 0)).run three).2 = none := rfl
example : ((call 5 (.unlink none (-3))).run three).2 = some (.elem none) := rfl
example : ((call 5 (.unlink none 1)).run three).2 = none := rfl
example : ((call 5 (.unlink (some 0) 1)).run three).2 = some (.elem (some 1)) := rfl
example : ((call 5 (.link (some 0) none)).run three).2 = some (.elem (some 1)) := rfl

end Verif.Ring.Nil
