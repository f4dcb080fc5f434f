import Verif.Lib.Pan
import Verif.Dllist.Stale
/-!
# Calls on nil lists and with nil elements (C188)

`Pan` keeps what a panic leaves.
-/
namespace Verif.Dllist.Nil
open Verif.Dllist
open Verif.Dllist.Spec (Op Res)
variable {T : Type}

abbrev P (T α : Type) := Pan (Mem T) α

/-- The fields of `*p`: element.go:3-9. -/
def nx : Option Ptr → P T (Option Ptr)
  | none => Pan.raise
  | some p => Pan.read (·.next p)
def pv : Option Ptr → P T (Option Ptr)
  | none => Pan.raise
  | some p => Pan.read (·.prev p)
def ow : Option Ptr → P T (Option Nat)
  | none => Pan.raise
  | some p => Pan.read (·.owner p)
def vl : Option Ptr → P T (Option T)
  | none => Pan.raise
  | some p => Pan.read (value · p)

/-- `p.next = v`, `p.prev = v`, `p.list = l`. -/
def putN (p v : Option Ptr) : P T Unit :=
  match p with
  | none => Pan.raise
  | some p => Pan.change (·.setNext p v)
def putP (p v : Option Ptr) : P T Unit :=
  match p with
  | none => Pan.raise
  | some p => Pan.change (·.setPrev p v)
def putO (p : Option Ptr) (l : Option Nat) : P T Unit :=
  match p with
  | none => Pan.raise
  | some p => Pan.change (·.setOwner p l)

/-- `l.len`, `l.len += d`, `&l.root`. -/
def ln : Option Nat → P T Int
  | none => Pan.raise
  | some l => Pan.read (·.len l)
def addLen (l : Option Nat) (d : Int) : P T Unit :=
  match l with
  | none => Pan.raise
  | some l => Pan.change fun m => m.setLen l (m.len l + d)
def rt : Option Nat → P T (Option Ptr)
  | none => Pan.raise
  | some l => pure (some (.root l))

/-- `Clear`: dllist.go:18-24; `lazyInit`: dllist.go:27-31. -/
def clear : Option Nat → P T Unit
  | none => Pan.raise
  | some l => Pan.change (Dllist.clear · l)
def lazyInit : Option Nat → P T Unit
  | none => Pan.raise
  | some l => Pan.change (Dllist.lazyInit · l)

/-- `Get(i)`: dllist.go:33-54. -/
def get (l : Option Nat) (i : Int) : P T (Option Ptr) := do
  if i < 0 then pure none
  else if i ≥ (← ln l) then pure none
  else match l with
    | none => Pan.raise
    | some l => Pan.try_ (Dllist.get · l i)

/-- `Front`, `Back`: dllist.go:58-72. -/
def front (l : Option Nat) : P T (Option Ptr) := do
  if (← ln l) = 0 then pure none
  else
    lazyInit l
    nx (← rt l)
def back (l : Option Nat) : P T (Option Ptr) := do
  if (← ln l) = 0 then pure none
  else
    lazyInit l
    pv (← rt l)

/-- `insert`: dllist.go:74-82. -/
def insert (l : Option Nat) (e at_ : Option Ptr) : P T Unit := do
  putP e at_
  putN e (← nx at_)
  putN (← pv e) e
  putP (← nx e) e
  putO e l
  addLen l 1

/-- `insertValue`: dllist.go:84-86; `Pan.read` and `change` stand for the allocation. -/
def insertValue (l : Option Nat) (v : T) (at_ : Option Ptr) : P T (Option Ptr) := do
  let n ← Pan.read (·.fresh)
  Pan.change fun m => { m with fresh := n + 1, val := upd m.val n (some v) }
  insert l (some (.node n)) at_
  pure (some (.node n))

/-- `remove`: dllist.go:88-95. -/
def remove (l : Option Nat) (e : Option Ptr) : P T Unit := do
  putN (← pv e) (← nx e)
  putP (← nx e) (← pv e)
  putN e none
  putP e none
  putO e none
  addLen l (-1)

/-- `move`: dllist.go:97-108. -/
def move (e at_ : Option Ptr) : P T Unit := do
  if e = at_ then pure ()
  else
    putN (← pv e) (← nx e)
    putP (← nx e) (← pv e)
    putP e at_
    putN e (← nx at_)
    putN (← pv e) e
    putP (← nx e) e

/-- A pointer to an element. -/
def el (e : Option Nat) : Option Ptr := e.map .node

/-- `Remove(e)`: dllist.go:110-115. -/
def lRemove (l e : Option Nat) : P T (Option T) := do
  if (← ow (el e)) = l then remove l (el e)
  vl (el e)

/-- `PushFront`, `PushBack`: dllist.go:117-125. -/
def pushFront (l : Option Nat) (v : T) : P T (Option Ptr) := do
  lazyInit l
  insertValue l v (← rt l)
def pushBack (l : Option Nat) (v : T) : P T (Option Ptr) := do
  lazyInit l
  insertValue l v (← pv (← rt l))

/-- `InsertBefore`, `InsertAfter`: dllist.go:127-141. -/
def insertBefore (l : Option Nat) (v : T) (mark : Option Nat) : P T (Option Ptr) := do
  if (← ow (el mark)) ≠ l then pure none else insertValue l v (← pv (el mark))
def insertAfter (l : Option Nat) (v : T) (mark : Option Nat) : P T (Option Ptr) := do
  if (← ow (el mark)) ≠ l then pure none else insertValue l v (el mark)

/-- `MoveToFront`, `MoveToBack`: dllist.go:143-157. -/
def moveToFront (l e : Option Nat) : P T Unit := do
  if (← ow (el e)) ≠ l then pure ()
  else if (← nx (← rt l)) = el e then pure ()
  else
    lazyInit l
    move (el e) (← rt l)
def moveToBack (l e : Option Nat) : P T Unit := do
  if (← ow (el e)) ≠ l then pure ()
  else if (← pv (← rt l)) = el e then pure ()
  else
    lazyInit l
    move (el e) (← pv (← rt l))

/-- `MoveBefore`, `MoveAfter`: dllist.go:159-171. -/
def moveBefore (l e mark : Option Nat) : P T Unit := do
  if (← ow (el e)) ≠ l then pure ()
  else if e = mark then pure ()
  else if (← ow (el mark)) ≠ l then pure ()
  else move (el e) (← pv (el mark))
def moveAfter (l e mark : Option Nat) : P T Unit := do
  if (← ow (el e)) ≠ l then pure ()
  else if e = mark then pure ()
  else if (← ow (el mark)) ≠ l then pure ()
  else move (el e) (el mark)

/-- `Swap`: dllist.go:205-233. -/
def swap (l a b : Option Nat) : P T Unit := do
  if (← ow (el a)) ≠ l then pure ()
  else if (← ow (el b)) ≠ l then pure ()
  else if a = b then pure ()
  else if (← nx (el a)) = el b then
    putN (← pv (el a)) (el b)
    putP (← nx (el b)) (el a)
    putN (el a) (← nx (el b))
    putP (el b) (← pv (el a))
    putP (el a) (el b)
    putN (el b) (el a)
  else if (← nx (el b)) = el a then
    putN (← pv (el b)) (el a)
    putP (← nx (el a)) (el b)
    putN (el b) (← nx (el a))
    putP (el a) (← pv (el b))
    putP (el b) (el a)
    putN (el a) (el b)
  else
    putN (← pv (el a)) (el b)
    putP (← nx (el a)) (el b)
    putN (← pv (el b)) (el a)
    putP (← nx (el b)) (el a)
    let x ← pv (el b)
    let y ← pv (el a)
    putP (el a) x
    putP (el b) y
    let x ← nx (el b)
    let y ← nx (el a)
    putN (el a) x
    putN (el b) y

/-- `Next`, `Prev`: element.go:11-23. -/
def elNext (e : Option Nat) : P T (Option Ptr) := do
  let p ← nx (el e)
  if (← ow (el e)) = none then pure none
  else if p ≠ (← rt (← ow (el e))) then pure p
  else pure none
def elPrev (e : Option Nat) : P T (Option Ptr) := do
  let p ← pv (el e)
  if (← ow (el e)) = none then pure none
  else if p ≠ (← rt (← ow (el e))) then pure p
  else pure none

/-- `(*Element).Remove`, `InsertAfter`, `InsertBefore`: element.go:25-46. -/
def elRemove (e : Option Nat) : P T (Option T) := do
  let o ← ow (el e)
  if o ≠ none then remove o (el e)
  putN (el e) none
  putP (el e) none
  vl (el e)
def elInsertAfter (e : Option Nat) (v : T) : P T (Option Ptr) := do
  if (← ow (el e)) = none then pure none else insertValue (← ow (el e)) v (el e)
def elInsertBefore (e : Option Nat) (v : T) : P T (Option Ptr) := do
  if (← ow (el e)) = none then pure none else insertValue (← ow (el e)) v (← pv (el e))

/-- Calls with pointers that may be nil. -/
inductive NOp (T : Type)
  | clear (l : Option Nat) | len (l : Option Nat) | get (l : Option Nat) (i : Int) | front (l : Option Nat) | back (l : Option Nat)
  | pushFront (l : Option Nat) (v : T) | pushBack (l : Option Nat) (v : T)
  | insertBefore (l : Option Nat) (v : T) (mark : Option Nat) | insertAfter (l : Option Nat) (v : T) (mark : Option Nat)
  | remove (l e : Option Nat)
  | moveToFront (l e : Option Nat) | moveToBack (l e : Option Nat)
  | moveBefore (l e mark : Option Nat) | moveAfter (l e mark : Option Nat)
  | swap (l a b : Option Nat)
  | elNext (e : Option Nat) | elPrev (e : Option Nat)
  | elRemove (e : Option Nat) | elInsertBefore (e : Option Nat) (v : T) | elInsertAfter (e : Option Nat) (v : T)

/-- A call. -/
def call : NOp T → P T (Res T)
  | .clear l => do clear l; pure .unit
  | .len l => do pure (.int (← ln l))
  | .get l i => do pure (resPtr (← get l i))
  | .front l => do pure (resPtr (← front l))
  | .back l => do pure (resPtr (← back l))
  | .pushFront l v => do pure (resPtr (← pushFront l v))
  | .pushBack l v => do pure (resPtr (← pushBack l v))
  | .insertBefore l v x => do pure (resPtr (← insertBefore l v x))
  | .insertAfter l v x => do pure (resPtr (← insertAfter l v x))
  | .remove l e => do pure (.val (← lRemove l e))
  | .moveToFront l e => do moveToFront l e; pure .unit
  | .moveToBack l e => do moveToBack l e; pure .unit
  | .moveBefore l e x => do moveBefore l e x; pure .unit
  | .moveAfter l e x => do moveAfter l e x; pure .unit
  | .swap l a b => do swap l a b; pure .unit
  | .elNext e => do pure (resPtr (← elNext e))
  | .elPrev e => do pure (resPtr (← elPrev e))
  | .elRemove e => do pure (.val (← elRemove e))
  | .elInsertBefore e v => do pure (resPtr (← elInsertBefore e v))
  | .elInsertAfter e v => do pure (resPtr (← elInsertAfter e v))

/-- The same call with pointers that are not nil. -/
def plainOp : Op T → Option (NOp T)
  | .clear l => some (.clear (some l))
  | .len l => some (.len (some l))
  | .get l i => some (.get (some l) i)
  | .front l => some (.front (some l))
  | .back l => some (.back (some l))
  | .pushFront l v => some (.pushFront (some l) v)
  | .pushBack l v => some (.pushBack (some l) v)
  | .insertBefore l v x => some (.insertBefore (some l) v (some x))
  | .insertAfter l v x => some (.insertAfter (some l) v (some x))
  | .remove l e => some (.remove (some l) (some e))
  | .moveToFront l e => some (.moveToFront (some l) (some e))
  | .moveToBack l e => some (.moveToBack (some l) (some e))
  | .moveBefore l e x => some (.moveBefore (some l) (some e) (some x))
  | .moveAfter l e x => some (.moveAfter (some l) (some e) (some x))
  | .swap l a b => some (.swap (some l) (some a) (some b))
  | .elNext e => some (.elNext (some e))
  | .elPrev e => some (.elPrev (some e))
  | .elRemove e => some (.elRemove (some e))
  | .elInsertBefore e v => some (.elInsertBefore (some e) v)
  | .elInsertAfter e v => some (.elInsertAfter (some e) v)
  | _ => none

/-! ## Without nil: the model of `Model.lean` -/

theorem run_read' {α : Type} (f : Mem T → α) (m : Mem T) : (Pan.read f).run m = (m, some (f m)) := rfl

macro "pan" : tactic => `(tactic| simp only [Pan.run_bind, Pan.run_pure, Pan.run_raise, Pan.run_change, Pan.run_read, nx, pv, ow, vl, putN, putP, putO,
  ln, addLen, rt, el, Option.map_some, Option.map_none])

theorem insert_run {m m' : Mem T} {l : Nat} {e : Ptr} {at_ : Option Ptr} (h : Dllist.insert m l e at_ = some m') :
    (insert (some l) (some e) at_).run m = (m', some ()) := by
  simp only [Dllist.insert, Option.bind_eq_bind, Option.bind_eq_some_iff] at h
  obtain ⟨a, rfl, p, hp, n, hn, h⟩ := h
  simp only [Option.some.injEq] at h; subst h
  simp only [insert]
  pan
  rw [hp]
  pan
  rw [hn]
  pan

theorem insertValue_run {m m' : Mem T} {l : Nat} {v : T} {at_ : Option Ptr} {n : Nat} (h : Dllist.insertValue m l v at_ = some (m', n)) :
    (insertValue (some l) v at_).run m = (m', some (some (.node n))) := by
  simp only [Dllist.insertValue, Option.bind_eq_bind, Option.bind_eq_some_iff] at h
  obtain ⟨m1, h1, h⟩ := h
  simp only [Option.some.injEq, Prod.mk.injEq] at h; obtain ⟨rfl, rfl⟩ := h
  simp only [insertValue]
  pan
  rw [insert_run h1]

theorem remove_run {m m' : Mem T} {l : Nat} {e : Ptr} (h : Dllist.remove m l e = some m') :
    (remove (some l) (some e)).run m = (m', some ()) := by
  simp only [Dllist.remove, Option.bind_eq_bind, Option.bind_eq_some_iff] at h
  obtain ⟨p, hp, n, hn, h⟩ := h
  simp only [Option.some.injEq] at h; subst h
  simp only [remove]
  pan
  rw [hp]
  pan
  rw [hn]
  pan
  rfl

theorem move_run {m m' : Mem T} {e : Ptr} {at_ : Option Ptr} (h : Dllist.move m e at_ = some m') :
    (move (some e) at_).run m = (m', some ()) := by
  simp only [Dllist.move] at h
  simp only [move]
  split at h
  next he => rw [if_pos he]; cases h; rfl
  next he =>
    rw [if_neg he]
    simp only [Option.bind_eq_bind, Option.bind_eq_some_iff] at h
    obtain ⟨p, hp, n, hn, a, rfl, q, hq, r, hr, h⟩ := h
    simp only [Option.some.injEq] at h; subst h
    pan
    rw [hp]
    pan
    rw [hn]
    pan
    rw [hq]
    pan
    rw [hr]
    rfl

theorem swap_run {m m' : Mem T} {l a b : Nat} (h : Dllist.swap m l a b = some m') :
    (swap (some l) (some a) (some b)).run m = (m', some ()) := by
  simp only [Dllist.swap] at h
  simp only [swap]
  pan
  by_cases h1 : m.owner (.node a) = some l
  case neg => rw [if_pos (.inl h1)] at h; cases h; simp only [ne_eq, h1, not_false_eq_true, if_true, Pan.run_pure]
  simp only [ne_eq, h1, not_true_eq_false, if_false]
  pan
  by_cases h2 : m.owner (.node b) = some l
  case neg => rw [if_pos (.inr (.inl h2))] at h; cases h; simp only [h2, not_false_eq_true, if_true, Pan.run_pure]
  simp only [h2, not_true_eq_false, if_false]
  by_cases h3 : a = b
  case pos => rw [if_pos (.inr (.inr h3))] at h; cases h; rw [if_pos (by rw [h3])]; rfl
  rw [if_neg (by simp [h1, h2, h3])] at h
  rw [if_neg (by simpa using h3)]
  pan
  split at h
  next h4 =>
    simp only [h4, if_true]
    simp only [Option.bind_eq_bind, Option.bind_eq_some_iff] at h
    obtain ⟨p, hp, n, hn, h⟩ := h
    simp only [Option.some.injEq] at h; subst h
    pan
    rw [hp]
    pan
    rw [hn]
    rfl
  next h4 =>
    simp only [h4, if_false]
    pan
    split at h
    next h5 =>
      simp only [h5, if_true]
      simp only [Option.bind_eq_bind, Option.bind_eq_some_iff] at h
      obtain ⟨p, hp, n, hn, h⟩ := h
      simp only [Option.some.injEq] at h; subst h
      pan
      rw [hp]
      pan
      rw [hn]
      rfl
    next h5 =>
      simp only [h5, if_false]
      simp only [Option.bind_eq_bind, Option.bind_eq_some_iff] at h
      obtain ⟨p, hp, n, hn, q, hq, r, hr, h⟩ := h
      simp only [Option.some.injEq] at h; subst h
      pan
      rw [hp]
      pan
      rw [hn]
      pan
      rw [hq]
      pan
      rw [hr]
      rfl

macro "opt" h:ident : tactic => `(tactic| simp only [exec, Option.bind_eq_bind, Option.bind_eq_some_iff, Prod.exists, Option.some.injEq, Prod.mk.injEq] at $h:ident)

/-- **C188**: without nil, calls do what C28 to C36 and C140 are about. -/
theorem C188_some {m m' : Mem T} {op : Op T} {r : Res T} {c : NOp T} (hc : plainOp op = some c) (h : exec 0 m op = some (m', r)) :
    (call c).run m = (m', some r) := by
  cases op <;> simp only [plainOp, Option.some.injEq, reduceCtorEq] at hc <;> subst hc <;> opt h <;> simp only [call]
  case clear l => obtain ⟨rfl, rfl⟩ := h; rfl
  case len l => obtain ⟨rfl, rfl⟩ := h; rfl
  case pushFront l v =>
    obtain ⟨m1, n, h, rfl, rfl⟩ := h
    simp only [Dllist.pushFront] at h
    simp only [pushFront, lazyInit]
    pan
    rw [insertValue_run h]; rfl
  case pushBack l v =>
    obtain ⟨m1, n, h, rfl, rfl⟩ := h
    simp only [Dllist.pushBack] at h
    simp only [pushBack, lazyInit]
    pan
    rw [insertValue_run h]; rfl
  case insertBefore l v x =>
    obtain ⟨m1, n, h, rfl, rfl⟩ := h
    simp only [Dllist.insertBefore] at h
    simp only [insertBefore]
    pan
    split at h
    next h1 => simp only [Option.some.injEq, Prod.mk.injEq] at h; obtain ⟨rfl, rfl⟩ := h; simp only [h1, ne_eq, not_false_eq_true, if_true]; rfl
    next h1 =>
      simp only [Option.bind_eq_bind, Option.bind_eq_some_iff, Prod.exists, Option.some.injEq, Prod.mk.injEq] at h
      obtain ⟨m2, k, h, rfl, rfl⟩ := h
      simp only [h1, if_false]
      pan
      rw [insertValue_run h]; rfl
  case insertAfter l v x =>
    obtain ⟨m1, n, h, rfl, rfl⟩ := h
    simp only [Dllist.insertAfter] at h
    simp only [insertAfter]
    pan
    split at h
    next h1 => simp only [Option.some.injEq, Prod.mk.injEq] at h; obtain ⟨rfl, rfl⟩ := h; simp only [h1, ne_eq, not_false_eq_true, if_true]; rfl
    next h1 =>
      simp only [Option.bind_eq_bind, Option.bind_eq_some_iff, Prod.exists, Option.some.injEq, Prod.mk.injEq] at h
      obtain ⟨m2, k, h, rfl, rfl⟩ := h
      simp only [h1, if_false]
      rw [insertValue_run h]; rfl
  case remove l e =>
    obtain ⟨m1, n, h, rfl, rfl⟩ := h
    simp only [Dllist.lRemove] at h
    simp only [lRemove]
    pan
    split at h
    next h1 =>
      simp only [Option.bind_eq_bind, Option.bind_eq_some_iff, Option.some.injEq, Prod.mk.injEq] at h
      obtain ⟨m2, h, rfl, rfl⟩ := h
      simp only [h1, if_true]; pan; rw [remove_run h]; rfl
    next h1 => cases h; simp only [h1, if_false]; rfl
  case moveToFront l e =>
    obtain ⟨m1, h, rfl, rfl⟩ := h
    simp only [Dllist.moveToFront] at h
    simp only [moveToFront, lazyInit]
    pan
    by_cases h1 : m.owner (.node e) = some l
    · simp only [h1, ne_eq, not_true_eq_false, if_false, false_or] at h ⊢
      pan
      split at h
      next h2 => cases h; simp only [h2, if_true]; rfl
      next h2 => simp only [h2, if_false]; pan; rw [move_run h]
    · rw [if_pos (.inl h1)] at h; cases h; simp only [ne_eq, h1, not_false_eq_true, if_true]; rfl
  case moveToBack l e =>
    obtain ⟨m1, h, rfl, rfl⟩ := h
    simp only [Dllist.moveToBack] at h
    simp only [moveToBack, lazyInit]
    pan
    by_cases h1 : m.owner (.node e) = some l
    · simp only [h1, ne_eq, not_true_eq_false, if_false, false_or] at h ⊢
      pan
      split at h
      next h2 => cases h; simp only [h2, if_true]; rfl
      next h2 => simp only [h2, if_false]; pan; rw [move_run h]
    · rw [if_pos (.inl h1)] at h; cases h; simp only [ne_eq, h1, not_false_eq_true, if_true]; rfl
  case moveBefore l e x =>
    obtain ⟨m1, h, rfl, rfl⟩ := h
    simp only [Dllist.moveBefore] at h
    simp only [moveBefore]
    pan
    by_cases h1 : m.owner (.node e) = some l
    · simp only [h1, ne_eq, not_true_eq_false, if_false, false_or, Option.some.injEq] at h ⊢
      by_cases h2 : e = x
      · rw [if_pos (.inl h2)] at h; cases h; simp only [h2, if_true]; rfl
      · simp only [h2, false_or, if_false] at h ⊢
        pan
        split at h
        next h3 => cases h; simp only [h3, not_false_eq_true, if_true]; rfl
        next h3 => simp only [h3, if_false]; pan; rw [move_run h]
    · rw [if_pos (.inl h1)] at h; cases h; simp only [ne_eq, h1, not_false_eq_true, if_true]; rfl
  case moveAfter l e x =>
    obtain ⟨m1, h, rfl, rfl⟩ := h
    simp only [Dllist.moveAfter] at h
    simp only [moveAfter]
    pan
    by_cases h1 : m.owner (.node e) = some l
    · simp only [h1, ne_eq, not_true_eq_false, if_false, false_or, Option.some.injEq] at h ⊢
      by_cases h2 : e = x
      · rw [if_pos (.inl h2)] at h; cases h; simp only [h2, if_true]; rfl
      · simp only [h2, false_or, if_false] at h ⊢
        pan
        split at h
        next h3 => cases h; simp only [h3, not_false_eq_true, if_true]; rfl
        next h3 => simp only [h3, if_false]; rw [move_run h]
    · rw [if_pos (.inl h1)] at h; cases h; simp only [ne_eq, h1, not_false_eq_true, if_true]; rfl
  case swap l a b =>
    obtain ⟨m1, h, rfl, rfl⟩ := h
    pan
    rw [swap_run h]
  case elRemove e =>
    obtain ⟨m1, n, h, rfl, rfl⟩ := h
    simp only [Dllist.elRemove] at h
    simp only [elRemove]
    pan
    cases ho : m.owner (.node e) with
    | none => rw [ho] at h; cases h; rfl
    | some l =>
      rw [ho] at h
      simp only [Option.bind_eq_bind, Option.bind_eq_some_iff, Option.some.injEq, Prod.mk.injEq] at h
      obtain ⟨m2, h, rfl, rfl⟩ := h
      simp only [ne_eq, reduceCtorEq, not_false_eq_true, if_true]
      pan
      rw [remove_run h]; rfl
  case elInsertBefore e v =>
    obtain ⟨m1, n, h, rfl, rfl⟩ := h
    simp only [Dllist.elInsertBefore] at h
    simp only [elInsertBefore]
    pan
    cases ho : m.owner (.node e) with
    | none => rw [ho] at h; simp only [Option.some.injEq, Prod.mk.injEq] at h; obtain ⟨rfl, rfl⟩ := h; rfl
    | some l =>
      rw [ho] at h
      simp only [Option.bind_eq_bind, Option.bind_eq_some_iff, Prod.exists, Option.some.injEq, Prod.mk.injEq] at h
      obtain ⟨m2, k, h, rfl, rfl⟩ := h
      simp only [reduceCtorEq, if_false]
      pan
      rw [ho, insertValue_run h]; rfl
  case elInsertAfter e v =>
    obtain ⟨m1, n, h, rfl, rfl⟩ := h
    simp only [Dllist.elInsertAfter] at h
    simp only [elInsertAfter]
    pan
    cases ho : m.owner (.node e) with
    | none => rw [ho] at h; simp only [Option.some.injEq, Prod.mk.injEq] at h; obtain ⟨rfl, rfl⟩ := h; rfl
    | some l =>
      rw [ho] at h
      simp only [Option.bind_eq_bind, Option.bind_eq_some_iff, Prod.exists, Option.some.injEq, Prod.mk.injEq] at h
      obtain ⟨m2, k, h, rfl, rfl⟩ := h
      simp only [reduceCtorEq, if_false]
      pan
      rw [ho, insertValue_run h]; rfl
  case elNext e =>
    obtain ⟨rfl, rfl⟩ := h
    simp only [elNext, Dllist.elNext]
    pan
    cases ho : m.owner (.node e) with
    | none => rfl
    | some l =>
      simp only [reduceCtorEq, if_false]
      pan
      rw [ho]
      pan
      by_cases hn : m.next (.node e) = some (.root l)
      · simp only [hn, ne_eq, not_true_eq_false, if_false, if_true]; rfl
      · simp only [hn, ne_eq, not_false_eq_true, if_false, if_true]; rfl
  case elPrev e =>
    obtain ⟨rfl, rfl⟩ := h
    simp only [elPrev, Dllist.elPrev]
    pan
    cases ho : m.owner (.node e) with
    | none => rfl
    | some l =>
      simp only [reduceCtorEq, if_false]
      pan
      rw [ho]
      pan
      by_cases hn : m.prev (.node e) = some (.root l)
      · simp only [hn, ne_eq, not_true_eq_false, if_false, if_true]; rfl
      · simp only [hn, ne_eq, not_false_eq_true, if_false, if_true]; rfl
  case front l =>
    obtain ⟨rfl, rfl⟩ := h
    simp only [front, Dllist.front, lazyInit]
    pan
    by_cases h1 : m.len l = 0
    · simp only [h1, if_true]; rfl
    · simp only [h1, if_false]; rfl
  case back l =>
    obtain ⟨rfl, rfl⟩ := h
    simp only [back, Dllist.back, lazyInit]
    pan
    by_cases h1 : m.len l = 0
    · simp only [h1, if_true]; rfl
    · simp only [h1, if_false]; rfl
  case get l i =>
    obtain ⟨m1, p, h, rfl, rfl⟩ := h
    simp only [get]
    by_cases h1 : i < 0
    · simp only [Dllist.get, if_pos (Or.inl h1)] at h; cases h; simp only [h1, if_true]; rfl
    · simp only [h1, if_false]
      pan
      by_cases h2 : i ≥ m.len l
      · simp only [Dllist.get, if_pos (Or.inr h2)] at h; cases h; simp only [h2, if_true]; rfl
      · simp only [h2, if_false, Pan.try_, h]

/-! ## Specification -/

/-- `e` is an element that says it is in list `l`, or in no list if `l` is nil. -/
def In (m : Mem T) (l e : Option Nat) : Prop := ∃ n, e = some n ∧ m.owner (.node n) = l

/-- The calls that panic. -/
def Panics (m : Mem T) : NOp T → Prop
  | .clear l | .len l | .front l | .back l | .pushFront l _ | .pushBack l _ => l = none
  | .get l i => l = none ∧ 0 ≤ i
  | .insertBefore l _ e | .insertAfter l _ e | .remove l e | .moveToFront l e | .moveToBack l e => e = none ∨ l = none ∧ In m none e
  | .moveBefore l e x | .moveAfter l e x => e = none ∨ In m l e ∧ e ≠ x ∧ (x = none ∨ l = none ∧ In m none x)
  | .swap l a b => a = none ∨ In m l a ∧ (b = none ∨ l = none ∧ In m none b ∧ a ≠ b)
  | .elNext e | .elPrev e | .elRemove e | .elInsertBefore e _ | .elInsertAfter e _ => e = none

theorem noPanic {m : Mem T} (h : Any m) (op : Op T) {c : NOp T} (hp : plain op = true) (hc : plainOp op = some c) : ((call c).run m).2 ≠ none := by
  obtain ⟨m', r, h1⟩ := C140_returns h hp
  rw [C188_some hc (h1 0)]
  simp

macro "nils" "[" ts:term,* "]" : tactic => do
  let t : Lean.TSyntaxArray `term := ts.getElems
  `(tactic| simp [call, Panics, In, Pan.run_bind, Pan.run_pure, Pan.run_raise, Pan.run_change, Pan.run_read, nx, pv, ow, vl, putN, putP, putO,
  ln, addLen, rt, el, clear, lazyInit, get, front, back, insert, insertValue, remove, move, lRemove, pushFront, pushBack, insertBefore, insertAfter,
  moveToFront, moveToBack, moveBefore, moveAfter, swap, elNext, elPrev, elRemove, elInsertAfter, elInsertBefore, upd, Mem.setNext, Mem.setPrev, Mem.setOwner, $[$t:term],*])

/-- **C188**: which calls panic because of nil, in every state that calls lead to: those on nil lists, except `Get` of a negative index, and
those of element methods on nil; a method that is given elements looks at them before the list, so on a nil list it does nothing if the first
of them is in a list. -/
theorem C188_panics {m : Mem T} (h : Any m) (c : NOp T) : ((call c).run m).2 = none ↔ Panics m c := by
  have idle := h.sound.idle
  cases c
  case clear l => cases l with
    | none => nils []
    | some l => simp only [noPanic h (.clear l) rfl rfl, Panics, reduceCtorEq]
  case len l => cases l with
    | none => nils []
    | some l => simp only [noPanic h (.len l) rfl rfl, Panics, reduceCtorEq]
  case front l => cases l with
    | none => nils []
    | some l => simp only [noPanic h (.front l) rfl rfl, Panics, reduceCtorEq]
  case back l => cases l with
    | none => nils []
    | some l => simp only [noPanic h (.back l) rfl rfl, Panics, reduceCtorEq]
  case pushFront l v => cases l with
    | none => nils []
    | some l => simp only [noPanic h (.pushFront l v) rfl rfl, Panics, reduceCtorEq]
  case pushBack l v => cases l with
    | none => nils []
    | some l => simp only [noPanic h (.pushBack l v) rfl rfl, Panics, reduceCtorEq]
  case get l i => cases l with
    | none =>
      by_cases hi : i < 0
      · have : ¬ 0 ≤ i := by omega
        simp [call, get, hi, Panics, Pan.run_bind, Pan.run_pure, this]
      · have : 0 ≤ i := by omega
        simp [call, get, hi, Panics, Pan.run_bind, ln, Pan.run_raise, this]
    | some l => simp only [noPanic h (.get l i) rfl rfl, Panics, reduceCtorEq, false_and]
  case insertBefore l v e => cases e with
    | none => nils []
    | some e => cases l with
      | some l => simp only [noPanic h (.insertBefore l v e) rfl rfl, Panics, reduceCtorEq, false_and, or_self]
      | none => cases ho : m.owner (.node e) with
        | none => nils [ho, (idle e ho).1, (idle e ho).2]
        | some k => nils [ho]
  case insertAfter l v e => cases e with
    | none => nils []
    | some e => cases l with
      | some l => simp only [noPanic h (.insertAfter l v e) rfl rfl, Panics, reduceCtorEq, false_and, or_self]
      | none => cases ho : m.owner (.node e) with
        | none =>
          by_cases hf : m.fresh = e
          · nils [ho, hf, (idle e ho).1, (idle e ho).2]
          · nils [ho, hf, (idle e ho).1, (idle e ho).2]
        | some k => nils [ho]
  case remove l e => cases e with
    | none => nils []
    | some e => cases l with
      | some l => simp only [noPanic h (.remove l e) rfl rfl, Panics, reduceCtorEq, false_and, or_self]
      | none => cases ho : m.owner (.node e) with
        | none => nils [ho, (idle e ho).1, (idle e ho).2]
        | some k => nils [ho]
  case moveToFront l e => cases e with
    | none => nils []
    | some e => cases l with
      | some l => simp only [noPanic h (.moveToFront l e) rfl rfl, Panics, reduceCtorEq, false_and, or_self]
      | none => cases ho : m.owner (.node e) with
        | none => nils [ho]
        | some k => nils [ho]
  case moveToBack l e => cases e with
    | none => nils []
    | some e => cases l with
      | some l => simp only [noPanic h (.moveToBack l e) rfl rfl, Panics, reduceCtorEq, false_and, or_self]
      | none => cases ho : m.owner (.node e) with
        | none => nils [ho]
        | some k => nils [ho]
  case elNext e => cases e with
    | none => nils []
    | some e => simp only [noPanic h (.elNext e) rfl rfl, Panics, reduceCtorEq]
  case elPrev e => cases e with
    | none => nils []
    | some e => simp only [noPanic h (.elPrev e) rfl rfl, Panics, reduceCtorEq]
  case elRemove e => cases e with
    | none => nils []
    | some e => simp only [noPanic h (.elRemove e) rfl rfl, Panics, reduceCtorEq]
  case elInsertBefore e v => cases e with
    | none => nils []
    | some e => simp only [noPanic h (.elInsertBefore e v) rfl rfl, Panics, reduceCtorEq]
  case elInsertAfter e v => cases e with
    | none => nils []
    | some e => simp only [noPanic h (.elInsertAfter e v) rfl rfl, Panics, reduceCtorEq]
  case moveBefore l e x => cases e with
    | none => nils []
    | some e => cases l with
      | some l => cases x with
        | some x => simp only [noPanic h (.moveBefore l e x) rfl rfl, Panics, reduceCtorEq, false_and, or_self, and_false]
        | none =>
          by_cases ho : m.owner (.node e) = some l
          · nils [ho]
          · nils [ho]
      | none => cases ho : m.owner (.node e) with
        | some k => nils [ho]
        | none => cases x with
          | none => nils [ho]
          | some x =>
            by_cases hx : e = x
            · subst hx; nils [ho]
            · cases hox : m.owner (.node x) with
              | none => nils [ho, hx, hox, (idle e ho).1, (idle e ho).2, (idle x hox).1, (idle x hox).2]
              | some k => nils [ho, hx, hox]
  case moveAfter l e x => cases e with
    | none => nils []
    | some e => cases l with
      | some l => cases x with
        | some x => simp only [noPanic h (.moveAfter l e x) rfl rfl, Panics, reduceCtorEq, false_and, or_self, and_false]
        | none =>
          by_cases ho : m.owner (.node e) = some l
          · nils [ho]
          · nils [ho]
      | none => cases ho : m.owner (.node e) with
        | some k => nils [ho]
        | none => cases x with
          | none => nils [ho]
          | some x =>
            by_cases hx : e = x
            · subst hx; nils [ho]
            · cases hox : m.owner (.node x) with
              | none => nils [ho, hx, hox, (idle e ho).1, (idle e ho).2, (idle x hox).1, (idle x hox).2]
              | some k => nils [ho, hx, hox]
  case swap l e x => cases e with
    | none => nils []
    | some e => cases l with
      | some l => cases x with
        | some x => simp only [noPanic h (.swap l e x) rfl rfl, Panics, reduceCtorEq, false_and, or_self, and_false]
        | none =>
          by_cases ho : m.owner (.node e) = some l
          · nils [ho]
          · nils [ho]
      | none => cases ho : m.owner (.node e) with
        | some k => nils [ho]
        | none => cases x with
          | none => nils [ho]
          | some x =>
            by_cases hx : e = x
            · subst hx; nils [ho]
            · cases hox : m.owner (.node x) with
              | none => nils [ho, hx, hox, (idle e ho).1, (idle e ho).2, (idle x hox).1, (idle x hox).2]
              | some k => nils [ho, hx, hox]

/-- No list and no element in a list is changed, and no value. -/
structure Same (m m' : Mem T) : Prop where
  len : m'.len = m.len
  inited : m'.inited = m.inited
  owner : m'.owner = m.owner
  val : ∀ n, n < m.fresh → m'.val n = m.val n
  root : ∀ l, m'.next (.root l) = m.next (.root l) ∧ m'.prev (.root l) = m.prev (.root l)
  node : ∀ n l, m.owner (.node n) = some l → m'.next (.node n) = m.next (.node n) ∧ m'.prev (.node n) = m.prev (.node n)

theorem Same.refl (m : Mem T) : Same m m := ⟨rfl, rfl, rfl, fun _ _ => rfl, fun _ => ⟨rfl, rfl⟩, fun _ _ _ => ⟨rfl, rfl⟩⟩

/-- `InsertBefore` on a nil list: what is left of the new element. -/
theorem insertBefore_nil {m : Mem T} {n : Nat} (ho : m.owner (.node n) = none) (hp : m.prev (.node n) = none) (v : T) :
    ((call (.insertBefore none v (some n))).run m).1 = ({ m with fresh := m.fresh + 1, val := upd m.val m.fresh (some v) } : Mem T).setPrev (.node m.fresh) none := by
  simp only [call, insertBefore, insertValue, insert]
  pan
  simp only [ho, ne_eq, not_true_eq_false, if_false]
  pan
  rw [hp]
  pan

/-- `InsertAfter` on a nil list: the mark points to the new element. -/
theorem insertAfter_nil {m : Mem T} {n : Nat} (ho : m.owner (.node n) = none) (hn : m.next (.node n) = none) (hf : m.fresh ≠ n) (v : T) :
    ((call (.insertAfter none v (some n))).run m).1 = ((({ m with fresh := m.fresh + 1, val := upd m.val m.fresh (some v) } : Mem T).setPrev
      (.node m.fresh) (some (.node n))).setNext (.node m.fresh) none).setNext (.node n) (some (.node m.fresh)) := by
  have hf' : ¬ n = m.fresh := fun h => hf h.symm
  simp [call, insertAfter, insertValue, insert, Pan.run_bind, Pan.run_raise, Pan.run_change, Pan.run_read, nx, pv, ow, putN, putP, el, ho, hn, hf,
    Mem.setNext, Mem.setPrev, upd]

/-- **C188**: a call that panics because of nil changes no list and nothing in a list; `InsertAfter` on a nil list
leaves `mark.next` behind (`insertAfter_nil`), for a `mark` that is in no list (`he`: and that exists). -/
theorem C188_same {m : Mem T} (h : Any m) (c : NOp T) (hp : Panics m c) (he : ∀ v e, c = .insertAfter none v (some e) → e < m.fresh) :
    Same m ((call c).run m).1 := by
  have idle := h.sound.idle
  cases c
  case clear l => cases l with
    | none => exact .refl m
    | some l => cases hp
  case len l => cases l with
    | none => exact .refl m
    | some l => cases hp
  case front l => cases l with
    | none => exact .refl m
    | some l => cases hp
  case back l => cases l with
    | none => exact .refl m
    | some l => cases hp
  case pushFront l v => cases l with
    | none => exact .refl m
    | some l => cases hp
  case pushBack l v => cases l with
    | none => exact .refl m
    | some l => cases hp
  case get l i => cases l with
    | none =>
      have : ¬ i < 0 := by have := hp.2; omega
      simp only [call, get, this, Pan.run_bind, if_false, ln, Pan.run_raise]
      exact .refl m
    | some l => cases hp.1
  case insertBefore l v e => cases e with
    | none => exact .refl m
    | some e =>
      obtain hp | ⟨rfl, n, hn, ho⟩ := hp
      · cases hp
      cases hn
      rw [insertBefore_nil ho (idle e ho).2]
      refine ⟨rfl, rfl, rfl, fun n hn => ?_, fun _ => ⟨rfl, rfl⟩, fun n l hl => ⟨rfl, ?_⟩⟩
      · simp only [Mem.setPrev, upd]; rw [if_neg (by omega)]
      · simp only [Mem.setPrev, upd]
        split
        next hf => cases hf; exact absurd (h.sound.alloc _ _ hl) (by omega)
        next => rfl
  case insertAfter l v e => cases e with
    | none => exact .refl m
    | some e =>
      obtain hp | ⟨rfl, n, hn, ho⟩ := hp
      · cases hp
      cases hn
      have hlt := he v e rfl
      rw [insertAfter_nil ho (idle e ho).1 (by omega)]
      refine ⟨rfl, rfl, rfl, fun n hn => ?_, fun _ => ⟨rfl, rfl⟩, fun n l hl => ?_⟩
      · simp only [Mem.setPrev, Mem.setNext, upd]; rw [if_neg (by omega)]
      · have hn := h.sound.alloc _ _ hl
        have h1 : ¬ n = e := by rintro rfl; rw [ho] at hl; cases hl
        have h2 : ¬ n = m.fresh := by omega
        simp [Mem.setPrev, Mem.setNext, upd, h1, h2]
  case remove l e => cases e with
    | none => exact .refl m
    | some e =>
      obtain hp | ⟨rfl, n, hn, ho⟩ := hp
      · cases hp
      cases hn
      nils [ho, (idle e ho).1, (idle e ho).2]
      exact .refl m
  case moveToFront l e => cases e with
    | none => exact .refl m
    | some e =>
      obtain hp | ⟨rfl, n, hn, ho⟩ := hp
      · cases hp
      cases hn
      nils [ho, (idle e ho).1, (idle e ho).2]
      exact .refl m
  case moveToBack l e => cases e with
    | none => exact .refl m
    | some e =>
      obtain hp | ⟨rfl, n, hn, ho⟩ := hp
      · cases hp
      cases hn
      nils [ho, (idle e ho).1, (idle e ho).2]
      exact .refl m
  case moveBefore l e x => cases e with
    | none => exact .refl m
    | some e =>
      obtain hp | ⟨⟨n, hn, ho⟩, hx, hp⟩ := hp
      · cases hp
      cases hn
      obtain rfl | ⟨rfl, y, rfl, hy⟩ := hp
      · nils [ho]; exact .refl m
      · have hx' : ¬ e = y := fun h => hx (by rw [h])
        nils [ho, hx', hy, (idle e ho).1, (idle e ho).2, (idle y hy).1, (idle y hy).2]
        exact .refl m
  case moveAfter l e x => cases e with
    | none => exact .refl m
    | some e =>
      obtain hp | ⟨⟨n, hn, ho⟩, hx, hp⟩ := hp
      · cases hp
      cases hn
      obtain rfl | ⟨rfl, y, rfl, hy⟩ := hp
      · nils [ho]; exact .refl m
      · have hx' : ¬ e = y := fun h => hx (by rw [h])
        nils [ho, hx', hy, (idle e ho).1, (idle e ho).2, (idle y hy).1, (idle y hy).2]
        exact .refl m
  case swap l e x => cases e with
    | none => exact .refl m
    | some e =>
      obtain hp | ⟨⟨n, hn, ho⟩, hp⟩ := hp
      · cases hp
      cases hn
      obtain rfl | ⟨rfl, ⟨y, rfl, hy⟩, hx⟩ := hp
      · nils [ho]; exact .refl m
      · have hx' : ¬ e = y := fun h => hx (by rw [h])
        nils [ho, hx', hy, (idle e ho).1, (idle e ho).2, (idle y hy).1, (idle y hy).2]
        exact .refl m
  case elNext e => cases e with
    | none => exact .refl m
    | some l => cases hp
  case elPrev e => cases e with
    | none => exact .refl m
    | some l => cases hp
  case elRemove e => cases e with
    | none => exact .refl m
    | some l => cases hp
  case elInsertBefore e v => cases e with
    | none => exact .refl m
    | some l => cases hp
  case elInsertAfter e v => cases e with
    | none => exact .refl m
    | some l => cases hp

/-- The list a call is made on is nil. -/
def OnNil : NOp T → Prop
  | .clear l | .len l | .front l | .back l | .pushFront l _ | .pushBack l _ | .get l _ | .insertBefore l _ _ | .insertAfter l _ _ | .remove l _
  | .moveToFront l _ | .moveToBack l _ | .moveBefore l _ _ | .moveAfter l _ _ | .swap l _ _ => l = none
  | .elNext _ | .elPrev _ | .elRemove _ | .elInsertBefore _ _ | .elInsertAfter _ _ => False

/-- What a call on a nil list returns, if it does: `Remove` the value, the others nothing or nil. -/
def nilRes (m : Mem T) : NOp T → Res T
  | .remove _ (some e) => .val (m.val e)
  | .get _ _ | .insertBefore _ _ _ | .insertAfter _ _ _ => .elem none
  | _ => .unit

/-- **C188**: a call on a nil list that does not panic does nothing, and returns nil or, for `Remove`, the value of the element. -/
theorem C188_nil {m : Mem T} (c : NOp T) (hc : OnNil c) (hp : ¬ Panics m c) : (call c).run m = (m, some (nilRes m c)) := by
  cases c <;> simp only [OnNil] at hc <;> subst hc <;> simp only [Panics, In, not_true_eq_false, true_and, not_or, not_and, not_le] at hp
  case get i => simp only [call, get, hp, Pan.run_bind, Pan.run_pure, if_true]; rfl
  case insertBefore v e => cases e with
    | none => exact absurd rfl hp.1
    | some e => cases ho : m.owner (.node e) with
      | none => exact absurd ⟨e, rfl, ho⟩ hp.2
      | some k => nils [ho]; rfl
  case insertAfter v e => cases e with
    | none => exact absurd rfl hp.1
    | some e => cases ho : m.owner (.node e) with
      | none => exact absurd ⟨e, rfl, ho⟩ hp.2
      | some k => nils [ho]; rfl
  case remove e => cases e with
    | none => exact absurd rfl hp.1
    | some e => cases ho : m.owner (.node e) with
      | none => exact absurd ⟨e, rfl, ho⟩ hp.2
      | some k => nils [ho]; rfl
  case moveToFront e => cases e with
    | none => exact absurd rfl hp.1
    | some e => cases ho : m.owner (.node e) with
      | none => exact absurd ⟨e, rfl, ho⟩ hp.2
      | some k => nils [ho]; rfl
  case moveToBack e => cases e with
    | none => exact absurd rfl hp.1
    | some e => cases ho : m.owner (.node e) with
      | none => exact absurd ⟨e, rfl, ho⟩ hp.2
      | some k => nils [ho]; rfl
  case moveBefore e x => cases e with
    | none => exact absurd rfl hp.1
    | some e => cases ho : m.owner (.node e) with
      | some k => nils [ho]; rfl
      | none =>
        by_cases hx : some e = x
        · subst hx; nils [ho]; rfl
        · have h1 := hp.2 ⟨e, rfl, ho⟩ hx
          cases x with
          | none => exact absurd rfl h1.1
          | some x => cases hox : m.owner (.node x) with
            | none => exact absurd ⟨x, rfl, hox⟩ h1.2
            | some k =>
              have hx' : ¬ e = x := fun h => hx (by rw [h])
              nils [ho, hox, hx']; rfl
  case moveAfter e x => cases e with
    | none => exact absurd rfl hp.1
    | some e => cases ho : m.owner (.node e) with
      | some k => nils [ho]; rfl
      | none =>
        by_cases hx : some e = x
        · subst hx; nils [ho]; rfl
        · have h1 := hp.2 ⟨e, rfl, ho⟩ hx
          cases x with
          | none => exact absurd rfl h1.1
          | some x => cases hox : m.owner (.node x) with
            | none => exact absurd ⟨x, rfl, hox⟩ h1.2
            | some k =>
              have hx' : ¬ e = x := fun h => hx (by rw [h])
              nils [ho, hox, hx']; rfl
  case swap e x => cases e with
    | none => exact absurd rfl hp.1
    | some e => cases ho : m.owner (.node e) with
      | some k => nils [ho]; rfl
      | none =>
        have h1 := hp.2 ⟨e, rfl, ho⟩
        cases x with
        | none => exact absurd rfl h1.1
        | some x => cases hox : m.owner (.node x) with
          | some k => nils [ho, hox]; rfl
          | none =>
            have hx' : e = x := by
              by_contra hx
              exact h1.2 ⟨x, rfl, hox⟩ (fun h => hx (by cases h; rfl))
            subst hx'; nils [ho]; rfl

/-- Two lists, the first with elements 0 and 2, the second with 1; 3 was removed. -/
def sample : Option (Mem Nat) := do
  let (m, _) ← exec 0 Mem.empty (.pushBack 0 10)
  let (m, _) ← exec 0 m (.pushBack 1 11)
  let (m, _) ← exec 0 m (.pushBack 0 12)
  let (m, _) ← exec 0 m (.pushBack 0 13)
  let (m, _) ← exec 0 m (.remove 0 3)
  pure m

example (m : Mem Nat) (h : sample = some m) : Any m := by
  simp only [sample, Option.bind_eq_bind, Option.bind_eq_some_iff, Prod.exists, Option.pure_def, Option.some.injEq] at h
  obtain ⟨_, _, h1, _, _, h2, _, _, h3, _, _, h4, _, _, h5, rfl⟩ := h
  exact .call (.call (.call (.call (.call .start rfl h1) rfl h2) rfl h3) rfl h4) rfl h5
example : (sample.map fun m => ((call (T := Nat) (.get none (-1))).run m).2) = some (some (.elem none)) := rfl
example : (sample.map fun m => ((call (T := Nat) (.get none 0)).run m).2) = some none := rfl
example : (sample.map fun m => ((call (T := Nat) (.remove none (some 1))).run m).2) = some (some (.val (some 11))) := rfl
example : (sample.map fun m => ((call (T := Nat) (.remove none (some 3))).run m).2) = some none := rfl
example : (sample.map fun m => ((call (T := Nat) (.moveBefore (some 0) (some 1) none)).run m).2) = some (some .unit) := rfl
example : (sample.map fun m => ((call (T := Nat) (.moveBefore (some 0) (some 2) none)).run m).2) = some none := rfl
example : (sample.map fun m => ((call (T := Nat) (.swap (some 0) (some 2) (some 0))).run m).2) = some (some .unit) := rfl
example : (sample.map fun m => let r := (call (.insertAfter none 7 (some 3))).run m
    (r.2, r.1.next (.node 3), r.1.fresh)) = some (none, some (.node 4), 5) := rfl

end Verif.Dllist.Nil
