import Verif.Heap.Spec
/-!
# Specification of `dllist`: plain sequences of element handles

Nothing here mentions pointers, `next`/`prev`, sentinels or allocation counters.  An abstract
state gives for every list a finite sequence of element handles and for every handle its value.
-/
namespace Verif.Dllist.Spec
open Verif (StrictWeak)

/-- The calls a client can make.  Lists and elements are referred to by their handles. -/
inductive Op (T : Type) where
  | new | zero
  | clear (l : Nat)
  | pushFront (l : Nat) (v : T) | pushBack (l : Nat) (v : T)
  | insertBefore (l : Nat) (v : T) (mark : Nat) | insertAfter (l : Nat) (v : T) (mark : Nat)
  | remove (l e : Nat)
  | moveToFront (l e : Nat) | moveToBack (l e : Nat)
  | moveBefore (l e mark : Nat) | moveAfter (l e mark : Nat)
  | swap (l a b : Nat)
  | elRemove (e : Nat) | elInsertBefore (e : Nat) (v : T) | elInsertAfter (e : Nat) (v : T)
  | elNext (e : Nat) | elPrev (e : Nat)
  | getValue (e : Nat) | setValue (e : Nat) (v : T)
  | len (l : Nat) | front (l : Nat) | back (l : Nat) | get (l : Nat) (i : Int)
  | slice (l : Nat)
  | pushBackList (l o : Nat) | pushFrontList (l o : Nat)
  | pushBackListTo (l o mark : Nat) | pushFrontListTo (l o mark : Nat)
  | sort (l : Nat) (less : T → T → Bool)

/-- What a call returns. -/
inductive Res (T : Type) where
  | unit
  | list (l : Nat)
  | elem (e : Option Nat)
  | val (v : Option T)
  | int (i : Int)
  | vals (vs : List T)
  /-- a pointer to a list's sentinel; the specification never returns it -/
  | sentinel (l : Nat)

/-- Abstract state. -/
structure St (T : Type) where
  /-- list handles handed out -/
  lists : Nat → Prop
  /-- the sequence of elements of each list, front first -/
  seq : Nat → List Nat
  /-- the value of each element handed out (`none`: no such element) -/
  val : Nat → Option T
  /-- elements that were in a list when it was cleared or sorted (see C35) -/
  stale : Nat → Prop

variable {T : Type}

def St.empty : St T := { lists := fun _ => False, seq := fun _ => [], val := fun _ => none,
                         stale := fun _ => False }

/-- Function update. -/
def set {β : Type} (f : Nat → β) (a : Nat) (b : β) : Nat → β := fun x => if x = a then b else f x

/-- `n` inserted just before / just after `mark`. -/
def insBefore (mark n : Nat) : List Nat → List Nat
  | [] => []
  | x :: xs => if x = mark then n :: x :: xs else x :: insBefore mark n xs
def insAfter (mark : Nat) (ns : List Nat) : List Nat → List Nat
  | [] => []
  | x :: xs => if x = mark then x :: (ns ++ xs) else x :: insAfter mark ns xs
/-- The element following / preceding `e`. -/
def nextOf (e : Nat) : List Nat → Option Nat
  | [] => none
  | x :: xs => if x = e then xs.head? else nextOf e xs
def prevOf (e : Nat) (xs : List Nat) : Option Nat := nextOf e xs.reverse
/-- Exchange two handles. -/
def exchange (a b : Nat) (xs : List Nat) : List Nat :=
  xs.map fun x => if x = a then b else if x = b then a else x

/-- `ns` are distinct new handles. -/
def St.New (s : St T) (ns : List Nat) : Prop := ns.Nodup ∧ ∀ n ∈ ns, s.val n = none

/-- The values of a list of handles. -/
def valsOf (val : Nat → Option T) (xs : List Nat) : List T := xs.filterMap val

/-- `ys` is `xs` stably sorted. -/
def StableSorted (less : T → T → Bool) (xs ys : List T) : Prop :=
  ys.Pairwise (fun a b => less b a = false) ∧
  ∀ v, ys.filter (fun w => !less v w && !less w v) = xs.filter (fun w => !less v w && !less w v)

/-- `s` to `s'` by giving the new handles `ns` the values `vs` and setting list `l` to `xs`. -/
def St.Alloc (s : St T) (ns : List Nat) (vs : List T) (l : Nat) (xs : List Nat) (s' : St T) : Prop :=
  s.New ns ∧ s'.lists = s.lists ∧ s'.stale = s.stale ∧ s'.seq = set s.seq l xs ∧
  valsOf s'.val ns = vs ∧ (∀ n ∈ ns, (s'.val n).isSome) ∧
  ∀ n, n ∉ ns → s'.val n = s.val n

/-- The effect and result of each call. -/
def St.Step (s : St T) : Op T → Res T → St T → Prop
  | .new, r, s' | .zero, r, s' => ∃ l, ¬ s.lists l ∧ r = .list l ∧
      s' = { s with lists := fun x => x = l ∨ s.lists x, seq := set s.seq l [] }
  | .clear l, r, s' => r = .unit ∧
      s' = { s with seq := set s.seq l [], stale := fun n => n ∈ s.seq l ∨ s.stale n }
  | .pushFront l v, r, s' => ∃ n, r = .elem (some n) ∧ s.Alloc [n] [v] l (n :: s.seq l) s'
  | .pushBack l v, r, s' => ∃ n, r = .elem (some n) ∧ s.Alloc [n] [v] l (s.seq l ++ [n]) s'
  | .insertBefore l v mark, r, s' =>
      if mark ∈ s.seq l then
        ∃ n, r = .elem (some n) ∧ s.Alloc [n] [v] l (insBefore mark n (s.seq l)) s'
      else r = .elem none ∧ s' = s
  | .insertAfter l v mark, r, s' =>
      if mark ∈ s.seq l then
        ∃ n, r = .elem (some n) ∧ s.Alloc [n] [v] l (insAfter mark [n] (s.seq l)) s'
      else r = .elem none ∧ s' = s
  | .remove l e, r, s' => r = .val (s.val e) ∧
      s' = { s with seq := set s.seq l ((s.seq l).erase e) }
  | .moveToFront l e, r, s' => r = .unit ∧
      if e ∈ s.seq l then s' = { s with seq := set s.seq l (e :: (s.seq l).erase e) } else s' = s
  | .moveToBack l e, r, s' => r = .unit ∧
      if e ∈ s.seq l then s' = { s with seq := set s.seq l ((s.seq l).erase e ++ [e]) } else s' = s
  | .moveBefore l e mark, r, s' => r = .unit ∧
      if e ∈ s.seq l ∧ mark ∈ s.seq l ∧ e ≠ mark then
        s' = { s with seq := set s.seq l (insBefore mark e ((s.seq l).erase e)) } else s' = s
  | .moveAfter l e mark, r, s' => r = .unit ∧
      if e ∈ s.seq l ∧ mark ∈ s.seq l ∧ e ≠ mark then
        s' = { s with seq := set s.seq l (insAfter mark [e] ((s.seq l).erase e)) } else s' = s
  | .swap l a b, r, s' => r = .unit ∧
      if a ∈ s.seq l ∧ b ∈ s.seq l then
        s' = { s with seq := set s.seq l (exchange a b (s.seq l)) } else s' = s
  | .elRemove e, r, s' => r = .val (s.val e) ∧
      s' = { s with seq := fun l => (s.seq l).erase e }
  | .elInsertBefore e v, r, s' =>
      (∃ l, e ∈ s.seq l ∧
        ∃ n, r = .elem (some n) ∧ s.Alloc [n] [v] l (insBefore e n (s.seq l)) s') ∨
      ((∀ l, e ∉ s.seq l) ∧ r = .elem none ∧ s' = s)
  | .elInsertAfter e v, r, s' =>
      (∃ l, e ∈ s.seq l ∧
        ∃ n, r = .elem (some n) ∧ s.Alloc [n] [v] l (insAfter e [n] (s.seq l)) s') ∨
      ((∀ l, e ∉ s.seq l) ∧ r = .elem none ∧ s' = s)
  | .elNext e, r, s' => s' = s ∧
      ((∃ l, e ∈ s.seq l ∧ r = .elem (nextOf e (s.seq l))) ∨
       ((∀ l, e ∉ s.seq l) ∧ r = .elem none))
  | .elPrev e, r, s' => s' = s ∧
      ((∃ l, e ∈ s.seq l ∧ r = .elem (prevOf e (s.seq l))) ∨
       ((∀ l, e ∉ s.seq l) ∧ r = .elem none))
  | .getValue e, r, s' => s' = s ∧ r = .val (s.val e)
  | .setValue e v, r, s' => r = .unit ∧ s' = { s with val := set s.val e (some v) }
  | .len l, r, s' => s' = s ∧ r = .int (s.seq l).length
  | .front l, r, s' => s' = s ∧ r = .elem (s.seq l).head?
  | .back l, r, s' => s' = s ∧ r = .elem (s.seq l).getLast?
  | .get l i, r, s' => s' = s ∧ r = .elem (if 0 ≤ i then (s.seq l)[i.toNat]? else none)
  | .slice l, r, s' => s' = s ∧ r = .vals (valsOf s.val (s.seq l))
  | .pushBackList l o, r, s' => r = .unit ∧
      ∃ ns, s.Alloc ns (valsOf s.val (s.seq o)) l (s.seq l ++ ns) s'
  | .pushFrontList l o, r, s' => r = .unit ∧
      ∃ ns, s.Alloc ns (valsOf s.val (s.seq o)) l (ns ++ s.seq l) s'
  | .pushBackListTo l o mark, r, s' => r = .unit ∧
      if mark ∈ s.seq l then
        ∃ ns, s.Alloc ns (valsOf s.val (s.seq o)).reverse l (insAfter mark ns (s.seq l)) s'
      else s' = s
  | .pushFrontListTo l o mark, r, s' => r = .unit ∧
      if mark ∈ s.seq l then
        ∃ ns, s.Alloc ns (valsOf s.val (s.seq o)) l (insAfter mark ns (s.seq l)) s'
      else s' = s
  | .sort l less, r, s' => r = .unit ∧
      if (s.seq l).length ≤ 1 then s' = s else
      -- `Sort` rebuilds the list from new elements; the old ones become stale
      ∃ ns vs s1, vs.Perm (valsOf s.val (s.seq l)) ∧
        (StrictWeak less → StableSorted less (valsOf s.val (s.seq l)) vs) ∧
        s.Alloc ns vs l ns s1 ∧
        s' = { s1 with stale := fun n => n ∈ s.seq l ∨ s.stale n }

/-- An element argument is usable: it exists and is not stale. -/
def St.Usable (s : St T) (e : Nat) : Prop := s.val e ≠ none ∧ ¬ s.stale e

/-- Which calls the specification speaks about: existing lists, usable elements, and for
`Push*ListTo` a list different from the receiver. -/
def St.Valid (s : St T) : Op T → Prop
  | .new | .zero => True
  | .clear l | .pushFront l _ | .pushBack l _ | .len l | .front l | .back l | .get l _
  | .slice l | .sort l _ => s.lists l
  | .insertBefore l _ e | .insertAfter l _ e | .remove l e | .moveToFront l e
  | .moveToBack l e => s.lists l ∧ s.Usable e
  | .moveBefore l a b | .moveAfter l a b | .swap l a b => s.lists l ∧ s.Usable a ∧ s.Usable b
  | .elRemove e | .elInsertBefore e _ | .elInsertAfter e _ | .elNext e | .elPrev e
  | .getValue e | .setValue e _ => s.Usable e
  | .pushBackList l o | .pushFrontList l o => s.lists l ∧ s.lists o
  | .pushBackListTo l o mark | .pushFrontListTo l o mark =>
      s.lists l ∧ s.lists o ∧ l ≠ o ∧ s.Usable mark

/-- A client chooses its next call from the results so far. -/
abbrev Client (T : Type) := List (Res T) → Option (Op T)

/-- The result traces the specification allows. -/
inductive SRun (c : Client T) : List (Res T) → St T → Prop
  | nil : SRun c [] St.empty
  | snoc {rs s op r s'} : SRun c rs s → c rs = some op → s.Step op r s' → SRun c (rs ++ [r]) s'

/-- The client only makes calls the specification speaks about. -/
def Safe (c : Client T) : Prop := ∀ rs s op, SRun c rs s → c rs = some op → s.Valid op

end Verif.Dllist.Spec
