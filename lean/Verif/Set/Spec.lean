/-!
# Specification of `set`: mathematical sets

A handle is nil (`none`) or refers to a set that calls may change; two handles may be equal.
-/
namespace Verif.GoSet.Spec
variable {T : Type}

/-- The calls. -/
inductive Op (T : Type) where
  | new
  | len (s : Option Nat) | slice (s : Option Nat) | isEmpty (s : Option Nat)
  | contain (s : Option Nat) (v : T)
  | clone (s : Option Nat) | clear (s : Option Nat)
  | push (s : Option Nat) (vs : List T)
  | insert (s : Option Nat) (v : T) | remove (s : Option Nat) (v : T)
  | containAndRemove (s : Option Nat) (v : T)
  | copyFrom (s t : Option Nat)
  | equal (s t : Option Nat) | isSubSet (s t : Option Nat)
  | difference (s t : Option Nat) | symmetricDifference (s t : Option Nat)
  | intersection (s t : Option Nat)
  | union (s : Option Nat) (ts : List (Option Nat))

/-- What a call returns (`Push`, `Clear`, `CopyFrom` return their receiver). -/
inductive Res (T : Type) where
  | set (s : Option Nat)
  | bool (b : Bool)
  | int (n : Nat)
  | slice (xs : List T)

/-- Abstract state: the sets that exist and their members. -/
structure St (T : Type) where
  alive : Nat → Prop
  mem : Nat → T → Prop

def St.empty : St T := { alive := fun _ => False, mem := fun _ _ => False }

/-- Membership in a possibly nil set. -/
def St.has (s : St T) : Option Nat → T → Prop
  | none, _ => False
  | some a, x => s.mem a x

/-- The handle exists. -/
def St.ok (s : St T) : Option Nat → Prop
  | none => True
  | some a => s.alive a

/-- `xs` lists the members of `P`, each once. -/
def Lists (xs : List T) (P : T → Prop) : Prop := xs.Nodup ∧ ∀ x, x ∈ xs ↔ P x

/-- `s'` is `s` where the set `r` has become `P` (nothing changes if `r` is nil). -/
def St.Becomes (s : St T) (r : Option Nat) (P : T → Prop) (s' : St T) : Prop :=
  s'.alive = s.alive ∧ (∀ a, some a ≠ r → ∀ x, s'.mem a x ↔ s.mem a x) ∧
  ∀ a, some a = r → ∀ x, s'.mem a x ↔ P x

/-- `s'` is `s` with one more set, whose members are `P`, and `r` is its handle. -/
def St.Creates (s : St T) (r : Option Nat) (P : T → Prop) (s' : St T) : Prop :=
  ∃ n, r = some n ∧ ¬ s.alive n ∧ (∀ a, s'.alive a ↔ a = n ∨ s.alive a) ∧
  (∀ a, s.alive a → ∀ x, s'.mem a x ↔ s.mem a x) ∧ ∀ x, s'.mem n x ↔ P x

/-- Effect and result of each call. -/
def St.Step (s : St T) : Op T → Res T → St T → Prop
  | .new, r, s' => ∃ n, r = .set n ∧ s.Creates n (fun _ => False) s'
  | .len a, r, s' => s' = s ∧ ∃ xs, Lists xs (s.has a) ∧ r = .int xs.length
  | .slice a, r, s' => s' = s ∧ ∃ xs, Lists xs (s.has a) ∧ r = .slice xs
  | .isEmpty a, r, s' => s' = s ∧ ∃ b, r = .bool b ∧ (b = true ↔ ∀ x, ¬ s.has a x)
  | .contain a v, r, s' => s' = s ∧ ∃ b, r = .bool b ∧ (b = true ↔ s.has a v)
  | .clone a, r, s' => match a with
    | none => r = .set none ∧ s' = s
    | some a => ∃ n, r = .set n ∧ s.Creates n (s.mem a) s'
  | .clear a, r, s' => r = .set a ∧ s.Becomes a (fun _ => False) s'
  | .push a vs, r, s' => r = .set a ∧ s.Becomes a (fun x => s.has a x ∨ x ∈ vs) s'
  | .insert a v, r, s' => (∃ b, r = .bool b ∧ (b = true ↔ ¬ s.has a v)) ∧
      s.Becomes a (fun x => s.has a x ∨ x = v) s'
  | .remove a v, r, s' | .containAndRemove a v, r, s' =>
      (∃ b, r = .bool b ∧ (b = true ↔ s.has a v)) ∧ s.Becomes a (fun x => s.has a x ∧ x ≠ v) s'
  | .copyFrom a t, r, s' => r = .set a ∧ s.Becomes a (fun x => s.has a x ∨ s.has t x) s'
  | .equal a t, r, s' => s' = s ∧ ∃ b, r = .bool b ∧ (b = true ↔ ∀ x, s.has a x ↔ s.has t x)
  | .isSubSet a t, r, s' => s' = s ∧ ∃ b, r = .bool b ∧ (b = true ↔ ∀ x, s.has a x → s.has t x)
  | .difference a t, r, s' => ∃ n, r = .set n ∧ s.Creates n (fun x => s.has a x ∧ ¬ s.has t x) s'
  | .symmetricDifference a t, r, s' => ∃ n, r = .set n ∧
      s.Creates n (fun x => (s.has a x ∧ ¬ s.has t x) ∨ (s.has t x ∧ ¬ s.has a x)) s'
  | .intersection a t, r, s' => ∃ n, r = .set n ∧ s.Creates n (fun x => s.has a x ∧ s.has t x) s'
  | .union a ts, r, s' => ∃ n, r = .set n ∧
      s.Creates n (fun x => s.has a x ∨ ∃ t ∈ ts, s.has t x) s'

/-- Calls the specification speaks about: handles exist, and nothing is put into a nil set. -/
def Valid (ok : Option Nat → Prop) : Op T → Prop
  | .new => True
  | .len a | .slice a | .isEmpty a | .contain a _ | .clone a | .clear a | .remove a _
  | .containAndRemove a _ => ok a
  | .push a _ | .insert a _ => ok a ∧ a ≠ none
  | .copyFrom a t => ok a ∧ a ≠ none ∧ ok t
  | .equal a t | .isSubSet a t | .difference a t | .symmetricDifference a t
  | .intersection a t => ok a ∧ ok t
  | .union a ts => ok a ∧ ∀ t ∈ ts, ok t

/-- A handle a program may use after the calls `tr`: nil, or one returned to it. -/
def Given (tr : List (Op T × Res T)) (h : Option Nat) : Prop :=
  h = none ∨ ∃ c ∈ tr, c.2 = .set h

/-- The histories the specification allows, oldest call first. -/
inductive Run : List (Op T × Res T) → St T → Prop
  | nil : Run [] St.empty
  | snoc {tr s op r s'} : Run tr s → Valid (Given tr) op → s.Step op r s' →
      Run (tr ++ [(op, r)]) s'

end Verif.GoSet.Spec
