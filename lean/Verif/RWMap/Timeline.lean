import Verif.RWMap.Model
/-!
# Timelines

The proof constructs, along an execution, a list of events that will become the linearization.  An
event is usually appended when a step happens, but an operation on an entry that is no longer
reachable from the map is inserted further back, just before the event that made it unreachable.
-/
namespace Verif.RWMap
variable {K V : Type} [DecidableEq K]

inductive TE (K V : Type) where
  | inv (i : Nat)
  /-- call `i` takes effect, with result `r` -/
  | lin (i : Nat) (r : Res K V)
  | ret (i : Nat) (r : Res K V)
  /-- a place to insert events at -/
  | cut (n : Nat)
  /-- Range call `i` begins to visit the keys `ks`: no other key is in the map -/
  | snap (i : Nat) (ks : List K)
  /-- Range call `i` sees what the map has for `k` -/
  | vis (i : Nat) (k : K) (o : Option V)
  /-- Range call `i` calls its function -/
  | visit (i : Nat) (k : K) (v : V)

def TE.owner : TE K V → Option Nat
  | .inv i | .lin i _ | .ret i _ | .snap i _ | .vis i _ _ => some i
  | .cut _ | .visit _ _ _ => none

def TE.ev? : TE K V → Option (Ev K V)
  | .inv i => some (.inv i)
  | .ret i r => some (.ret i r)
  | .visit i k v => some (.visit i k v)
  | _ => none

/-- The events of call `i`. -/
def proj (i : Nat) (L : List (TE K V)) : List (TE K V) := L.filter (·.owner == some i)

theorem proj_append (i : Nat) (L M : List (TE K V)) : proj i (L ++ M) = proj i L ++ proj i M := by
  simp [proj]

theorem proj_cons_own {i : Nat} {x : TE K V} (h : x.owner = some i) (L : List (TE K V)) :
    proj i (x :: L) = x :: proj i L := by
  simp [proj, h]

theorem proj_cons_other {i : Nat} {x : TE K V} (h : x.owner ≠ some i) (L : List (TE K V)) :
    proj i (x :: L) = proj i L := by
  simp [proj, h]

theorem mem_proj {i : Nat} {x : TE K V} {L : List (TE K V)} :
    x ∈ proj i L ↔ x ∈ L ∧ x.owner = some i := by
  simp [proj]

section
variable (eqv : V → V → Option Bool) (prog : Nat → Op K V)

/-- Effect of an event on the map. -/
def app (x : TE K V) (A : AMap K V) : AMap K V :=
  match x with
  | .lin i _ => (apply eqv (prog i) A).1
  | _ => A

/-- The event is right about the map. -/
def okE (x : TE K V) (A : AMap K V) : Prop :=
  match x with
  | .lin i r => (apply eqv (prog i) A).2 = r
  | .snap _ ks => ∀ k, k ∉ ks → A k = none
  | .vis _ k o => A k = o
  | _ => True

/-- The map after a timeline. -/
def run : List (TE K V) → AMap K V → AMap K V
  | [], A => A
  | x :: L, A => run L (app eqv prog x A)

/-- Every event of the timeline is right about the map at its place. -/
def Legal : List (TE K V) → AMap K V → Prop
  | [], _ => True
  | x :: L, A => okE eqv prog x A ∧ Legal L (app eqv prog x A)

theorem run_append (L M : List (TE K V)) (A : AMap K V) :
    run eqv prog (L ++ M) A = run eqv prog M (run eqv prog L A) := by
  induction L generalizing A with
  | nil => rfl
  | cons x L ih => exact ih _

theorem legal_append (L M : List (TE K V)) (A : AMap K V) :
    Legal eqv prog (L ++ M) A ↔ Legal eqv prog L A ∧ Legal eqv prog M (run eqv prog L A) := by
  induction L generalizing A with
  | nil => simp [Legal, run]
  | cons x L ih => simp [Legal, run, ih, and_assoc]
end

/-- Where two cuts of one list are relative to each other. -/
theorem split_cmp {α : Type} {L1 L2 M1 M2 : List α} {y z : α}
    (h : L1 ++ y :: L2 = M1 ++ z :: M2) :
    (L1 = M1 ∧ y = z ∧ L2 = M2) ∨ (∃ N, M1 = L1 ++ y :: N ∧ L2 = N ++ z :: M2) ∨
    ∃ N, L1 = M1 ++ z :: N ∧ M2 = N ++ y :: L2 := by
  rcases List.append_eq_append_iff.1 h with ⟨as, h1, h2⟩ | ⟨bs, h1, h2⟩
  · cases as with
    | nil => simp at h1 h2; exact Or.inl ⟨h1.symm, h2.1, h2.2⟩
    | cons a as =>
      simp at h2
      exact Or.inr (Or.inl ⟨as, by rw [h1, h2.1], h2.2⟩)
  · cases bs with
    | nil => simp at h1 h2; exact Or.inl ⟨h1, h2.1.symm, h2.2.symm⟩
    | cons b bs =>
      simp at h2
      exact Or.inr (Or.inr ⟨bs, by rw [h1, h2.1], h2.2⟩)

/-- Inserting the first further event of a call after its invocation. -/
theorem proj_insert {i : Nat} {x : TE K V} (hx : x.owner = some i) {L1 L2 : List (TE K V)}
    (h : proj i (L1 ++ L2) = [.inv i]) (hi : .inv i ∈ L1) :
    proj i (L1 ++ x :: L2) = [.inv i, x] := by
  rw [proj_append] at h ⊢
  have h1 : TE.inv i ∈ proj i L1 := mem_proj.2 ⟨hi, rfl⟩
  rw [proj_cons_own hx]
  cases hp : proj i L1 with
  | nil => rw [hp] at h1; cases h1
  | cons a as =>
    rw [hp] at h
    simp at h
    simp [h]

end Verif.RWMap
