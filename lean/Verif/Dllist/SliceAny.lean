import Verif.Dllist.Push
/-!
# `Slice`, whatever calls were made before (C191)

`Slice` makes room for `l.len` values, which panics if the count is negative; it reads the value of a sentinel that `Front` answers.
-/
namespace Verif.Dllist.Push
open Verif.Dllist
variable {T : Type}

/-- `Slice()`: dllist.go:246-253, with `make([]T, 0, l.len)`; the outer `none` is fuel that does not suffice, the inner one a panic. -/
def slice (z : T) (fuel : Nat) (m : Mem T) (l : Nat) : Option (Option (Mem T × List T)) :=
  if m.len l < 0 then some none
  else do
    let (m, s, _) ← range (fun m (s : List T) e => some (m, s ++ [valueZ z m e], true)) fuel m [] l
    some (some (m, s))

/-- The pointers from `Front` on. -/
inductive Walk (m : Mem T) (l : Nat) : List Ptr → Prop
  | empty : (front m l).2 = none → Walk m l []
  | trip {p : Ptr} {ps : List Ptr} : (front m l).2 = some p → Trip (elNext (front m l).1) p ps → Walk m l ps

theorem trip_vals (z : T) {m : Mem T} {p : Ptr} {ps : List Ptr} (h : Trip (elNext m) p ps) : ∀ (s : List T) (fuel : Nat), ps.length < fuel →
    rangeLoop (fun m (s : List T) e => some (m, s ++ [valueZ z m e], true)) fuel m s (some p) = some (m, s ++ ps.map (valueZ z m), true) := by
  induction h with
  | last hp =>
    intro a fuel hf
    obtain ⟨k, rfl⟩ : ∃ k, fuel = k + 2 := ⟨fuel - 2, by simp at hf; omega⟩
    simp [rangeLoop, hp]
  | next hp _ ih =>
    intro a fuel hf
    obtain ⟨k, rfl⟩ : ∃ k, fuel = k + 1 := ⟨fuel - 1, by simp at hf; omega⟩
    simp only [rangeLoop, Option.bind_eq_bind, Option.bind_some, if_true, hp]
    rw [ih _ k (by simp at hf; omega)]
    simp

/-- **C191**: `Slice` panics if the count of the list is negative, and otherwise returns the values on the walk from `Front`. -/
theorem C191_slice (z : T) {m : Mem T} (h : Any m) (l : Nat) :
    (m.len l < 0 → ∀ fuel, slice z fuel m l = some none) ∧
    (0 ≤ m.len l → ∃ ps, Walk m l ps ∧ ps.Nodup ∧ ∃ F, ∀ fuel, F ≤ fuel → slice z fuel m l = some (some ((front m l).1, ps.map (valueZ z (front m l).1)))) := by
  refine ⟨fun hn fuel => if_pos hn, fun hn => ?_⟩
  have hn' : ¬ m.len l < 0 := by omega
  cases hf : (front m l).2 with
  | none =>
    refine ⟨[], .empty hf, by simp, 1, fun fuel hfu => ?_⟩
    obtain ⟨k, rfl⟩ : ∃ k, fuel = k + 1 := ⟨fuel - 1, by omega⟩
    simp [slice, hn', range, hf, rangeLoop]
  | some p =>
    obtain ⟨ps, h1, h2⟩ := (h.sound.front l).1.tripNext p
    refine ⟨ps, .trip hf h1, h2, ps.length + 1, fun fuel hfu => ?_⟩
    simp only [slice, hn', if_false, range, hf]
    rw [trip_vals z h1 [] fuel (by omega)]
    simp

theorem range_of (z : T) : ∀ (fuel : Nat) (m : Mem T) (s : List T) (e : Option Ptr) (r : Mem T × List T × Bool),
    rangeLoop (fun m (s : List T) e => do let v ← value m e; some (m, s ++ [v], true)) fuel m s e = some r →
    rangeLoop (fun m (s : List T) e => some (m, s ++ [valueZ z m e], true)) fuel m s e = some r
  | 0, _, _, _, _, h => by cases h
  | _ + 1, _, _, none, _, h => h
  | fuel + 1, m, s, some p, r, h => by
    simp only [rangeLoop, Option.bind_eq_bind, Option.bind_eq_some_iff] at h
    obtain ⟨⟨m1, s1, c⟩, ⟨v, hv, h1⟩, h2⟩ := h
    cases h1
    simp only [rangeLoop, valueZ_of hv, Option.bind_eq_bind, Option.bind_some, if_true]
    exact range_of z fuel m _ _ r h2

/-- **C191**: where the `Slice` of `Model.lean` returns on a list with a count that is not negative, this one does the same. -/
theorem C191_model (z : T) {fuel : Nat} {m : Mem T} {l : Nat} {r : Mem T × List T} (hn : 0 ≤ m.len l) (h : Dllist.slice fuel m l = some r) :
    slice z fuel m l = some (some r) := by
  have hn' : ¬ m.len l < 0 := by omega
  simp only [Dllist.slice, Option.bind_eq_bind, Option.bind_eq_some_iff] at h
  obtain ⟨⟨m1, s, c⟩, h1, h2⟩ := h
  cases h2
  simp only [slice, hn', if_false, range, Option.bind_eq_bind, Option.bind_eq_some_iff]
  exact ⟨_, range_of z fuel _ _ _ _ h1, rfl⟩

/-- Calls after which a list has a negative count: `Remove` of an element that `Clear` left behind. -/
def negative : Option (Mem Nat) := do
  let (m, _) ← exec 0 Mem.empty .new
  let (m, _) ← exec 0 m (.pushBack 0 1)
  let (m, _) ← exec 0 m (.clear 0)
  let (m, _) ← exec 0 m (.remove 0 0)
  pure m

/-- **C191**: counts can be negative, and `Slice` panics then. -/
theorem C191_negative : ∃ m : Mem Nat, Any m ∧ m.len 0 = -1 ∧ ∀ fuel, slice 0 fuel m 0 = some none := by
  cases h : negative with
  | none => cases h
  | some m =>
    have hl : (negative.map fun m => m.len 0) = some (-1) := rfl
    rw [h] at hl
    have hl : m.len 0 = -1 := by simpa using hl
    refine ⟨m, ?_, hl, fun fuel => if_pos (by omega)⟩
    simp only [negative, Option.bind_eq_bind, Option.bind_eq_some_iff, Prod.exists, Option.pure_def, Option.some.injEq] at h
    obtain ⟨_, _, h0, _, _, h1, _, _, h2, _, _, h3, rfl⟩ := h
    exact .call (.call (.call (.call .start rfl h0) rfl h1) rfl h2) rfl h3

example : (sample.bind fun m => (slice 77 5 m 0).map fun r => r.map fun q => q.2) = some (some [77]) := rfl
example : (sample.bind fun m => (slice 77 5 m 1).map fun r => r.map fun q => q.2) = some (some [9]) := rfl

end Verif.Dllist.Push
