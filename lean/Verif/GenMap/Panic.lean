import Verif.Lib.GMap
import Verif.Lib.Pan
/-!
# Maps and functions with effects that may panic (C166)

The functions given to `Range`, `DeleteFunc`, `EqualFunc` and `LoadOrStoreFunc` may do anything to a state `S` outside the map, answer as they like, and panic; a
panic leaves the map as it is at that moment. `m` is the map, `es` its entries in the order of the iteration.
-/
namespace Verif.GenMap.Panic
variable {K V S : Type} [DecidableEq K]

/-- The map and everything else. -/
structure St (K V S : Type) where
  m : List (K × V)
  s : S

/-- A function of the user. -/
def call {R : Type} (f : Pan S R) : Pan (St K V S) R := ⟨fun x => (⟨x.m, (f.run x.s).1⟩, (f.run x.s).2)⟩

/-- `Range`: genmap.go:54-61; for sets: set.go:85-91. -/
def range (f : K × V → Pan S Bool) : List (K × V) → Pan (St K V S) Bool
  | [] => pure true
  | p :: es => do
    if ← call (f p) then range f es
    else pure false

/-- `maps.DeleteFunc`: genmap.go:125-127. -/
def deleteFunc (f : K × V → Pan S Bool) : List (K × V) → Pan (St K V S) Unit
  | [] => pure ()
  | p :: es => do
    if ← call (f p) then
      Pan.change fun x => ⟨adel x.m p.1, x.s⟩
      deleteFunc f es
    else deleteFunc f es

/-- The loop of `maps.EqualFunc`: genmap.go:96-98; `m2` is the other map. -/
def equalLoop (eq : V → V → Pan S Bool) (m2 : List (K × V)) : List (K × V) → Pan (St K V S) Bool
  | [] => pure true
  | p :: es =>
    match aget m2 p.1 with
    | none => pure false
    | some w => do
      if ← call (eq p.2 w) then equalLoop eq m2 es
      else pure false

/-- `maps.EqualFunc`. -/
def equalFunc (eq : V → V → Pan S Bool) (m2 es : List (K × V)) : Pan (St K V S) Bool := do
  let x ← Pan.read id
  if x.m.length ≠ m2.length then pure false
  else equalLoop eq m2 es

/-- `LoadOrStoreFunc`: genmap.go:72-80. -/
def loadOrStoreFunc (k : K) (new : Pan S V) : Pan (St K V S) (V × Bool) := do
  let x ← Pan.read id
  match aget x.m k with
  | some v => pure (v, true)
  | none =>
    let v ← call new
    Pan.change fun x => ⟨aput x.m k v, x.s⟩
    pure (v, false)

/-! ## Specification -/

/-- `f` is called with these arguments, one after the other, and gives these answers. -/
inductive Asks {P : Type} (f : P → Pan S Bool) : List P → S → List Bool → S → Prop
  | nil {s} : Asks f [] s [] s
  | cons {p ps s e s1 as s2} : (f p).run s = (s1, some e) → Asks f ps s1 as s2 → Asks f (p :: ps) s (e :: as) s2

/-- The keys for which the answer was true. -/
def hits : List (K × V) → List Bool → List K
  | p :: es, e :: as => if e then p.1 :: hits es as else hits es as
  | [], _ => []
  | _ :: _, [] => []

variable {m es : List (K × V)}

omit [DecidableEq K] in
/-- **C166**, `Range`: the function is called with the entries, each one once, until it returns false or panics; the map stays. -/
theorem C166_range (f : K × V → Pan S Bool) (_hes : es.Perm m) (s : S) :
    (∃ as s', Asks f es s as s' ∧ (∀ e ∈ as, e = true) ∧ (range f es).run ⟨m, s⟩ = (⟨m, s'⟩, some true)) ∨
    (∃ ds p rest as s', es = ds ++ p :: rest ∧ Asks f (ds ++ [p]) s (as ++ [false]) s' ∧ (∀ e ∈ as, e = true) ∧ (range f es).run ⟨m, s⟩ = (⟨m, s'⟩, some false)) ∨
    (∃ ds p rest as s1 s', es = ds ++ p :: rest ∧ Asks f ds s as s1 ∧ (∀ e ∈ as, e = true) ∧ (f p).run s1 = (s', none) ∧
      (range f es).run ⟨m, s⟩ = (⟨m, s'⟩, none)) := by
  clear _hes
  induction es generalizing s with
  | nil => exact .inl ⟨[], s, .nil, by simp, rfl⟩
  | cons p es ih =>
    have hr : (range f (p :: es)).run ⟨m, s⟩ = match (f p).run s with
        | (s', none) => (⟨m, s'⟩, none)
        | (s', some true) => (range f es).run ⟨m, s'⟩
        | (s', some false) => (⟨m, s'⟩, some false) := by
      simp only [range, Pan.run_bind, call]
      rcases (f p).run s with ⟨s', _ | _ | _⟩ <;> rfl
    rcases e : (f p).run s with ⟨s', _ | _ | _⟩
    · exact .inr (.inr ⟨[], p, es, [], s, s', rfl, .nil, by simp, e, by rw [hr, e]⟩)
    · exact .inr (.inl ⟨[], p, es, [], s', rfl, .cons e .nil, by simp, by rw [hr, e]⟩)
    · have hr' : (range f (p :: es)).run ⟨m, s⟩ = (range f es).run ⟨m, s'⟩ := by rw [hr, e]
      rcases ih s' with ⟨as, s2, h1, h2, h3⟩ | ⟨ds, q, rest, as, s2, h1, h2, h3, h4⟩ | ⟨ds, q, rest, as, s1, s2, h1, h2, h3, h4, h5⟩
      · exact .inl ⟨true :: as, s2, .cons e h1, by simpa using h2, hr'.trans h3⟩
      · exact .inr (.inl ⟨p :: ds, q, rest, true :: as, s2, by rw [h1]; rfl, .cons e h2, by simpa using h3, hr'.trans h4⟩)
      · exact .inr (.inr ⟨p :: ds, q, rest, true :: as, s1, s2, by rw [h1]; rfl, .cons e h2, by simpa using h3, h4, hr'.trans h5⟩)

theorem delete_loop (f : K × V → Pan S Bool) (s : S) :
    (∃ as s' m', Asks f es s as s' ∧ (∀ k, aget m' k = if k ∈ hits es as then none else aget m k) ∧ (deleteFunc f es).run ⟨m, s⟩ = (⟨m', s'⟩, some ())) ∨
    (∃ ds p rest as s1 s' m', es = ds ++ p :: rest ∧ Asks f ds s as s1 ∧ (f p).run s1 = (s', none) ∧
      (∀ k, aget m' k = if k ∈ hits ds as then none else aget m k) ∧ (deleteFunc f es).run ⟨m, s⟩ = (⟨m', s'⟩, none)) := by
  induction es generalizing s m with
  | nil => exact .inl ⟨[], s, m, .nil, by simp [hits], rfl⟩
  | cons p es ih =>
    have hr : (deleteFunc f (p :: es)).run ⟨m, s⟩ = match (f p).run s with
        | (s', none) => (⟨m, s'⟩, none)
        | (s', some true) => (deleteFunc f es).run ⟨adel m p.1, s'⟩
        | (s', some false) => (deleteFunc f es).run ⟨m, s'⟩ := by
      simp only [deleteFunc, Pan.run_bind, call]
      rcases (f p).run s with ⟨s', _ | _ | _⟩ <;> rfl
    rcases e : (f p).run s with ⟨s', _ | _ | _⟩
    · exact .inr ⟨[], p, es, [], s, s', m, rfl, .nil, e, by simp [hits], by rw [hr, e]⟩
    · rcases ih (m := m) s' with ⟨as, s2, m', h1, h2, h3⟩ | ⟨ds, q, rest, as, s1, s2, m', h1, h2, h3, h4, h5⟩
      · exact .inl ⟨false :: as, s2, m', .cons e h1, by simpa [hits] using h2, by rw [hr, e]; exact h3⟩
      · exact .inr ⟨p :: ds, q, rest, false :: as, s1, s2, m', by rw [h1]; rfl, .cons e h2, h3, by simpa [hits] using h4, by rw [hr, e]; exact h5⟩
    · have hk : ∀ (l : List K) (x : Option V) (k : K), (if k ∈ l then none else if p.1 = k then none else x) = if k ∈ p.1 :: l then none else x := by
        intro l x k
        by_cases h1 : k ∈ l
        · simp [h1]
        · by_cases h2 : p.1 = k
          · simp [h2]
          · have : ¬ k = p.1 := fun h => h2 h.symm
            simp [h1, h2, this]
      rcases ih (m := adel m p.1) s' with ⟨as, s2, m', h1, h2, h3⟩ | ⟨ds, q, rest, as, s1, s2, m', h1, h2, h3, h4, h5⟩
      · refine .inl ⟨true :: as, s2, m', .cons e h1, fun k => ?_, by rw [hr, e]; exact h3⟩
        rw [h2, aget_adel, hk]; rfl
      · refine .inr ⟨p :: ds, q, rest, true :: as, s1, s2, m', by rw [h1]; rfl, .cons e h2, h3, fun k => ?_, by rw [hr, e]; exact h5⟩
        rw [h4, aget_adel, hk]; rfl

/-- **C166**, `DeleteFunc`: the function is called with the entries, each one once, until it panics; the keys are gone for which it has returned true. -/
theorem C166_deleteFunc (f : K × V → Pan S Bool) (_hes : es.Perm m) (s : S) :
    (∃ as s' m', Asks f es s as s' ∧ (∀ k, aget m' k = if k ∈ hits es as then none else aget m k) ∧ (deleteFunc f es).run ⟨m, s⟩ = (⟨m', s'⟩, some ())) ∨
    (∃ ds p rest as s1 s' m', es = ds ++ p :: rest ∧ Asks f ds s as s1 ∧ (f p).run s1 = (s', none) ∧
      (∀ k, aget m' k = if k ∈ hits ds as then none else aget m k) ∧ (deleteFunc f es).run ⟨m, s⟩ = (⟨m', s'⟩, none)) := delete_loop f s

/-- **C166**, `LoadOrStoreFunc`: the function is called if the key is not there; nothing is stored if it panics. -/
theorem C166_loadOrStoreFunc (k : K) (new : Pan S V) (m : List (K × V)) (s : S) :
    (∀ v, aget m k = some v → (loadOrStoreFunc k new).run ⟨m, s⟩ = (⟨m, s⟩, some (v, true))) ∧
    (aget m k = none → (∃ s', new.run s = (s', none) ∧ (loadOrStoreFunc k new).run ⟨m, s⟩ = (⟨m, s'⟩, none)) ∨
      ∃ s' v m', new.run s = (s', some v) ∧ (loadOrStoreFunc k new).run ⟨m, s⟩ = (⟨m', s'⟩, some (v, false)) ∧ ∀ k', aget m' k' = if k = k' then some v else aget m k') := by
  refine ⟨fun v h => ?_, fun h => ?_⟩
  · simp only [loadOrStoreFunc, Pan.run_bind, Pan.run_read, id, h]; rfl
  · have hr : (loadOrStoreFunc k new).run ⟨m, s⟩ = match new.run s with
        | (s', none) => (⟨m, s'⟩, none)
        | (s', some v) => (⟨aput m k v, s'⟩, some (v, false)) := by
      simp only [loadOrStoreFunc, Pan.run_bind, Pan.run_read, id, h, call]
      rcases new.run s with ⟨s', _ | _⟩ <;> rfl
    rcases e : new.run s with ⟨s', _ | v⟩
    · exact .inl ⟨s', rfl, by rw [hr, e]⟩
    · exact .inr ⟨s', v, aput m k v, rfl, by rw [hr, e], fun k' => aget_aput ..⟩

/-- The pairs of values of the keys of `es` in both maps. -/
def both (m2 : List (K × V)) (es : List (K × V)) : List (V × V) := es.filterMap fun p => (aget m2 p.1).map fun w => (p.2, w)

/-- **C166**, `EqualFunc`: the function is called with the two values of each key, one key after the other, until one is not in the other map, it returns false, or it
panics; it is not called if the numbers of keys differ. The map stays. -/
theorem C166_equalFunc (eq : V → V → Pan S Bool) (m2 : List (K × V)) (_hes : es.Perm m) (s : S) :
    (m.length ≠ m2.length → (equalFunc eq m2 es).run ⟨m, s⟩ = (⟨m, s⟩, some false)) ∧
    (m.length = m2.length →
      (∃ as s', Asks (fun p => eq p.1 p.2) (both m2 es) s as s' ∧ (∀ e ∈ as, e = true) ∧ (∀ p ∈ es, aget m2 p.1 ≠ none) ∧
        (equalFunc eq m2 es).run ⟨m, s⟩ = (⟨m, s'⟩, some true)) ∨
      (∃ ds p rest as s', es = ds ++ p :: rest ∧ (∀ q ∈ ds, aget m2 q.1 ≠ none) ∧ (∀ e ∈ as, e = true) ∧
        ((aget m2 p.1 = none ∧ Asks (fun p => eq p.1 p.2) (both m2 ds) s as s') ∨
          ∃ w, aget m2 p.1 = some w ∧ Asks (fun p => eq p.1 p.2) (both m2 (ds ++ [p])) s (as ++ [false]) s') ∧
        (equalFunc eq m2 es).run ⟨m, s⟩ = (⟨m, s'⟩, some false)) ∨
      (∃ ds p rest as s1 s' w, es = ds ++ p :: rest ∧ (∀ q ∈ ds, aget m2 q.1 ≠ none) ∧ Asks (fun p => eq p.1 p.2) (both m2 ds) s as s1 ∧ (∀ e ∈ as, e = true) ∧
        aget m2 p.1 = some w ∧ (eq p.2 w).run s1 = (s', none) ∧ (equalFunc eq m2 es).run ⟨m, s⟩ = (⟨m, s'⟩, none))) := by
  clear _hes
  have hlen : (equalFunc eq m2 es).run ⟨m, s⟩ = if m.length ≠ m2.length then (⟨m, s⟩, some false) else (equalLoop eq m2 es).run ⟨m, s⟩ := by
    simp only [equalFunc, Pan.run_bind, Pan.run_read, id]
    split <;> rfl
  refine ⟨fun h => by rw [hlen, if_pos h], fun h => ?_⟩
  rw [hlen, if_neg (not_not_intro h)]
  clear h hlen
  induction es generalizing s with
  | nil => exact .inl ⟨[], s, .nil, by simp, by simp, rfl⟩
  | cons p es ih =>
    cases hw : aget m2 p.1 with
    | none =>
      refine .inr (.inl ⟨[], p, es, [], s, rfl, by simp, by simp, .inl ⟨hw, .nil⟩, ?_⟩)
      simp only [equalLoop, hw]; rfl
    | some w =>
      have hr : (equalLoop eq m2 (p :: es)).run ⟨m, s⟩ = match (eq p.2 w).run s with
          | (s', none) => (⟨m, s'⟩, none)
          | (s', some true) => (equalLoop eq m2 es).run ⟨m, s'⟩
          | (s', some false) => (⟨m, s'⟩, some false) := by
        simp only [equalLoop, hw, Pan.run_bind, call]
        rcases (eq p.2 w).run s with ⟨s', _ | _ | _⟩ <;> rfl
      have hb : ∀ l, both m2 (p :: l) = (p.2, w) :: both m2 l := fun l => by simp [both, hw]
      rcases e : (eq p.2 w).run s with ⟨s', _ | _ | _⟩
      · exact .inr (.inr ⟨[], p, es, [], s, s', w, rfl, by simp, .nil, by simp, hw, e, by rw [hr, e]⟩)
      · exact .inr (.inl ⟨[], p, es, [], s', rfl, by simp, by simp, .inr ⟨w, hw, by rw [List.nil_append, hb]; exact .cons e .nil⟩, by rw [hr, e]⟩)
      · have hr' : (equalLoop eq m2 (p :: es)).run ⟨m, s⟩ = (equalLoop eq m2 es).run ⟨m, s'⟩ := by rw [hr, e]
        have hp : aget m2 p.1 ≠ none := by rw [hw]; simp
        rcases ih s' with ⟨as, s2, h1, h2, h3, h4⟩ | ⟨ds, q, rest, as, s2, h1, h2, h3, h4, h5⟩ | ⟨ds, q, rest, as, s1, s2, w', h1, h2, h3, h4, h5, h6, h7⟩
        · exact .inl ⟨true :: as, s2, by rw [hb]; exact .cons e h1, by simpa using h2, by simpa [hp] using h3, hr'.trans h4⟩
        · refine .inr (.inl ⟨p :: ds, q, rest, true :: as, s2, by rw [h1]; rfl, by simpa [hp] using h2, by simpa using h3, ?_, hr'.trans h5⟩)
          rcases h4 with ⟨h4, h6⟩ | ⟨w', h4, h6⟩
          · exact .inl ⟨h4, by rw [hb]; exact .cons e h6⟩
          · exact .inr ⟨w', h4, by rw [List.cons_append, hb]; exact .cons e h6⟩
        · exact .inr (.inr ⟨p :: ds, q, rest, true :: as, s1, s2, w', by rw [h1]; rfl, by simpa [hp] using h2, by rw [hb]; exact .cons e h3, by simpa using h4, h5, h6,
            hr'.trans h7⟩)

/-- Deletes the even keys and panics at the third call: 4 is gone, 2 is not. -/
example : (deleteFunc (fun p : Nat × Nat => (⟨fun n => (n + 1, if n = 2 then none else some (p.1 % 2 == 0))⟩ : Pan Nat Bool)) [(4, 40), (1, 10), (2, 20)]).run
    ⟨[(1, 10), (2, 20), (4, 40)], 0⟩ = (⟨[(1, 10), (2, 20)], 3⟩, none) := by rfl

end Verif.GenMap.Panic
