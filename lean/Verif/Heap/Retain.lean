import Verif.Heap.IfaceSim
import Verif.Heap.Props

/-!
# What the heaps keep in the array behind the slice (C156)

`Pop` of `MinHeap` and `MaxHeap` (minheap.go:25-30, maxheap.go:25-30) and of the queues inside
`PQueue` (minqueue.go:25-30, maxqueue.go:25-30) shortens the slice and leaves the last place of the
array as it is.  Here the slice is modelled with the array behind it.

Simplified: the array is a list, its length is the capacity; how much `append` grows the array is an
arbitrary function of the length.
-/
namespace Verif.Heap.Retain
variable {T : Type}

/-- A slice together with the array behind it: `cells` from the start of the slice to the end of the
capacity, of which the first `len` places are the slice. -/
structure Arr (T : Type) where
  cells : List T
  len : Nat
deriving DecidableEq

/-- What the client sees through the slice. -/
def Arr.seen (a : Arr T) : List T := a.cells.take a.len
/-- What is in the array behind the slice's end. -/
def Arr.hidden (a : Arr T) : List T := a.cells.drop a.len

/-- The methods with the array: minheap.go:9-30, maxheap.go:9-30, minqueue.go:9-30, maxqueue.go:9-30.
`append` (minheap.go:22, maxheap.go:22, minqueue.go:22, maxqueue.go:22) writes behind the end if there
is room, and otherwise copies to a new array with `grow` further places, zeroed. -/
def arr (lt : T → T → Bool) (zero : T) (grow : Nat → Nat) : Iface (Arr T) T where
  len := Arr.len
  less := fun a i j => match at? a.seen i, at? a.seen j with
    | some x, some y => some (lt x y, a)
    | _, _ => none
  swap := fun a i j => match at? a.seen i, at? a.seen j with
    | some x, some y => some { a with cells := (a.cells.set i.toNat y).set j.toNat x }
    | _, _ => none
  push := fun a x =>
    if a.len < a.cells.length then some ⟨a.cells.set a.len x, a.len + 1⟩
    else some ⟨a.seen ++ [x] ++ List.replicate (grow a.len) zero, a.len + 1⟩
  pop := fun a => match a.seen.getLast? with
    | some x => some (x, { a with len := a.len - 1 })
    | none => none

/-- The slice `l` in an array where `t` follows. -/
def Arr.mk' (l t : List T) : Arr T := ⟨l ++ t, l.length⟩

theorem mk'_eq (a : Arr T) (h : a.len ≤ a.cells.length) : Arr.mk' a.seen a.hidden = a := by
  obtain ⟨c, n⟩ := a
  simp only [Arr.mk', Arr.seen, Arr.hidden, List.take_append_drop, List.length_take]
  simp only at h
  rw [Nat.min_eq_left h]

/-- The slice shows `l`, and from place `n` on the array holds `t`. -/
def Shows (n : Nat) (t : List T) (a : Arr T) (l : List T) : Prop :=
  a.len ≤ n ∧ n ≤ a.cells.length ∧ a.cells.drop n = t ∧ a.seen = l

theorem at?_lt {l : List T} {i : Int} {x : T} (h : at? l i = some x) : i.toNat < l.length := by
  unfold at? at h
  split at h
  · cases h
  · exact (List.getElem?_eq_some_iff.1 h).1

theorem arr_sim (lt : T → T → Bool) (zero : T) (grow : Nat → Nat) (n : Nat) (t : List T) :
    Sim (arr lt zero grow) (slice lt) (Shows n t) (fun x y a => x = y ∧ a.cells[a.len]? = some x) where
  len := by
    rintro a l ⟨h1, h2, h3, rfl⟩
    simp only [arr, slice, Arr.seen, List.length_take]
    omega
  less := by
    rintro a l i j ⟨h1, h2, h3, rfl⟩
    simp only [arr, slice]
    rcases at? a.seen i with _ | x <;> rcases at? a.seen j with _ | y <;> simp only [RelO]
    exact ⟨trivial, h1, h2, h3, rfl⟩
  swap := by
    rintro a l i j ⟨h1, h2, h3, rfl⟩
    simp only [arr, slice]
    rcases hx : at? a.seen i with _ | x <;> rcases hy : at? a.seen j with _ | y <;> simp only [RelO]
    have hi := at?_lt hx
    have hj := at?_lt hy
    simp only [Arr.seen, List.length_take] at hi hj
    refine ⟨h1, by simpa using h2, ?_, ?_⟩
    · simp only
      rw [List.drop_set_of_lt (by omega), List.drop_set_of_lt (by omega), h3]
    · simp only [Arr.seen, List.take_set]
  pop := by
    rintro a l ⟨h1, h2, h3, rfl⟩
    simp only [arr, slice]
    rcases hx : a.seen.getLast? with _ | x <;> simp only [RelO]
    have h0 : a.len ≠ 0 := by
      intro h0
      simp [Arr.seen, h0] at hx
    have hl : a.seen.length = a.len := by simp only [Arr.seen, List.length_take]; omega
    rw [List.getLast?_eq_getElem?, hl, Arr.seen, List.getElem?_take_of_lt (by omega)] at hx
    refine ⟨⟨trivial, hx⟩, by simp only; omega, h2, h3, ?_⟩
    simp only [Arr.seen]
    rw [List.dropLast_eq_take, List.take_take, List.length_take]
    congr 1
    omega

theorem relO_map {S S' : Type} {R : S → S' → Prop} {x : Option S} {y : Option S'} {f : S' → S} (h : RelO R x y)
    (hf : ∀ a b, y = some b → R a b → a = f b) : x = y.map f := by
  rcases x with _ | a <;> rcases y with _ | b <;> simp only [RelO] at h
  · rfl
  · rw [Option.map_some, hf a b rfl h]

theorem shows_mk' (l t : List T) : Shows l.length t (Arr.mk' l t) l := by
  refine ⟨Nat.le_refl _, by simp [Arr.mk'], by simp [Arr.mk'], by simp [Arr.mk', Arr.seen]⟩

/-- A state that shows `l` of length `n` is determined. -/
theorem of_shows {l t : List T} {a : Arr T} (h : Shows l.length t a l) : a = Arr.mk' l t := by
  obtain ⟨h1, h2, h3, h4⟩ := h
  have hl : a.seen.length = a.len := by simp only [Arr.seen, List.length_take]; omega
  rw [h4] at hl
  rw [← mk'_eq a (by omega)]
  rw [h4, Arr.hidden, ← hl, h3]

/-- A state that shows one element less, with what was taken out behind. -/
theorem of_shows_pop {l t : List T} {a : Arr T} {x : T} {n : Nat} (hn : n = l.length + 1) (h : Shows n t a l)
    (hx : a.cells[a.len]? = some x) : a = Arr.mk' l (x :: t) := by
  obtain ⟨h1, h2, h3, h4⟩ := h
  have hl : a.seen.length = a.len := by simp only [Arr.seen, List.length_take]; omega
  rw [h4] at hl
  rw [← mk'_eq a (by omega), h4, Arr.hidden]
  congr 1
  obtain ⟨hlt, hx⟩ := List.getElem?_eq_some_iff.1 hx
  rw [List.drop_eq_getElem_cons hlt, hx, ← h3, hn, hl]

section
variable (lt : T → T → Bool) (zero : T) (grow : Nat → Nat) (l t : List T)

/-- C156: `Pop` returns what it returns, and leaves the returned element in the array, at the place
directly behind the slice; what was behind the slice before stays where it is. -/
theorem C156_pop : (arr lt zero grow).hpop (.mk' l t) = (pop lt l).map (fun r => (r.1, .mk' r.2 (r.1 :: t))) := by
  have h := (arr_sim lt zero grow l.length t).hpop _ _ (shows_mk' l t)
  rw [slice_hpop] at h
  refine relO_map h ?_
  rintro ⟨x, a⟩ ⟨y, l'⟩ hy ⟨⟨rfl, hx⟩, hs⟩
  by_cases h0 : l.length = 0
  · simp [pop, h0] at hy
  obtain ⟨y', l'', h1, h2, _⟩ := pop_spec (lt := lt) l (by omega)
  rw [hy] at h1; cases h1
  have := h2.length_eq
  rw [Prod.mk.injEq]
  exact ⟨rfl, of_shows_pop (by simpa using this) hs hx⟩

/-- C156: so does `Remove`, for every index. -/
theorem C156_remove (i : Int) :
    (arr lt zero grow).remove (.mk' l t) i = (remove lt l i).map (fun r => (r.1, .mk' r.2 (r.1 :: t))) := by
  have h := (arr_sim lt zero grow l.length t).remove _ _ i (shows_mk' l t)
  rw [slice_remove] at h
  refine relO_map h ?_
  rintro ⟨x, a⟩ ⟨y, l'⟩ hy ⟨⟨rfl, hx⟩, hs⟩
  by_cases hr : i < 0 ∨ (l.length : Int) ≤ i
  · rw [(C24_remove_perm lt l i).2 hr] at hy; cases hy
  obtain ⟨y', l'', h1, _, h2, _⟩ := remove_spec (lt := lt) l i.toNat (by omega)
  rw [Int.toNat_of_nonneg (by omega), hy] at h1; cases h1
  have := h2.length_eq
  rw [Prod.mk.injEq]
  exact ⟨rfl, of_shows_pop (by simpa using this) hs hx⟩

/-- C156: `Init` leaves alone what is behind the slice. -/
theorem C156_init : (arr lt zero grow).init (.mk' l t) = (init lt l).map (fun l' => .mk' l' t) := by
  have h := (arr_sim lt zero grow l.length t).init _ _ (shows_mk' l t)
  rw [slice_init] at h
  refine relO_map h ?_
  rintro a l' hy hs
  obtain ⟨l'', h1, h2, _⟩ := init_spec (lt := lt) l
  rw [hy] at h1; cases h1
  rw [← h2.length_eq] at hs
  exact of_shows hs

/-- C156: so does `Fix`. -/
theorem C156_fix (i : Nat) (hi : i < l.length) :
    (arr lt zero grow).fix (.mk' l t) i = (fix lt l i).map (fun l' => .mk' l' t) := by
  have h := (arr_sim lt zero grow l.length t).fix _ _ i (shows_mk' l t)
  rw [slice_fix] at h
  refine relO_map h ?_
  rintro a l' hy hs
  obtain ⟨l'', h1, h2, _⟩ := fix_spec (lt := lt) l i hi
  rw [hy] at h1; cases h1
  rw [← h2.length_eq] at hs
  exact of_shows hs

/-- C156: `Push` overwrites the first place behind the slice; if there is none, the heap moves to a new
array with nothing but zeros behind the slice. -/
theorem C156_push (x : T) : (arr lt zero grow).hpush (.mk' l t) x =
    (push lt l x).map (fun l' => .mk' l' (if t = [] then List.replicate (grow l.length) zero else t.tail)) := by
  have hp : RelO (Shows (l.length + 1) (if t = [] then List.replicate (grow l.length) zero else t.tail))
      ((arr lt zero grow).push (.mk' l t) x) ((slice lt).push l x) := by
    simp only [arr, slice, Arr.mk', List.length_append]
    rcases t with _ | ⟨y, t⟩
    · simp only [List.length_nil, Nat.add_zero, Nat.lt_irrefl, if_false, RelO]
      refine ⟨Nat.le_refl _, by simp [Arr.seen], ?_, ?_⟩
      · simp [Arr.seen]
      · simp [Arr.seen, List.take_append, List.take_of_length_le]
    · have : l.length < l.length + (y :: t).length := by simp
      simp only [this, if_true, RelO]
      refine ⟨Nat.le_refl _, by simp, ?_, ?_⟩
      · simp
      · simp [Arr.seen, List.take_append, List.take_of_length_le]
  have h := (arr_sim lt zero grow _ _).hpush _ _ x x hp
  rw [slice_hpush] at h
  refine relO_map h ?_
  rintro a l' hy hs
  obtain ⟨l'', h1, h2, _⟩ := push_spec (lt := lt) l x
  rw [hy] at h1; cases h1
  have e : l.length + 1 = l'.length := by rw [h2.length_eq]; simp
  rw [e] at hs
  exact of_shows hs

end

/-! ## The wish, and that it is false -/

/-- The array holds no element that the slice does not show. -/
def Clean (zero : T) (a : Arr T) : Prop := ∀ x ∈ a.hidden, x = zero

/-- C156, what one would like: after `Pop` on a heap that keeps nothing behind its end, it keeps
nothing there.  It is false: the popped element stays. -/
theorem C156_clean_false : ¬ ∀ (a a' : Arr Int) (x : Int) (grow : Nat → Nat), a.len ≤ a.cells.length → Clean 0 a →
    (arr minLess 0 grow).hpop a = some (x, a') → Clean 0 a' := by
  intro h
  have h1 := h (.mk' [3, 5] []) (.mk' [5] [3]) 3 id (by decide) (by simp [Clean, Arr.mk', Arr.hidden])
    (by rw [C156_pop]; decide +kernel)
  exact absurd (h1 3 (by simp [Arr.mk', Arr.hidden])) (by decide)

/-- C156: it fails at every `Pop` and every `Remove` of an element other than the zero value. -/
theorem C156_kept (lt : T → T → Bool) (zero : T) (grow : Nat → Nat) (a a' : Arr T) (x : T) (h0 : a.len ≤ a.cells.length)
    (h : (arr lt zero grow).hpop a = some (x, a') ∨ ∃ i, (arr lt zero grow).remove a i = some (x, a')) :
    a'.len + 1 = a.len ∧ a'.hidden = x :: a.hidden ∧ (x ≠ zero → ¬ Clean zero a') := by
  have key : ∀ l', a' = .mk' l' (x :: a.hidden) → l'.length + 1 = a.seen.length →
      a'.len + 1 = a.len ∧ a'.hidden = x :: a.hidden ∧ (x ≠ zero → ¬ Clean zero a') := by
    rintro l' rfl hl
    have hs : a.seen.length = a.len := by simp only [Arr.seen, List.length_take]; omega
    refine ⟨by simpa [Arr.mk', hs] using hl, by simp [Arr.mk', Arr.hidden], fun hx hc => hx (hc x ?_)⟩
    simp [Arr.mk', Arr.hidden]
  rw [← mk'_eq a h0] at h
  rcases h with h | ⟨i, h⟩
  · rw [C156_pop] at h
    rcases hp : pop lt a.seen with _ | ⟨y, l'⟩
    · rw [hp] at h; cases h
    · rw [hp] at h
      simp only [Option.map_some, Option.some.injEq, Prod.mk.injEq] at h
      obtain ⟨rfl, h⟩ := h
      refine key l' h.symm ?_
      by_cases hz : a.seen.length = 0
      · simp [pop, hz] at hp
      obtain ⟨y', l'', h1, h2, _⟩ := pop_spec (lt := lt) a.seen (by omega)
      rw [hp] at h1; cases h1
      have := h2.length_eq
      simp at this; omega
  · rw [C156_remove] at h
    rcases hp : remove lt a.seen i with _ | ⟨y, l'⟩
    · rw [hp] at h; cases h
    · rw [hp] at h
      simp only [Option.map_some, Option.some.injEq, Prod.mk.injEq] at h
      obtain ⟨rfl, h⟩ := h
      refine key l' h.symm ?_
      by_cases hr : i < 0 ∨ (a.seen.length : Int) ≤ i
      · rw [(C24_remove_perm lt a.seen i).2 hr] at hp; cases hp
      obtain ⟨y', l'', h1, _, h2, _⟩ := remove_spec (lt := lt) a.seen i.toNat (by omega)
      rw [Int.toNat_of_nonneg (by omega), hp] at h1; cases h1
      have := h2.length_eq
      simp at this; omega

/-! ## Draining sorts the array in place -/

/-- Pop `k` times. -/
def popN (I : Iface (Arr T) T) : Nat → Arr T → Option (List T × Arr T)
  | 0, a => some ([], a)
  | k + 1, a => match I.hpop a with
    | none => none
    | some (x, a') => match popN I k a' with
      | none => none
      | some (xs, a'') => some (x :: xs, a'')

/-- C156: a heap that is popped until it is empty leaves all its elements in its array, the first popped
last; what was behind the slice follows unchanged. -/
theorem C156_drain (lt : T → T → Bool) (zero : T) (grow : Nat → Nat) (sw : StrictWeak lt) : ∀ (l t : List T), IsHeap lt l →
    ∃ xs, popN (arr lt zero grow) l.length (.mk' l t) = some (xs, ⟨xs.reverse ++ t, 0⟩) ∧ xs.Perm l ∧ Sorted lt xs := by
  intro l
  induction hn : l.length generalizing l with
  | zero =>
    intro t hh
    have : l = [] := List.eq_nil_of_length_eq_zero hn
    subst this
    exact ⟨[], rfl, .refl _, .nil⟩
  | succ n ih =>
    intro t hh
    obtain ⟨x, l', h1, h2, h3, h4⟩ := pop_spec (lt := lt) l (by omega)
    have hl' : l'.length = n := by have := h2.length_eq; simp at this; omega
    obtain ⟨xs, g1, g2, g3⟩ := ih l' hl' (x :: t) (h4 sw hh)
    refine ⟨x :: xs, ?_, (g2.cons x).trans h2.symm, ?_⟩
    · simp [popN, C156_pop, h1, g1]
    · refine List.Pairwise.cons (fun y hy => ?_) g3
      exact root_least sw hh h3 y (h2.mem_iff.2 (List.mem_cons_of_mem _ (g2.mem_iff.1 hy)))

/-! ## Until when an element is kept -/

/-- The calls of a client. -/
inductive Call (T : Type) where
  | push (x : T) | pop | remove (i : Int) | init | fix (i : Nat)

/-- A call's effect. -/
def call (I : Iface (Arr T) T) (a : Arr T) : Call T → Option (Arr T)
  | .push x => I.hpush a x
  | .pop => (I.hpop a).map (·.2)
  | .remove i => (I.remove a i).map (·.2)
  | .init => I.init a
  | .fix i => if i < a.len then I.fix a i else none

/-- A run of calls that do not panic. -/
def calls (I : Iface (Arr T) T) (a : Arr T) : List (Call T) → Option (Arr T)
  | [] => some a
  | c :: cs => match call I a c with
    | none => none
    | some a' => calls I a' cs

/-- Whether the call is a `Push`. -/
def Call.isPush : Call T → Bool
  | .push _ => true
  | _ => false

theorem call_hidden (lt : T → T → Bool) (zero : T) (grow : Nat → Nat) (l t : List T) (c : Call T) (a' : Arr T)
    (h : call (arr lt zero grow) (.mk' l t) c = some a') :
    ∃ l' t', a' = .mk' l' t' ∧
      (c.isPush = false → ∃ p, t' = p ++ t ∧ l'.length + p.length = l.length) ∧
      (c.isPush = true → l'.length = l.length + 1 ∧ (t' = if t = [] then List.replicate (grow l.length) zero else t.tail)) := by
  cases c with
  | push x =>
    simp only [call, C156_push] at h
    obtain ⟨l', h1, h2, _⟩ := push_spec (lt := lt) l x
    rw [h1] at h
    cases h
    refine ⟨l', _, rfl, by simp [Call.isPush], fun _ => ⟨by simpa using h2.length_eq, rfl⟩⟩
  | pop =>
    simp only [call, C156_pop] at h
    by_cases hz : l.length = 0
    · simp [pop, hz] at h
    obtain ⟨x, l', h1, h2, _⟩ := pop_spec (lt := lt) l (by omega)
    rw [h1] at h
    cases h
    exact ⟨l', _, rfl, fun _ => ⟨[x], rfl, by have := h2.length_eq; simpa using this.symm⟩, by simp [Call.isPush]⟩
  | remove i =>
    simp only [call, C156_remove] at h
    by_cases hr : i < 0 ∨ (l.length : Int) ≤ i
    · rw [(C24_remove_perm lt l i).2 hr] at h; cases h
    obtain ⟨x, l', h1, _, h2, _⟩ := remove_spec (lt := lt) l i.toNat (by omega)
    rw [Int.toNat_of_nonneg (by omega)] at h1
    rw [h1] at h
    cases h
    exact ⟨l', _, rfl, fun _ => ⟨[x], rfl, by have := h2.length_eq; simpa using this.symm⟩, by simp [Call.isPush]⟩
  | init =>
    simp only [call, C156_init] at h
    obtain ⟨l', h1, h2, _⟩ := init_spec (lt := lt) l
    rw [h1] at h
    cases h
    exact ⟨l', t, rfl, fun _ => ⟨[], rfl, by simpa using h2.length_eq⟩, by simp [Call.isPush]⟩
  | fix i =>
    simp only [call] at h
    split at h
    · next hi =>
      have hi : i < l.length := by simpa [Arr.mk'] using hi
      rw [C156_fix _ _ _ _ _ _ hi] at h
      obtain ⟨l', h1, h2, _⟩ := fix_spec (lt := lt) l i hi
      rw [h1] at h
      cases h
      exact ⟨l', t, rfl, fun _ => ⟨[], rfl, by simpa using h2.length_eq⟩, by simp [Call.isPush]⟩
    · cases h

/-- C156: what is behind the slice stays in its place through any calls other than `Push`. -/
theorem C156_stays (lt : T → T → Bool) (zero : T) (grow : Nat → Nat) (cs : List (Call T)) : ∀ (l t : List T) (a' : Arr T),
    (∀ c ∈ cs, c.isPush = false) → calls (arr lt zero grow) (.mk' l t) cs = some a' →
    a'.cells.drop l.length = t ∧ a'.cells.length = l.length + t.length := by
  induction cs with
  | nil =>
    intro l t a' _ h
    cases h
    simp [Arr.mk']
  | cons c cs ih =>
    intro l t a' hc h
    rcases h1 : call (arr lt zero grow) (.mk' l t) c with _ | a1
    · simp [calls, h1] at h
    · obtain ⟨l', t', rfl, hp, _⟩ := call_hidden lt zero grow l t c a1 h1
      obtain ⟨p, rfl, hl⟩ := hp (hc c (by simp))
      simp only [calls, h1] at h
      obtain ⟨g1, g2⟩ := ih l' (p ++ t) a' (fun c' h' => hc c' (by simp [h'])) h
      refine ⟨?_, by simp at g2; omega⟩
      have : a'.cells.drop l.length = (a'.cells.drop l'.length).drop p.length := by rw [List.drop_drop, hl]
      rw [this, g1]
      simp

/-- C156: the array never gets smaller, whatever is called. -/
theorem C156_grows (lt : T → T → Bool) (zero : T) (grow : Nat → Nat) (cs : List (Call T)) : ∀ (a a' : Arr T),
    a.len ≤ a.cells.length → calls (arr lt zero grow) a cs = some a' → a.cells.length ≤ a'.cells.length ∧ a'.len ≤ a'.cells.length := by
  induction cs with
  | nil =>
    intro a a' h0 h
    cases h
    exact ⟨Nat.le_refl _, h0⟩
  | cons c cs ih =>
    intro a a' h0 h
    rcases h1 : call (arr lt zero grow) a c with _ | a1
    · simp [calls, h1] at h
    · have h2 := h1
      rw [← mk'_eq a h0] at h2
      obtain ⟨l', t', rfl, hp, hq⟩ := call_hidden lt zero grow _ _ c a1 h2
      simp only [calls, h1] at h
      obtain ⟨g1, g2⟩ := ih _ a' (by simp [Arr.mk']) h
      refine ⟨?_, g2⟩
      have e : a.cells.length = a.seen.length + a.hidden.length := by
        simp only [Arr.seen, Arr.hidden, List.length_take, List.length_drop]; omega
      have e1 : (Arr.mk' l' t').cells.length = l'.length + t'.length := by simp [Arr.mk']
      rcases hc : c.isPush with _ | _
      · obtain ⟨p, rfl, hl⟩ := hp hc
        simp only [List.length_append] at e1
        omega
      · obtain ⟨hl, ht⟩ := hq hc
        have : a.hidden.length ≤ t'.length + 1 := by
          rw [ht]
          split
          · next h => simp [h]
          · simp only [List.length_tail]; omega
        omega

/-- Three pushes, then three pops: the array behind the empty slice holds everything, largest first. -/
example : (calls (arr minLess 0 (fun n => n - 1)) (.mk' ([] : List Int) []) [.push 7, .push 2, .push 5]).bind
    (popN (arr minLess 0 (fun n => n - 1)) 3) = some ([2, 5, 7], ⟨[7, 5, 2, 0], 0⟩) := by
  simp only [calls, call, C156_push, show push minLess [] (7 : Int) = some [7] from by decide +kernel, Option.map_some,
    show push minLess [7] (2 : Int) = some [2, 7] from by decide +kernel,
    show push minLess [2, 7] (5 : Int) = some [2, 7, 5] from by decide +kernel]
  simp only [popN, Option.bind, C156_pop, show pop minLess [(2 : Int), 7, 5] = some (2, [5, 7]) from by decide +kernel, Option.map_some,
    show pop minLess [(5 : Int), 7] = some (5, [7]) from by decide +kernel,
    show pop minLess [(7 : Int)] = some (7, []) from by decide +kernel]
  decide

end Verif.Heap.Retain
