import Verif.Vec.More
/-!
# `Range` with a function that changes the vector (vec.go:236-242)

`Range` looks up length and element anew at every step, so what it passes depends on what the function does to the vector.
-/
namespace Verif.Vec
variable {T A : Type}

/-! ### The code -/

/-- `Range` from index `i` on: vec.go:236-242.  The function gets the memory and its own variables `a`, and may panic (`none`); `none` also when
the fuel runs out.  The index test of `v.d[i]` is the same as the loop condition just evaluated. -/
def rangeFrom (E : Elt T) (body : VMem T → A → Nat → T → Option (VMem T × A × Bool)) : Nat → VMem T → A → Nat → Nat → Option (VMem T × A)
  | 0, _, _, _, _ => none
  | fuel + 1, m, a, v, i =>
    if i < m.len v then
      match body m a i (m.at E v i) with
      | none => none
      | some (m', a', true) => rangeFrom E body fuel m' a' v (i + 1)
      | some (m', a', false) => some (m', a')
    else some (m, a)

/-! ### What it means -/

/-- One call of the function: memory before, index and element passed, memory after, result. -/
structure Visit (T : Type) where
  before : VMem T
  i : Nat
  x : T
  after : VMem T
  go : Bool

/-- What the calls of the function have to be, from memory `m` and index `i` on, to memory `m'`. -/
inductive Goes (E : Elt T) (g : Nat → Nat) (v : Nat) : Nat → VMem T → List (Visit T) → VMem T → Prop
  | done {i : Nat} {m : VMem T} {l : List T} : Shows E g m v l → l.length ≤ i → Goes E g v i m [] m
  | stop {i : Nat} {m m' : VMem T} {l : List T} {x : T} : Shows E g m v l → l[i]? = some x → Goes E g v i m [⟨m, i, x, m', false⟩] m'
  | next {i : Nat} {m m1 m' : VMem T} {l : List T} {x : T} {log : List (Visit T)} : Shows E g m v l → l[i]? = some x →
      Goes E g v (i + 1) m1 log m' → Goes E g v i m (⟨m, i, x, m1, true⟩ :: log) m'

/-- The function, noting its calls. -/
def logged (body : VMem T → A → Nat → T → Option (VMem T × A × Bool)) (m : VMem T) (a : A × List (Visit T)) (i : Nat) (x : T) :
    Option (VMem T × (A × List (Visit T)) × Bool) :=
  match body m a.1 i x with
  | some (m', a', c) => some (m', (a', a.2 ++ [⟨m, i, x, m', c⟩]), c)
  | none => none

/-- Calls of methods of existing vectors, and writes to slices obtained from them. -/
inductive Acts (E : Elt T) (g : Nat → Nat) (P : SortImpl T) : VMem T → VMem T → Prop
  | nil {m : VMem T} : Acts E g P m m
  | call {m m1 m' : VMem T} {op : Mut T} {r : Res T} : (∀ v, op.recv = some v → v < m.nv) → exec E g P m op = some (m1, r) →
      Acts E g P m1 m' → Acts E g P m m'
  | poke {m m' : VMem T} {v k : Nat} {sl : Slice} {x : T} : View m v sl → sl.off + k < (m.mem.arr sl.a).length →
      Acts E g P (poke m sl k x) m' → Acts E g P m m'

/-- The function changes the memory only in these ways. -/
def Uses (E : Elt T) (g : Nat → Nat) (P : SortImpl T) (body : VMem T → A → Nat → T → Option (VMem T × A × Bool)) : Prop :=
  ∀ m a i x m' a' c, body m a i x = some (m', a', c) → Acts E g P m m'

variable {E : Elt T} {g : Nat → Nat} {P : SortImpl T} {m : VMem T} {s : SState T}

/-! ### Proofs -/

theorem spec_n {op : Mut T} {s' : SState T} {p : Res T → Prop} (e2 : spec E P s op = some (s', p)) : s.n ≤ s'.n := by
  cases op <;> simp only [spec] at e2 <;> (repeat' split at e2) <;> (try cases e2) <;>
    first
    | exact Nat.le_refl _
    | exact Nat.le_succ _
    | (obtain ⟨l, _, he⟩ := Option.map_eq_some_iff.1 e2; cases he; exact Nat.le_refl _)
    | exact Nat.le_of_eq (remAt_frame' e2).2.symm
    | exact Nat.le_of_eq (remAt_frame' (E := E) (s := s) rfl).2.symm

theorem Acts.rel {m' : VMem T} (h : Acts E g P m m') : ∀ {s : SState T}, Rel m s → ∃ s', Rel m' s' ∧ m.nv ≤ m'.nv := by
  induction h with
  | nil => exact fun h => ⟨_, h, Nat.le_refl _⟩
  | @call m m1 m' op r hok he _ ih =>
    intro s h
    rcases step' (E := E) (g := g) (P := P) h op hok with ⟨e, _⟩ | ⟨m'', r'', s', p, e1, e2, e3, _⟩
    · rw [e] at he; cases he
    · rw [e1] at he
      injection he with he
      injection he with he1 _
      subst he1
      obtain ⟨t, h1, h2⟩ := ih e3
      have := spec_n e2
      rw [← h.n, ← e3.n] at this
      exact ⟨t, h1, by omega⟩
  | poke hvw hk _ ih =>
    intro s h
    obtain ⟨l', h'⟩ := poke_rel h hvw _ _ hk
    obtain ⟨t, h1, h2⟩ := ih h'
    exact ⟨t, h1, h2⟩

theorem Rel.at_some (h : Rel m s) {v : Nat} (hv : v < m.nv) {i : Nat} (hi : i < m.len v) : (s.l v)[i]? = some (m.at E v i) := by
  have hl := h.len hv
  rw [hl] at hi
  rw [h.at_eq hv hi, List.getElem?_eq_getElem hi]; rfl

theorem goes_of_rangeFrom {body : VMem T → A → Nat → T → Option (VMem T × A × Bool)} (hb : Uses E g P body) {v : Nat} :
    ∀ (fuel : Nat) (m : VMem T) (s : SState T) (a : A) (pre : List (Visit T)) (i : Nat) (m' : VMem T) (a' : A) (log : List (Visit T)),
      Rel m s → v < m.nv → rangeFrom E (logged body) fuel m (a, pre) v i = some (m', (a', log)) →
      ∃ more, log = pre ++ more ∧ Goes E g v i m more m' := by
  intro fuel
  induction fuel with
  | zero => intro m s a pre i m' a' log _ _ hr; simp [rangeFrom] at hr
  | succ fuel ih =>
    intro m s a pre i m' a' log h hv hr
    have hs := h.shows (E := E) (g := g) hv
    simp only [rangeFrom] at hr
    by_cases hi : i < m.len v
    · rw [if_pos hi] at hr
      have hx := h.at_some (E := E) hv hi
      simp only [logged] at hr
      cases hbd : body m a i (m.at E v i) with
      | none => simp [hbd] at hr
      | some q =>
        obtain ⟨m1, a1, c⟩ := q
        obtain ⟨s1, h1, h2⟩ := (hb _ _ _ _ _ _ _ hbd).rel h
        cases c with
        | false =>
          simp only [hbd, Option.some.injEq, Prod.mk.injEq] at hr
          obtain ⟨rfl, rfl, rfl⟩ := hr
          exact ⟨_, rfl, .stop hs hx⟩
        | true =>
          simp only [hbd] at hr
          obtain ⟨more, e, hg⟩ := ih m1 s1 a1 _ (i + 1) m' a' log h1 (by omega) hr
          exact ⟨_, by rw [e, List.append_assoc]; rfl, .next hs hx hg⟩
    · rw [if_neg hi] at hr
      simp only [Option.some.injEq, Prod.mk.injEq] at hr
      obtain ⟨rfl, rfl, rfl⟩ := hr
      have := h.len hv
      exact ⟨[], by simp, .done hs (by omega)⟩

/-- C119: whatever the function does to the vector, its calls have the indices 0, 1, 2, … and the element that is at that index when the call
is made; `Range` ends when the function says so or the index is no longer below the length. -/
theorem C119_range (hr : ARun E g P m) {v : Nat} (hv : v < m.nv) {body : VMem T → A → Nat → T → Option (VMem T × A × Bool)}
    (hb : Uses E g P body) {fuel : Nat} {a a' : A} {m' : VMem T} {log : List (Visit T)}
    (h : rangeFrom E (logged body) fuel m (a, []) v 0 = some (m', (a', log))) : Goes E g v 0 m log m' := by
  obtain ⟨s, hs⟩ := hr.rel
  obtain ⟨more, e, hg⟩ := goes_of_rangeFrom hb fuel m s a [] 0 m' a' log hs hv h
  rw [e]; exact hg

/-- C119: `Range` does not panic, and ends after at most `n` calls if the function does not panic and keeps the length from exceeding `n`. -/
theorem C119_ends {v n : Nat} {body : VMem T → A → Nat → T → Option (VMem T × A × Bool)} (hm : m.len v ≤ n) (a : A)
    (hb : ∀ m a i x, m.len v ≤ n → ∃ m' a' c, body m a i x = some (m', a', c) ∧ m'.len v ≤ n) :
    ∃ m' a' log, rangeFrom E (logged body) (n + 1) m (a, []) v 0 = some (m', (a', log)) ∧ log.length ≤ n := by
  have key : ∀ (fuel : Nat) (m : VMem T) (a : A) (pre : List (Visit T)) (i : Nat), m.len v ≤ n → n < fuel + i → pre.length = i → i ≤ n →
      ∃ m' a' log, rangeFrom E (logged body) fuel m (a, pre) v i = some (m', (a', log)) ∧ log.length ≤ n := by
    intro fuel
    induction fuel with
    | zero => intro m a pre i _ h1 _ h2; omega
    | succ fuel ih =>
      intro m a pre i hm h1 hp h2
      simp only [rangeFrom]
      by_cases hi : i < m.len v
      · rw [if_pos hi]
        obtain ⟨m1, a1, c, e, hn⟩ := hb m a i (m.at E v i) hm
        simp only [logged, e]
        cases c with
        | false => exact ⟨_, _, _, rfl, by simp; omega⟩
        | true => exact ih m1 a1 _ (i + 1) hn (by omega) (by simp [hp]) (by omega)
      · rw [if_neg hi]
        exact ⟨_, _, _, rfl, by omega⟩
  exact key (n + 1) m a [] 0 hm (by omega) rfl (by omega)

/-- C119: with a function that appends an element every time, `Range` of a nonempty vector does not end. -/
theorem C119_push_forever {v : Nat} (x : T) (hm : 0 < m.len v) (fuel : Nat) (a : A) :
    rangeFrom E (fun m a _ _ => some (push E g m v [x], a, true)) fuel m a v 0 = none := by
  have hp : ∀ m : VMem T, (push E g m v [x]).len v = m.len v + 1 := by
    intro m
    unfold push
    simp only
    have hl : ∀ (m : VMem T) , (m.setD v (append E g (some v) m.mem (m.d v) [x])).len v = m.len v + 1 := by
      intro m
      simp only [VMem.len, setD_d, append_len, List.length_singleton]
    split
    · rw [hl]
      simp only [VMem.len, setD_d, growS]
      split <;> simp [append_len, sub]
    · rw [hl]
  have key : ∀ (fuel : Nat) (m : VMem T) (a : A) (i : Nat), i < m.len v →
      rangeFrom E (fun m a _ _ => some (push E g m v [x], a, true)) fuel m a v i = none := by
    intro fuel
    induction fuel with
    | zero => intros; rfl
    | succ fuel ih =>
      intro m a i hi
      simp only [rangeFrom, if_pos hi]
      exact ih _ a (i + 1) (by rw [hp]; omega)
  exact key fuel m a 0 hm

/-! ### Elements passed -/

/-- Indices and elements. -/
def pairs (l : List T) : List (Nat × T) := l.zipIdx.map fun p => (p.2, p.1)

/-- The function does not touch what is ahead: it keeps the elements after the one it is given at their indices, and only appends. -/
def LeavesAhead (E : Elt T) (g : Nat → Nat) (v : Nat) (w : Visit T) : Prop :=
  ∀ l1 l2, Shows E g w.before v l1 → Shows E g w.after v l2 → l1.drop (w.i + 1) <+: l2.drop (w.i + 1)

theorem Goes.shows {v i : Nat} {m' : VMem T} {log : List (Visit T)} (h : Goes E g v i m log m') : ∃ l, Shows E g m v l := by
  cases h <;> exact ⟨_, ‹_›⟩

theorem Goes.pairs {v : Nat} {m' : VMem T} {i : Nat} {log : List (Visit T)} (h : Goes E g v i m log m') :
    ∀ {l t : List T}, Shows E g m v l → t <+: l.drop i → (∀ w ∈ log, w.go = true → LeavesAhead E g v w) →
    (log.map (fun w => (w.i, w.x)) <+: (t.zipIdx i).map (fun p => (p.2, p.1)) ∨
      (t.zipIdx i).map (fun p => (p.2, p.1)) <+: log.map (fun w => (w.i, w.x))) ∧
    ((∀ w ∈ log, w.go = true) → (t.zipIdx i).map (fun p => (p.2, p.1)) <+: log.map (fun w => (w.i, w.x))) := by
  induction h with
  | @done i m l0 hs hl =>
    intro l t hs' ht _
    have e : l0 = l := by rw [← hs.slice, hs'.slice]
    subst e
    rw [List.drop_eq_nil_of_le hl, List.prefix_nil] at ht
    subst ht
    simp
  | @stop i m m' l0 x hs hx =>
    intro l t hs' ht _
    have e : l0 = l := by rw [← hs.slice, hs'.slice]
    subst e
    refine ⟨?_, fun h => by simpa using h _ (List.mem_singleton.2 rfl)⟩
    cases t with
    | nil => right; simp
    | cons y t =>
      left
      obtain ⟨hi, hx⟩ := List.getElem?_eq_some_iff.1 hx
      rw [List.drop_eq_getElem_cons hi, List.cons_prefix_cons] at ht
      rw [ht.1, hx]
      simp [List.zipIdx_cons]
  | @next i m m1 m' l0 x log hs hx hg ih =>
    intro l t hs' ht hw
    have e : l0 = l := by rw [← hs.slice, hs'.slice]
    subst e
    obtain ⟨hi, hx⟩ := List.getElem?_eq_some_iff.1 hx
    rw [List.drop_eq_getElem_cons hi] at ht
    cases t with
    | nil => simp
    | cons y t =>
      rw [List.cons_prefix_cons, hx] at ht
      obtain ⟨rfl, ht⟩ := ht
      obtain ⟨l2, hs2⟩ := hg.shows
      have h1 := hw _ (List.mem_cons_self ..) rfl l0 l2 hs hs2
      obtain ⟨a, b⟩ := ih hs2 (ht.trans h1) (fun w h => hw w (List.mem_cons_of_mem _ h))
      simp only [List.zipIdx_cons, List.map_cons, List.cons_prefix_cons, true_and]
      exact ⟨a, fun h => b (fun w h' => h w (List.mem_cons_of_mem _ h'))⟩

/-- C120, for functions that leave what is ahead alone (they may change what is behind and the present element, append, and change other
vectors): the elements the vector has at the beginning are passed once each, in order, all of them unless the function ends it; what it has
appended is passed afterwards.  Missing: functions that insert or remove elements or change those ahead (`C120_false`). -/
theorem C120_passes_partial (hr : ARun E g P m) {v : Nat} (hv : v < m.nv) {body : VMem T → A → Nat → T → Option (VMem T × A × Bool)}
    (hb : Uses E g P body) {fuel : Nat} {a a' : A} {m' : VMem T} {log : List (Visit T)}
    (h : rangeFrom E (logged body) fuel m (a, []) v 0 = some (m', (a', log))) {l : List T} (hl : Shows E g m v l)
    (hw : ∀ w ∈ log, w.go = true → LeavesAhead E g v w) :
    (log.map (fun w => (w.i, w.x)) <+: pairs l ∨ pairs l <+: log.map (fun w => (w.i, w.x))) ∧
    ((∀ w ∈ log, w.go = true) → pairs l <+: log.map (fun w => (w.i, w.x))) :=
  (C119_range hr hv hb h).pairs hl (List.prefix_refl _) hw

/-- The elements at even indices. -/
def evens : List T → List T
  | [] => []
  | [x] => [x]
  | x :: _ :: l => x :: evens l
/-- The elements at odd indices. -/
def odds : List T → List T
  | [] => []
  | [_] => []
  | _ :: y :: l => y :: odds l

/-- C120 in full is false, for every vector with at least two elements: a function that removes each element it is given, by
`Remove(i)`, is given only every second one, and the others stay. -/
theorem C120_false (hr : ARun E g P m) {v : Nat} (hv : v < m.nv) {l : List T} (hl : Shows E g m v l) {fuel : Nat} (hf : l.length < fuel) :
    ∃ m', rangeFrom E (fun m (a : List T) i x => some ((remove E m v i).1, a ++ [x], true)) fuel m [] v 0 = some (m', evens l) ∧
      Shows E g m' v (odds l) := by
  obtain ⟨s, hs⟩ := hr.rel
  have key : ∀ (n fuel : Nat) (m : VMem T) (s : SState T) (a kept rest : List T), rest.length ≤ n → rest.length < fuel → Rel m s → v < m.nv →
      s.l v = kept ++ rest →
      ∃ m', rangeFrom E (fun m (a : List T) i x => some ((remove E m v i).1, a ++ [x], true)) fuel m a v kept.length = some (m', a ++ evens rest) ∧
        Shows E g m' v (kept ++ odds rest) := by
    intro n
    induction n with
    | zero =>
      intro fuel m s a kept rest h0 h1 h hv e
      have : rest = [] := List.length_eq_zero_iff.1 (by omega)
      subst this
      have hlen := h.len hv
      rw [e] at hlen
      obtain ⟨fuel, rfl⟩ : ∃ k, fuel = k + 1 := ⟨fuel - 1, by simp at h1; omega⟩
      refine ⟨m, ?_, ?_⟩
      · simp only [rangeFrom]; rw [if_neg (by simp at hlen; omega)]; simp [evens]
      · have := h.shows (E := E) (g := g) hv
        rw [e] at this
        simpa [odds] using this
    | succ n ih =>
      intro fuel m s a kept rest h0 h1 h hv e
      cases rest with
      | nil => exact ih fuel m s a kept [] (by simp) h1 h hv e
      | cons x rest =>
        obtain ⟨fuel, rfl⟩ : ∃ k, fuel = k + 1 := ⟨fuel - 1, by omega⟩
        have hlen := h.len hv
        rw [e] at hlen
        have hi : kept.length < m.len v := by simp at hlen; omega
        have hx := h.at_some (E := E) hv hi
        rw [e, List.getElem?_append_right (Nat.le_refl _)] at hx
        simp at hx
        have hrem := (h.remove (E := E) hv (kept.length : Int)).1
        have hnv : (remove E m v (kept.length : Int)).1.nv = m.nv := by unfold Vec.remove; dsimp only; (repeat' split) <;> rfl
        have hrl : (remAt E s v (kept.length : Int)).1.l v = kept ++ rest := by
          unfold remAt
          rw [if_pos (by rw [e]; simp only [inR, List.length_append, List.length_cons]; omega)]
          simp only [SState.put, if_true, e, Int.toNat_natCast]
          rw [List.eraseIdx_append_of_length_le (Nat.le_refl _)]
          simp
        simp only [rangeFrom, if_pos hi]
        rw [← hx]
        cases rest with
        | nil =>
          have hlen2 := hrem.len (v := v) (by rw [hnv]; exact hv)
          rw [hrl] at hlen2
          obtain ⟨fuel, rfl⟩ : ∃ k, fuel = k + 1 := ⟨fuel - 1, by simp at h1; omega⟩
          refine ⟨(remove E m v (kept.length : Int)).1, ?_, ?_⟩
          · simp only [rangeFrom]; rw [if_neg (by simp at hlen2; omega)]; simp [evens]
          · have := hrem.shows (E := E) (g := g) (v := v) (by rw [hnv]; exact hv)
            rw [hrl] at this
            simpa [odds] using this
        | cons y rest =>
          obtain ⟨m', e1, e2⟩ := ih fuel _ _ (a ++ [x]) (kept ++ [y]) rest (by simp at h0; omega) (by simp at h1; omega) hrem (by rw [hnv]; exact hv)
            (by rw [hrl]; simp)
          refine ⟨m', ?_, by simpa [odds] using e2⟩
          simpa [evens] using e1
  obtain ⟨m', e1, e2⟩ := key l.length fuel m s [] [] l (Nat.le_refl _) hf hs hv (by rw [← hs.list v hv]; exact hl.slice)
  exact ⟨m', by simpa using e1, by simpa using e2⟩

/-! ### Examples -/

theorem Run.arun {h : List (Mut T)} {rs : List (Res T)} (hr : Run E g P h rs m) : ARun E g P m := by
  induction hr with
  | nil => exact .nil
  | snoc _ hok he ih => exact .call ih hok he

example : ∃ m', rangeFrom EInt (fun m (a : List Int) i x => some ((remove EInt m 0 i).1, a ++ [x], true)) 6 (one [7, 8, 9, 10]) [] 0 0 =
    some (m', [7, 9]) ∧ Shows EInt (fun _ => 0) m' 0 [8, 10] :=
  C120_false (one_run _).arun (one_shows _).1 (one_shows [7, 8, 9, 10]).2 (by decide)

example : (rangeFrom EInt (fun m (a : List Int) i x => some ((remove EInt m 0 i).1, a ++ [x], true)) 9 (one [1, 2, 3, 4, 5]) [] 0 0).map
    (fun r => (r.2, r.1.list 0)) = some ([1, 3, 5], [2, 4]) := by decide
-- inserting before the present element passes it again and again; here until the length is 6
example : (rangeFrom EInt (fun m (a : List Int) i x => if m.len 0 < 6 then
      (exec EInt (fun _ => 0) (mergeImpl Int) m (.insert 0 i [9])).map (fun r => (r.1, a ++ [x], true)) else some (m, a ++ [x], false))
      9 (one [1, 2, 3]) [] 0 0).map (fun r => (r.2, r.1.list 0)) = some ([1, 1, 1, 1], [9, 9, 9, 1, 2, 3]) := by decide
-- appending
example : (rangeFrom EInt (fun m (a : List Int) _ x => some (if x < 3 then push EInt (fun _ => 0) m 0 [x + 2] else m, a ++ [x], true))
      9 (one [1, 2]) [] 0 0).map (fun r => (r.2, r.1.list 0)) = some ([1, 2, 3, 4], [1, 2, 3, 4]) := by decide

end Verif.Vec
