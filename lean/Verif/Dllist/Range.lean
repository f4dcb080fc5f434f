import Verif.Dllist.Props
/-!
# `Range` with a function that changes the list (dllist.go:236-243)

The comment in the source says "dont remove element when iterating, it will stop the iteration". What exactly happens is proved here: `Range`
goes on from the element the function was given, as the list is when the function returns.
-/
namespace Verif.Dllist
open Spec (Op Res St Client SRun Safe valsOf insBefore insAfter nextOf prevOf exchange StableSorted)
variable {T A : Type} {m : Mem T} {s : St T} {S : Nat → List Nat}

/-! ### What it means -/

/-- One call of the function: the memory before, the element passed, the memory after, the result. -/
structure Visit (T : Type) where
  before : Mem T
  e : Nat
  after : Mem T
  go : Bool

/-- `e` is among the elements a walk over `l` meets. -/
def In (m : Mem T) (l e : Nat) : Prop := ∃ xs, Shows m l xs ∧ e ∈ xs.map (·.1)
/-- `n` comes after `e` in `l`; none if `e` is the last or is not in `l`. -/
def NextIn (m : Mem T) (l e : Nat) (n : Option Nat) : Prop := ∃ xs, Shows m l xs ∧ n = nextOf e (xs.map (·.1))
/-- `n` is the first element of `l`. -/
def FirstIn (m : Mem T) (l : Nat) (n : Option Nat) : Prop := ∃ xs, Shows m l xs ∧ n = (xs.map (·.1)).head?

/-- What the calls of the function have to be, from memory `m` on with `n` next, to memory `m'`; the Boolean is the result of `Range`. -/
inductive Goes (l : Nat) : Mem T → Option Nat → List (Visit T) → Mem T → Bool → Prop
  | done (m : Mem T) : Goes l m none [] m true
  | stop {m m' : Mem T} {e : Nat} : In m l e → Goes l m (some e) [⟨m, e, m', false⟩] m' false
  | next {m m1 m' : Mem T} {e : Nat} {n : Option Nat} {log : List (Visit T)} {b : Bool} :
      In m l e → NextIn m1 l e n → Goes l m1 n log m' b → Goes l m (some e) (⟨m, e, m1, true⟩ :: log) m' b

/-- The function, noting its calls. -/
def logged (body : Mem T → A → Ptr → Option (Mem T × A × Bool)) (m : Mem T) (a : A × List (Visit T)) (p : Ptr) :
    Option (Mem T × (A × List (Visit T)) × Bool) :=
  match body m a.1 p, p with
  | some (m', a', c), .node e => some (m', (a', a.2 ++ [⟨m, e, m', c⟩]), c)
  | _, _ => none

/-- The memory implements the abstract state. -/
def Impl (m : Mem T) (s : St T) : Prop := ∃ S, Sim m s S

/-- Calls made by the function: each a call the specification speaks about and one of those allowed by `P`. -/
inductive Calls (P : Op T → Prop) : Mem T → St T → Mem T → St T → Prop
  | nil {m : Mem T} {s : St T} : Calls P m s m s
  | cons {m : Mem T} {s : St T} {op r m1 s1 m' s'} : P op → s.Valid op → MStep m op r m1 → s.Step op r s1 → Impl m1 s1 → Calls P m1 s1 m' s' →
      Calls P m s m' s'

/-- The function, given an element of `l`, changes the memory only by calls that `P` allows for this element. -/
def Uses (P : Nat → Op T → Prop) (l : Nat) (body : Mem T → A → Ptr → Option (Mem T × A × Bool)) : Prop :=
  ∀ m s a e m' a' c, Impl m s → (∀ n l', n ∈ s.seq l' → ¬ s.stale n) → e ∈ s.seq l → body m a (.node e) = some (m', a', c) → ∃ s', Calls (P e) m s m' s'

/-- The list that the call makes anew, leaving its elements stale. -/
def resets : Op T → Option Nat
  | .clear l | .sort l _ => some l
  | _ => none

/-! ### Calls never bring an element back -/

theorem alloc_old {s s' : St T} {l : Nat} {ns vs xs} (h : s.Alloc ns vs l xs s')
    (hx : ∀ x ∈ xs, x ∈ ns ∨ x ∈ s.seq l) {n l' : Nat} (hn : s.val n ≠ none) (hm : n ∈ s'.seq l') : n ∈ s.seq l' := by
  by_cases e : l' = l
  · subst e; rw [h.seq_self] at hm
    rcases hx n hm with h1 | h1
    · exact (hn (h.1.2 n h1)).elim
    · exact h1
  · rwa [h.seq_other e] at hm

theorem reseq_old {s : St T} {l : Nat} {xs : List Nat} (hx : ∀ x ∈ xs, x ∈ s.seq l) {n l' : Nat}
    (hm : n ∈ Spec.set s.seq l xs l') : n ∈ s.seq l' := by
  simp only [Spec.set] at hm
  split at hm
  · next h => subst h; exact hx n hm
  · exact hm

/-- An element that exists enters no list. -/
theorem step_old {op : Op T} {r : Res T} {s' : St T} (h : s.Step op r s') {n l' : Nat} (hn : s.val n ≠ none)
    (hm : n ∈ s'.seq l') : n ∈ s.seq l' := by
  cases op <;> simp only [St.Step] at h
  case new | zero =>
    obtain ⟨l0, _, rfl, rfl⟩ := h
    exact reseq_old (by simp) hm
  case clear => obtain ⟨rfl, rfl⟩ := h; exact reseq_old (by simp) hm
  case pushFront l _ | pushBack l _ =>
    obtain ⟨k, rfl, h⟩ := h
    exact alloc_old h (by intro x hx; simp at hx ⊢; tauto) hn hm
  case insertBefore l _ _ =>
    split at h
    · obtain ⟨k, rfl, h⟩ := h
      exact alloc_old h (fun x hx => by simpa using mem_insBefore hx) hn hm
    · obtain ⟨rfl, rfl⟩ := h; exact hm
  case insertAfter l _ _ =>
    split at h
    · obtain ⟨k, rfl, h⟩ := h
      exact alloc_old h (fun x hx => mem_insAfter hx) hn hm
    · obtain ⟨rfl, rfl⟩ := h; exact hm
  case remove l e =>
    obtain ⟨rfl, rfl⟩ := h
    exact reseq_old (fun x hx => List.mem_of_mem_erase hx) hm
  case moveToFront l e =>
    obtain ⟨rfl, h⟩ := h
    split at h
    · next he =>
      subst h
      refine reseq_old (fun x hx => ?_) hm
      rcases List.mem_cons.1 hx with rfl | hx
      · exact he
      · exact List.mem_of_mem_erase hx
    · subst h; exact hm
  case moveToBack l e =>
    obtain ⟨rfl, h⟩ := h
    split at h
    · next he =>
      subst h
      refine reseq_old (fun x hx => ?_) hm
      rcases List.mem_append.1 hx with hx | hx
      · exact List.mem_of_mem_erase hx
      · simp at hx; rw [hx]; exact he
    · subst h; exact hm
  case moveBefore l e _ =>
    obtain ⟨rfl, h⟩ := h
    split at h
    · next he =>
      subst h
      refine reseq_old (fun x hx => ?_) hm
      rcases mem_insBefore hx with rfl | hx
      · exact he.1
      · exact List.mem_of_mem_erase hx
    · subst h; exact hm
  case moveAfter l e _ =>
    obtain ⟨rfl, h⟩ := h
    split at h
    · next he =>
      subst h
      refine reseq_old (fun x hx => ?_) hm
      rcases mem_insAfter hx with hx | hx
      · simp at hx; rw [hx]; exact he.1
      · exact List.mem_of_mem_erase hx
    · subst h; exact hm
  case swap l a b =>
    obtain ⟨rfl, h⟩ := h
    split at h
    · next he =>
      subst h
      refine reseq_old (fun x hx => ?_) hm
      simp only [exchange, List.mem_map] at hx
      obtain ⟨y, hy, rfl⟩ := hx
      split
      · exact he.2
      · split
        · exact he.1
        · exact hy
    · subst h; exact hm
  case elRemove e =>
    obtain ⟨rfl, rfl⟩ := h
    exact List.mem_of_mem_erase hm
  case elInsertBefore =>
    rcases h with ⟨l, _, k, rfl, h⟩ | ⟨_, rfl, rfl⟩
    · exact alloc_old h (fun x hx => by simpa using mem_insBefore hx) hn hm
    · exact hm
  case elInsertAfter =>
    rcases h with ⟨l, _, k, rfl, h⟩ | ⟨_, rfl, rfl⟩
    · exact alloc_old h (fun x hx => mem_insAfter hx) hn hm
    · exact hm
  case elNext | elPrev | getValue | len | front | back | get | slice => obtain ⟨rfl, _⟩ := h; exact hm
  case setValue => obtain ⟨rfl, rfl⟩ := h; exact hm
  case pushBackList | pushFrontList =>
    obtain ⟨rfl, ns, h⟩ := h
    exact alloc_old h (by intro x hx; simp at hx ⊢; tauto) hn hm
  case pushBackListTo | pushFrontListTo =>
    obtain ⟨rfl, h⟩ := h
    split at h
    · obtain ⟨ns, h⟩ := h
      exact alloc_old h (fun x hx => mem_insAfter hx) hn hm
    · subst h; exact hm
  case sort =>
    obtain ⟨rfl, h⟩ := h
    split at h
    · subst h; exact hm
    · obtain ⟨ns, vs, s1, _, _, h, rfl⟩ := h
      exact alloc_old h (fun x hx => Or.inl hx) hn hm

/-- An element stays an element; it becomes stale only by a reset of its list. -/
theorem step_keeps {op : Op T} {r : Res T} {s' : St T} (h : s.Step op r s') (hw : WF s) {n : Nat} (hn : s.val n ≠ none) :
    s'.val n ≠ none ∧ (s'.stale n → s.stale n ∨ ∃ l, resets op = some l ∧ n ∈ s.seq l) := by
  cases hr : isReset op
  · obtain ⟨_, h1, _, h2⟩ := step_wf h hw hr
    exact ⟨h1 n hn, fun h => by rw [h2] at h; exact .inl h⟩
  · cases op <;> simp only [isReset, reduceCtorEq] at hr
    case clear l =>
      obtain ⟨rfl, rfl⟩ := h
      exact ⟨hn, fun h => h.elim (fun h => .inr ⟨l, rfl, h⟩) .inl⟩
    case sort l _ =>
      obtain ⟨rfl, h⟩ := h
      split at h
      · subst h; exact ⟨hn, .inl⟩
      · obtain ⟨ns, vs, s1, _, _, h, rfl⟩ := h
        refine ⟨?_, fun h => h.elim (fun h => .inr ⟨l, rfl, h⟩) .inl⟩
        show s1.val n ≠ none
        rw [h.old hn]; exact hn

theorem Sim.wf (h : Sim m s S) : WF s := h.elems

theorem step_lists_mono {op : Op T} {r : Res T} {s' : St T} (h : s.Step op r s') {l : Nat} (hl : s.lists l) : s'.lists l := by
  rcases step_lists h with h1 | h1
  · rcases h1 with rfl | rfl
    all_goals
      obtain ⟨l0, _, rfl, rfl⟩ := h
      exact .inr hl
  · rw [h1.1]; exact hl

/-- Over several calls: old elements enter no list, and `e` is not made stale if its list is not reset. -/
theorem Calls.old {P : Op T → Prop} {m' : Mem T} {s' : St T} (h : Calls P m s m' s') (h0 : Impl m s) :
    Impl m' s' ∧ (∀ l, s.lists l → s'.lists l) ∧ ∀ n, s.val n ≠ none →
      s'.val n ≠ none ∧ (∀ l, n ∈ s'.seq l → n ∈ s.seq l) ∧
      ((∀ l op, n ∈ s.seq l → P op → resets op ≠ some l) → ¬ s.stale n → ¬ s'.stale n) := by
  induction h with
  | nil => exact ⟨h0, fun _ h => h, fun n hn => ⟨hn, fun _ h => h, fun _ h => h⟩⟩
  | @cons m s op r m1 s1 m' s' hp hv hm hs h1 hc ih =>
    obtain ⟨i1, i2, i3⟩ := ih h1
    obtain ⟨S, hS⟩ := h0
    refine ⟨i1, fun l hl => i2 l (step_lists_mono hs hl), fun n hn => ?_⟩
    obtain ⟨k1, k2⟩ := step_keeps hs hS.wf hn
    obtain ⟨j1, j2, j3⟩ := i3 n k1
    refine ⟨j1, fun l hl => step_old hs hn (j2 l hl), fun hP hst => ?_⟩
    refine j3 (fun l op hl hp => hP l op (step_old hs hn hl) hp) fun h => ?_
    rcases k2 h with h | ⟨l, h, hl⟩
    · exact hst h
    · exact hP l op hl hp h

/-! ### The calls of the function -/

theorem Impl.in {m : Mem T} {s : St T} (h : Impl m s) {l e : Nat} (he : e ∈ s.seq l) : In m l e := by
  obtain ⟨S, h⟩ := h
  exact ⟨_, h.shows (h.mem_lists he), by rw [pairs_fst (h.elems l)]; exact he⟩

theorem Impl.next {m : Mem T} {s : St T} (h : Impl m s) {l : Nat} (hl : s.lists l) (e : Nat) : NextIn m l e (nextOf e (s.seq l)) := by
  obtain ⟨S, h⟩ := h
  exact ⟨_, h.shows hl, by rw [pairs_fst (h.elems l)]⟩

theorem nextOf_none {e : Nat} {xs : List Nat} (h : e ∉ xs) : nextOf e xs = none := by
  induction xs with
  | nil => rfl
  | cons a xs ih =>
    simp only [List.mem_cons, not_or] at h
    simp only [nextOf]
    rw [if_neg (Ne.symm h.1)]
    exact ih h.2

/-- `e.Next()` of an element that is or was in `l` and is not stale. -/
theorem Impl.elNext {m : Mem T} {s : St T} (h : Impl m s) {l e : Nat} (he : s.Usable e) (ho : ∀ l', e ∈ s.seq l' → l' = l) :
    Dllist.elNext m (.node e) = (nextOf e (s.seq l)).map .node := by
  obtain ⟨S, h⟩ := h
  by_cases hm : e ∈ s.seq l
  · obtain ⟨xs, ys, h1, h2, h3, _⟩ := split_nodup (h.nodup l) hm
    rw [h.elNext h1, h1, nextOf_eq h2]
  · have hn : ∀ l', e ∉ s.seq l' := fun l' hl => by have := ho l' hl; subst this; exact hm hl
    rw [nextOf_none hm]
    simp [Dllist.elNext, h.owner_none he hn]

theorem Impl.unstale {m : Mem T} {s : St T} (h : Impl m s) : Impl m { s with stale := fun n => s.stale n ∧ ∀ l, n ∉ s.seq l } :=
  h.imp fun _ h => h.unstale

theorem goes_of_loop {P : Nat → Op T → Prop} {l : Nat} (hP : ∀ e op, P e op → resets op ≠ some l)
    {body : Mem T → A → Ptr → Option (Mem T × A × Bool)} (hb : Uses P l body) :
    ∀ (fuel : Nat) (m : Mem T) (s : St T) (a : A) (log : List (Visit T)) (n : Option Nat) (m' : Mem T) (a' : A)
      (log' : List (Visit T)) (b : Bool),
      Impl m s → s.lists l → (∀ e, n = some e → e ∈ s.seq l) →
      rangeLoop (logged body) fuel m (a, log) (n.map .node) = some (m', (a', log'), b) →
      ∃ more, log' = log ++ more ∧ Goes l m n more m' b := by
  intro fuel
  induction fuel with
  | zero => intro m s a log n m' a' log' b _ _ _ h; simp [rangeLoop] at h
  | succ k ih =>
    intro m s a log n m' a' log' b hi hl hn h
    cases n with
    | none =>
      simp only [Option.map_none, rangeLoop, Option.some.injEq, Prod.mk.injEq] at h
      obtain ⟨rfl, ⟨rfl, rfl⟩, rfl⟩ := h
      exact ⟨[], by simp, .done _⟩
    | some e =>
      have he := hn e rfl
      simp only [Option.map_some, rangeLoop, logged] at h
      rcases hbd : body m a (.node e) with _ | ⟨m1, a1, c⟩
      · rw [hbd] at h; cases h
      · rw [hbd] at h
        obtain ⟨s1, hc⟩ := hb m _ a e m1 a1 c hi.unstale (fun n l' hn h => h.2 l' hn) he hbd
        obtain ⟨i1, i2, i3⟩ := hc.old hi.unstale
        obtain ⟨S, hS⟩ := hi
        obtain ⟨j1, j2, j3⟩ := i3 e (hS.elems l e he)
        have hu : s1.Usable e := ⟨j1, j3 (fun l' op hl' hp => by
          have := hS.unique (show e ∈ s.seq l' from hl') he; subst this; exact hP e op hp) fun h => h.2 l he⟩
        have ho : ∀ l', e ∈ s1.seq l' → l' = l := fun l' h => hS.unique (j2 l' h) he
        cases c with
        | false =>
          simp only [Option.bind_eq_bind, Option.bind_some, Bool.false_eq_true, if_false, Option.some.injEq, Prod.mk.injEq] at h
          obtain ⟨rfl, ⟨rfl, rfl⟩, rfl⟩ := h
          exact ⟨_, rfl, .stop (Impl.in ⟨S, hS⟩ he)⟩
        | true =>
          simp only [Option.bind_eq_bind, Option.bind_some, if_true] at h
          rw [i1.elNext hu ho] at h
          obtain ⟨more, h1, h2⟩ := ih m1 s1 a1 _ _ m' a' log' b i1 (i2 l hl) (fun e' h => mem_nextOf h) h
          exact ⟨_, by rw [h1, List.append_assoc]; rfl, .next (Impl.in ⟨S, hS⟩ he) (i1.next (i2 l hl) e) h2⟩

/-- C111, partial: if the function does not call `Clear` or `Sort` of the list, then every element it is given is in the list when it is given,
the first one is the first of the list, and `Range` goes on with the element after it in the list as it is when the function returns,
whatever has been inserted, removed or moved; it ends, with result true, if there is none, as when the element was removed.
Missing from the full claim: functions that do call `Clear` or `Sort`; see `C111_clear_false`. -/
theorem C111_range_partial {c : Client T} (hc : Safe c) {rs : List (Res T)} (h : MRun c rs m) {l : Nat} (hl : Res.list l ∈ rs)
    {body : Mem T → A → Ptr → Option (Mem T × A × Bool)} (hb : Uses (fun _ op => resets op ≠ some l) l body)
    {fuel : Nat} {a a' : A} {m' : Mem T} {log : List (Visit T)} {b : Bool}
    (hr : range (logged body) fuel m (a, []) l = some (m', (a', log), b)) :
    ∃ m0 n, FirstIn m0 l n ∧ (∀ l' xs, Res.list l' ∈ rs → (Shows m0 l' xs ↔ Shows m l' xs)) ∧ Goes l m0 n log m' b := by
  obtain ⟨s, S, h1, h2⟩ := run_sim hc h
  have hll := srun_lists h1 hl
  obtain ⟨m0, e0, h3, _⟩ := h2.front hll
  unfold Dllist.range at hr
  rw [e0] at hr
  dsimp only at hr
  obtain ⟨more, h4, h5⟩ := goes_of_loop (P := fun _ op => resets op ≠ some l) (fun _ _ h => h) hb fuel m0 s a [] (s.seq l).head? m' a' log b ⟨S, h3⟩ hll
    (fun e he => List.mem_of_mem_head? (by simpa using he)) hr
  have h4 : log = more := h4
  subst h4
  refine ⟨m0, _, ⟨_, h3.shows hll, by rw [pairs_fst (h3.elems l)]⟩, fun l' xs hl' => ?_, h5⟩
  have hl' := srun_lists h1 hl'
  exact ⟨fun h => by rw [h3.shows_eq hl' h]; exact h2.shows hl', fun h => by rw [h2.shows_eq hl' h]; exact h3.shows hl'⟩

/-! ### Elements that stay are passed once, in their order -/

/-- The elements that are in both lists come in the same order. -/
def SameOrder (xs ys : List Nat) : Prop := xs.filter (· ∈ ys) = ys.filter (· ∈ xs)

theorem SameOrder.refl (xs : List Nat) : SameOrder xs xs := rfl

theorem SameOrder.trans {xs ys zs : List Nat} (h1 : SameOrder xs ys) (h2 : SameOrder ys zs)
    (h : ∀ x, x ∈ xs → x ∈ zs → x ∈ ys) : SameOrder xs zs := by
  unfold SameOrder at *
  have a : xs.filter (· ∈ zs) = (xs.filter (· ∈ ys)).filter (· ∈ zs) := by
    rw [List.filter_filter]
    refine List.filter_congr fun x hx => ?_
    by_cases hz : x ∈ zs
    · simp [hz, h x hx hz]
    · simp [hz]
  have b : zs.filter (· ∈ xs) = (zs.filter (· ∈ ys)).filter (· ∈ xs) := by
    rw [List.filter_filter]
    refine List.filter_congr fun x hz => ?_
    by_cases hx : x ∈ xs
    · simp [hx, h x hx hz]
    · simp [hx]
  rw [a, b, h1, ← h2, List.filter_filter, List.filter_filter]
  refine List.filter_congr fun x _ => ?_
  exact Bool.and_comm _ _

/-- The list that is `l` with other elements put in between. -/
theorem SameOrder.of_filter {xs ys ns : List Nat} (hn : ∀ n ∈ ns, n ∉ xs) (h : ys.filter (· ∉ ns) = xs) (_ : ∀ y ∈ ys, y ∈ ns ∨ y ∈ xs) :
    SameOrder xs ys := by
  unfold SameOrder
  have h1 : ∀ x ∈ xs, x ∈ ys := fun x hx => by rw [← h] at hx; exact (List.mem_filter.1 hx).1
  rw [List.filter_eq_self.2 (by simpa using h1), ← h]
  refine (List.filter_congr fun y hy => ?_).symm
  by_cases h' : y ∈ ns
  · simp [h']
  · simp [h', hy]

theorem SameOrder.of_sub {xs ys : List Nat} {p : Nat → Bool} (h : ys = xs.filter p) : SameOrder xs ys := by
  subst h
  unfold SameOrder
  rw [List.filter_filter]
  refine List.filter_congr fun x hx => ?_
  simp [hx]

/-- The calls that neither reorder nor reset `l` nor remove `e`. -/
def Leaves (l e : Nat) : Op T → Prop
  | .clear l' | .sort l' _ | .moveToFront l' _ | .moveToBack l' _ | .moveBefore l' _ _ | .moveAfter l' _ _ | .swap l' _ _ => l' ≠ l
  | .remove _ x | .elRemove x => x ≠ e
  | _ => True

theorem insBefore_filter {mark n : Nat} : ∀ {xs : List Nat}, n ∉ xs → (insBefore mark n xs).filter (· ∉ [n]) = xs
  | [], _ => rfl
  | x :: xs, h => by
    simp only [List.mem_cons, not_or] at h
    have hx : ∀ ys : List Nat, n ∉ ys → ys.filter (· ∉ [n]) = ys := fun ys hy =>
      List.filter_eq_self.2 fun y hy' => by simp; rintro rfl; exact hy hy'
    simp only [insBefore]
    split
    · rw [List.filter_cons_of_neg (by simp), hx _ (by simp [h])]
    · rw [List.filter_cons_of_pos (by simp; exact Ne.symm h.1), insBefore_filter h.2]

theorem filter_new {ns ys : List Nat} (h : ∀ n ∈ ns, n ∉ ys) : ys.filter (· ∉ ns) = ys :=
  List.filter_eq_self.2 fun y hy => by simp; exact fun h' => h y h' hy

theorem filter_self (ns : List Nat) : ns.filter (· ∉ ns) = [] :=
  List.filter_eq_nil_iff.2 fun y hy => by simp [hy]

theorem insAfter_filter {mark : Nat} {ns : List Nat} : ∀ {xs : List Nat}, (∀ n ∈ ns, n ∉ xs) → (insAfter mark ns xs).filter (· ∉ ns) = xs
  | [], _ => rfl
  | x :: xs, h => by
    have h1 : ∀ n ∈ ns, n ∉ xs := fun n hn hx => h n hn (by simp [hx])
    have h2 : x ∉ ns := fun hn => h x hn (by simp)
    simp only [insAfter]
    split
    · rw [List.filter_cons_of_pos (by simpa using h2), List.filter_append, filter_self, filter_new h1, List.nil_append]
    · rw [List.filter_cons_of_pos (by simpa using h2), insAfter_filter h1]

theorem alloc_same {s s' : St T} {l0 : Nat} {ns vs xs} (h : s.Alloc ns vs l0 xs s') (hw : WF s)
    (hx : (∀ n ∈ ns, n ∉ s.seq l0) → xs.filter (· ∉ ns) = s.seq l0) (hy : ∀ x ∈ xs, x ∈ ns ∨ x ∈ s.seq l0) (l : Nat) :
    SameOrder (s.seq l) (s'.seq l) ∧ ∀ e ∈ s.seq l, e ∈ s'.seq l := by
  have hn : ∀ n ∈ ns, n ∉ s.seq l0 := fun n hn hm => hw l0 n hm (h.1.2 n hn)
  by_cases e : l = l0
  · subst e
    rw [h.seq_self]
    refine ⟨.of_filter hn (hx hn) hy, fun e he => ?_⟩
    rw [← hx hn] at he
    exact (List.mem_filter.1 he).1
  · rw [h.seq_other e]; exact ⟨.refl _, fun _ h => h⟩

theorem reseq_same {f : Nat → List Nat} {l l' : Nat} {xs : List Nat} (h : l' ≠ l) :
    SameOrder (f l) (Spec.set f l' xs l) ∧ ∀ e ∈ f l, e ∈ Spec.set f l' xs l := by
  simp only [Spec.set, if_neg (Ne.symm h)]
  exact ⟨.refl _, fun _ h => h⟩

theorem erase_same {xs : List Nat} (hd : xs.Nodup) {x e : Nat} (he : x ≠ e) :
    SameOrder xs (xs.erase x) ∧ (e ∈ xs → e ∈ xs.erase x) :=
  ⟨.of_sub (hd.erase_eq_filter x), fun h => (List.mem_erase_of_ne (Ne.symm he)).2 h⟩

theorem step_same {op : Op T} {r : Res T} {s' : St T} (h : s.Step op r s') (hS : Sim m s S) {l e : Nat} (hl : s.lists l) (hp : Leaves l e op) :
    SameOrder (s.seq l) (s'.seq l) ∧ (e ∈ s.seq l → e ∈ s'.seq l) := by
  have hw := hS.wf
  have triv : SameOrder (s.seq l) (s.seq l) ∧ (e ∈ s.seq l → e ∈ s.seq l) := ⟨.refl _, fun h => h⟩
  cases op <;> simp only [St.Step] at h <;> simp only [Leaves] at hp
  case new | zero =>
    obtain ⟨l0, h0, rfl, rfl⟩ := h
    exact (reseq_same (by rintro rfl; exact h0 hl)).imp_right fun h => h e
  case clear => obtain ⟨rfl, rfl⟩ := h; exact (reseq_same hp).imp_right fun h => h e
  case pushFront l _ | pushBack l _ =>
    obtain ⟨k, rfl, h⟩ := h
    exact (alloc_same h hw (fun hn => by
      first
      | rw [List.filter_cons_of_neg (by simp), filter_new hn]
      | rw [List.filter_append, filter_new hn]; simp) (by intro x hx; simp at hx ⊢; tauto) _).imp_right fun h => h e
  case insertBefore l _ _ =>
    split at h
    · obtain ⟨k, rfl, h⟩ := h
      exact (alloc_same h hw (fun hn => insBefore_filter (hn k (by simp))) (fun x hx => by simpa using mem_insBefore hx) _).imp_right fun h => h e
    · obtain ⟨rfl, rfl⟩ := h; exact triv
  case insertAfter l _ _ =>
    split at h
    · obtain ⟨k, rfl, h⟩ := h
      exact (alloc_same h hw (fun hn => insAfter_filter hn) (fun x hx => mem_insAfter hx) _).imp_right fun h => h e
    · obtain ⟨rfl, rfl⟩ := h; exact triv
  case remove l' x =>
    obtain ⟨rfl, rfl⟩ := h
    by_cases h' : l = l'
    · subst h'; simp only [Spec.set, if_true]; exact erase_same (hS.nodup l) hp
    · simp only [Spec.set, if_neg h']; exact triv
  case moveToFront | moveToBack | moveBefore | moveAfter | swap =>
    obtain ⟨rfl, h⟩ := h
    split at h
    · subst h; exact (reseq_same hp).imp_right fun h => h e
    · subst h; exact triv
  case elRemove x => obtain ⟨rfl, rfl⟩ := h; exact erase_same (hS.nodup l) hp
  case elInsertBefore =>
    rcases h with ⟨l0, _, k, rfl, h⟩ | ⟨_, rfl, rfl⟩
    · exact (alloc_same h hw (fun hn => insBefore_filter (hn k (by simp))) (fun x hx => by simpa using mem_insBefore hx) _).imp_right fun h => h e
    · exact triv
  case elInsertAfter =>
    rcases h with ⟨l0, _, k, rfl, h⟩ | ⟨_, rfl, rfl⟩
    · exact (alloc_same h hw (fun hn => insAfter_filter hn) (fun x hx => mem_insAfter hx) _).imp_right fun h => h e
    · exact triv
  case elNext | elPrev | getValue | len | front | back | get | slice => obtain ⟨rfl, _⟩ := h; exact triv
  case setValue => obtain ⟨rfl, rfl⟩ := h; exact triv
  case pushBackList | pushFrontList =>
    obtain ⟨rfl, ns, h⟩ := h
    exact (alloc_same h hw (fun hn => by rw [List.filter_append, filter_new hn, filter_self]; simp)
      (by intro x hx; simp at hx ⊢; tauto) _).imp_right fun h => h e
  case pushBackListTo | pushFrontListTo =>
    obtain ⟨rfl, h⟩ := h
    split at h
    · obtain ⟨ns, h⟩ := h
      exact (alloc_same h hw (fun hn => insAfter_filter hn) (fun x hx => mem_insAfter hx) _).imp_right fun h => h e
    · subst h; exact triv
  case sort =>
    obtain ⟨rfl, h⟩ := h
    split at h
    · subst h; exact triv
    · obtain ⟨ns, vs, s1, _, _, h, rfl⟩ := h
      show SameOrder (s.seq l) (s1.seq l) ∧ _
      rw [h.seq_other (Ne.symm hp)]; exact triv

theorem Calls.same {l e : Nat} {m' : Mem T} {s' : St T} (h : Calls (Leaves l e) m s m' s') (h0 : Impl m s) (hl : s.lists l) :
    SameOrder (s.seq l) (s'.seq l) ∧ (e ∈ s.seq l → e ∈ s'.seq l) := by
  induction h with
  | nil => exact ⟨.refl _, fun h => h⟩
  | @cons m s op r m1 s1 m' s' hp hv hm hs h1 hc ih =>
    obtain ⟨i1, i2⟩ := ih h1 (step_lists_mono hs hl)
    obtain ⟨S, hS⟩ := h0
    obtain ⟨j1, j2⟩ := step_same hs hS hl hp
    refine ⟨j1.trans i1 fun x hx hx' => ?_, fun h => i2 (j2 h)⟩
    exact (((hc.old h1).2.2 x (step_keeps hs hS.wf (hS.elems l x hx)).1).2.1 l hx')

theorem SameOrder.split {xs ys pre post pre' post' : List Nat} {e : Nat} (h : SameOrder xs ys) (hx : xs = pre ++ e :: post)
    (hy : ys = pre' ++ e :: post') (nx : xs.Nodup) (ny : ys.Nodup) : post.filter (· ∈ ys) = post'.filter (· ∈ xs) := by
  unfold SameOrder at h
  have h1 : xs.filter (· ∈ ys) = pre.filter (· ∈ ys) ++ e :: post.filter (· ∈ ys) := by
    rw [hx, List.filter_append, List.filter_cons_of_pos (by simp [hy])]
  have h2 : ys.filter (· ∈ xs) = pre'.filter (· ∈ xs) ++ e :: post'.filter (· ∈ xs) := by
    rw [hy, List.filter_append, List.filter_cons_of_pos (by simp [hx])]
  rw [h1, h2] at h
  have n1 : (pre.filter (· ∈ ys) ++ e :: post.filter (· ∈ ys)).Nodup := h1 ▸ nx.filter _
  have n2 : (pre'.filter (· ∈ xs) ++ e :: post'.filter (· ∈ xs)).Nodup := h2 ▸ ny.filter _
  generalize pre.filter (· ∈ ys) = a at *
  generalize post.filter (· ∈ ys) = b at *
  generalize pre'.filter (· ∈ xs) = c at *
  generalize post'.filter (· ∈ xs) = d at *
  clear h1 h2 hx hy nx ny
  induction a generalizing c with
  | nil =>
    cases c with
    | nil => simpa using h
    | cons x c =>
      simp only [List.nil_append, List.cons_append, List.cons.injEq] at h
      obtain ⟨rfl, _⟩ := h
      simp at n2
  | cons x a ih =>
    cases c with
    | nil =>
      simp only [List.nil_append, List.cons_append, List.cons.injEq] at h
      obtain ⟨rfl, _⟩ := h
      simp at n1
    | cons y c =>
      simp only [List.cons_append, List.cons.injEq] at h
      exact ih (List.nodup_cons.1 n1).2 c (List.nodup_cons.1 n2).2 h.2

theorem Impl.in_iff {m : Mem T} {s : St T} (h : Impl m s) {l : Nat} (hl : s.lists l) {e : Nat} : In m l e ↔ e ∈ s.seq l := by
  refine ⟨fun ⟨xs, h1, h2⟩ => ?_, h.in⟩
  obtain ⟨S, h⟩ := h
  rw [h.shows_eq hl h1, pairs_fst (h.elems l)] at h2
  exact h2

theorem Leaves.resets {l e : Nat} {op : Op T} (h : Leaves l e op) : resets op ≠ some l := by
  cases op <;> simp_all [Leaves, Dllist.resets]

theorem once_of_loop {l : Nat} {body : Mem T → A → Ptr → Option (Mem T × A × Bool)} (hb : Uses (Leaves l) l body) :
    ∀ (fuel : Nat) (m : Mem T) (s : St T) (a : A) (log : List (Visit T)) (pre rest : List Nat) (m' : Mem T) (a' : A)
      (log' : List (Visit T)) (b : Bool),
      Impl m s → s.lists l → s.seq l = pre ++ rest →
      (∀ v ∈ log, s.val v.e ≠ none ∧ v.e ∉ rest) → (log.map (·.e)).Nodup →
      rangeLoop (logged body) fuel m (a, log) (rest.head?.map .node) = some (m', (a', log'), b) →
      ∃ more, log' = log ++ more ∧ (log'.map (·.e)).Nodup ∧
        ∀ K : Nat → Bool, (∀ x, K x = true → x ∈ s.seq l ∧ ∀ v ∈ more, In v.after l x) →
          (more.map (·.e)).filter K <+: rest.filter K ∧ (b = true → (more.map (·.e)).filter K = rest.filter K) := by
  intro fuel
  induction fuel with
  | zero => intro m s a log pre rest m' a' log' b _ _ _ _ _ h; simp [rangeLoop] at h
  | succ k ih =>
    intro m s a log pre rest m' a' log' b hi hl hs hv hd h
    cases rest with
    | nil =>
      simp only [List.head?_nil, Option.map_none, rangeLoop, Option.some.injEq, Prod.mk.injEq] at h
      obtain ⟨rfl, ⟨rfl, rfl⟩, rfl⟩ := h
      exact ⟨[], by simp, hd, fun K _ => by simp⟩
    | cons e post =>
      have he : e ∈ s.seq l := by rw [hs]; simp
      simp only [List.head?_cons, Option.map_some, rangeLoop, logged] at h
      rcases hbd : body m a (.node e) with _ | ⟨m1, a1, c⟩
      · rw [hbd] at h; cases h
      · rw [hbd] at h
        obtain ⟨s1, hc⟩ := hb m _ a e m1 a1 c hi.unstale (fun n l' hn h => h.2 l' hn) he hbd
        obtain ⟨i1, i2, i3⟩ := hc.old hi.unstale
        obtain ⟨o1, o2⟩ := hc.same hi.unstale hl
        have o1 : SameOrder (s.seq l) (s1.seq l) := o1
        have o2 := o2 he
        obtain ⟨S, hS⟩ := hi
        obtain ⟨S1, hS1⟩ := i1
        obtain ⟨j1, j2, j3⟩ := i3 e (hS.elems l e he)
        have hu : s1.Usable e := ⟨j1, j3 (fun l' op hl' hp => by
          have := hS.unique (show e ∈ s.seq l' from hl') he; subst this; exact hp.resets) fun h => h.2 l he⟩
        have ho : ∀ l', e ∈ s1.seq l' → l' = l := fun l' h => hS.unique (j2 l' h) he
        have hd1 : ((log ++ [(⟨m, e, m1, c⟩ : Visit T)]).map (·.e)).Nodup := by
          rw [List.map_append, List.nodup_append]
          refine ⟨hd, by simp, ?_⟩
          simp only [List.mem_map, List.map_cons, List.map_nil, List.mem_singleton]
          rintro x ⟨v, hv', rfl⟩ y rfl h'
          exact (hv v hv').2 (by simp [h'])
        cases c with
        | false =>
          simp only [Option.bind_eq_bind, Option.bind_some, Bool.false_eq_true, if_false, Option.some.injEq, Prod.mk.injEq] at h
          obtain ⟨rfl, ⟨rfl, rfl⟩, rfl⟩ := h
          refine ⟨_, rfl, hd1, fun K _ => ⟨?_, by simp⟩⟩
          have : e :: post = [e] ++ post := rfl
          rw [this, List.filter_append]
          exact List.prefix_append _ _
        | true =>
          simp only [Option.bind_eq_bind, Option.bind_some, if_true] at h
          obtain ⟨pre', post', h1, h2, h3, _⟩ := split_nodup (hS1.nodup l) o2
          rw [Impl.elNext ⟨S1, hS1⟩ hu ho, h1, nextOf_eq h2] at h
          have hsp := o1.split hs h1 (hS.nodup l) (hS1.nodup l)
          have hnd := hS1.nodup l
          obtain ⟨more, k1, k2, k3⟩ := ih m1 s1 a1 _ (pre' ++ [e]) post' m' a' log' b ⟨S1, hS1⟩ (i2 l hl) (by rw [h1]; simp) (by
            intro v hv'
            rw [List.mem_append, List.mem_singleton] at hv'
            rcases hv' with hv' | rfl
            · obtain ⟨q1, q2⟩ := hv v hv'
              obtain ⟨q3, q4, _⟩ := i3 v.e q1
              refine ⟨q3, fun hm => ?_⟩
              have q5 : v.e ∈ s.seq l := q4 l (by rw [h1]; simp [hm])
              have q6 : v.e ∈ post'.filter (· ∈ s.seq l) := List.mem_filter.2 ⟨hm, by simpa using q5⟩
              rw [← hsp] at q6
              exact q2 (List.mem_cons_of_mem _ (List.mem_filter.1 q6).1)
            · refine ⟨j1, fun hm => ?_⟩
              rw [h1, List.nodup_append] at hnd
              exact (List.nodup_cons.1 hnd.2.1).1 hm) hd1 h
          refine ⟨⟨m, e, m1, true⟩ :: more, by rw [k1, List.append_assoc]; rfl, k2, fun K hK => ?_⟩
          have hK1 : ∀ x, K x = true → x ∈ s1.seq l := fun x hx =>
            (Impl.in_iff ⟨S1, hS1⟩ (i2 l hl)).1 ((hK x hx).2 _ (List.mem_cons_self ..))
          obtain ⟨g1, g2⟩ := k3 K fun x hx => ⟨hK1 x hx, fun v hv => (hK x hx).2 v (List.mem_cons_of_mem _ hv)⟩
          have hpost : post.filter K = post'.filter K := by
            have := congrArg (List.filter K) hsp
            rw [List.filter_filter, List.filter_filter] at this
            rw [List.filter_congr (q := K) (fun x _ => by
                cases hx : K x
                · simp
                · simp [hK1 x hx]), List.filter_congr (l := post') (q := K) (fun x _ => by
                cases hx : K x
                · simp
                · simp [(hK x hx).1])] at this
            exact this
          rw [← hpost] at g1 g2
          simp only [List.map_cons, List.filter_cons]
          split
          · exact ⟨by simpa using g1, fun hb' => by rw [g2 hb']⟩
          · exact ⟨g1, g2⟩

/-- C112: if the function neither resets nor reorders the list nor removes the element it is given (it may insert elements and remove others),
then no element is passed twice, and the elements `K` that stay in the list are passed once each in their order; all of them if
`Range` returns true. -/
theorem C112_range {c : Client T} (hc : Safe c) {rs : List (Res T)} (h : MRun c rs m) {l : Nat} (hl : Res.list l ∈ rs)
    {body : Mem T → A → Ptr → Option (Mem T × A × Bool)} (hb : Uses (Leaves l) l body)
    {fuel : Nat} {a a' : A} {m' : Mem T} {log : List (Visit T)} {b : Bool}
    (hr : range (logged body) fuel m (a, []) l = some (m', (a', log), b)) {xs : List (Nat × T)} (hx : Shows m l xs) :
    (log.map (·.e)).Nodup ∧
    ∀ K : Nat → Bool, (∀ e, K e = true → In m l e ∧ ∀ v ∈ log, In v.after l e) →
      (log.map (·.e)).filter K <+: (xs.map (·.1)).filter K ∧ (b = true → (log.map (·.e)).filter K = (xs.map (·.1)).filter K) := by
  obtain ⟨s, S, h1, h2⟩ := run_sim hc h
  have hll := srun_lists h1 hl
  obtain ⟨m0, e0, h3, _⟩ := h2.front hll
  unfold Dllist.range at hr
  rw [e0] at hr
  dsimp only at hr
  obtain ⟨more, h4, h5, h6⟩ := once_of_loop hb fuel m0 s a [] [] (s.seq l) m' a' log b ⟨S, h3⟩ hll rfl (by simp) (by simp) hr
  have h4 : log = more := h4
  subst h4
  rw [h2.shows_eq hll hx, pairs_fst (h2.elems l)]
  exact ⟨h5, fun K hK => h6 K fun x hx => ⟨(Impl.in_iff ⟨S, h2⟩ hll).1 (hK x hx).1, (hK x hx).2⟩⟩

/-! ### The full claim of C111 is false; examples -/

/-- The memory after some calls. -/
def after (ops : List (Op Nat)) : Option (Mem Nat) := ops.foldlM (fun m op => (exec 20 m op).map (·.1)) (Mem.empty : Mem Nat)

/-- C111 without the restriction is false: on the list 1, 2, a function that calls `Clear` is called with the second element, too, when the list
is empty (`Len()` is 0). (The list beside the elements: what `Len()` returned at the start of the call.) -/
theorem C111_clear_false :
    (do
      let m ← after [.new, .pushBack 0 1, .pushBack 0 2]
      let (_, a, b) ← range (fun m (a : List (Ptr × Int)) e => some (clear m 0, a ++ [(e, m.len 0)], true)) 20 m [] 0
      some (a, b)) = some ([(.node 0, 2), (.node 1, 0)], true) := rfl

/-- As documented, removing the element ends the iteration, with result true. -/
example :
    (do
      let m ← after [.new, .pushBack 0 1, .pushBack 0 2]
      let (_, a, b) ← range (fun m (a : List Ptr) e => match e with
        | .node n => do let (m, _) ← elRemove m n; some (m, a ++ [e], true)
        | _ => none) 20 m [] 0
      some (a, b)) = some ([.node 0], true) := rfl

/-- A function that makes one call and does what it likes with its variables. -/
theorem uses_exec {P : Nat → Op T → Prop} {l : Nat} (op : A → Nat → Op T) (g : A → Nat → A × Bool)
    (hp : ∀ a e, P e (op a e)) (hf : ∀ a e fuel (m : Mem T), exec fuel m (op a e) = exec 0 m (op a e))
    (hv : ∀ (s : St T) a e, e ∈ s.seq l → s.lists l → s.Usable e → s.Valid (op a e)) :
    Uses P l (fun m a p => match p with
      | .node e => (exec 0 m (op a e)).map fun x => (x.1, g a e)
      | _ => none) := by
  intro m s a e m' a' c hi hst he hb
  obtain ⟨S, hS⟩ := hi
  obtain ⟨r, m1, s1, S1, h1, h2, h3⟩ := sim_step hS (op a e) (hv s a e he (hS.mem_lists he) ⟨hS.elems l e he, hst e l he⟩)
  have h1' := h1
  obtain ⟨F, h1'⟩ := h1'
  have h4 := h1' F (Nat.le_refl _)
  rw [hf] at h4
  simp only [h4, Option.map_some, Option.some.injEq, Prod.mk.injEq] at hb
  obtain ⟨rfl, _⟩ := hb
  exact ⟨s1, .cons (hp a e) (hv s a e he (hS.mem_lists he) ⟨hS.elems l e he, hst e l he⟩) h1 h2 ⟨S1, h3⟩ .nil⟩

/-- A function that inserts a new element behind the first it is given: it is given the new one next. -/
def inserting : Mem Nat → Bool → Ptr → Option (Mem Nat × Bool × Bool) := fun m a p => match p with
  | .node e => (exec 0 m (if a then .elInsertAfter e 7 else .getValue e)).map fun x => (x.1, false, true)
  | _ => none

theorem inserting_uses : Uses (Leaves 0) 0 inserting :=
  uses_exec (fun (a : Bool) e => if a then .elInsertAfter e 7 else .getValue e) (fun _ _ => (false, true))
    (by intro a e; cases a <;> exact True.intro) (by intro a e fuel m; cases a <;> rfl)
    (by intro s a e _ _ hu; cases a <;> exact hu)

example : (do
      let m ← after [.new, .pushBack 0 1, .pushBack 0 2]
      let (m, (_, log), b) ← range (logged inserting) 20 m (true, []) 0
      let (_, r) ← exec 20 m (.slice 0)
      some (log.map (·.e), b, match r with | .vals xs => xs | _ => [])) = some ([0, 2, 1], true, [1, 7, 2]) := rfl

end Verif.Dllist
