import Verif.Dllist.Frame
/-!
# Where `Range` goes on, whatever its function does to the lists (C138; dllist.go:236-243)

The function may make any calls, `Clear` and `Sort` of the list too. `Range` goes on behind the element it has passed, as the list is when the
function returns; it ends if the element has been removed; and after `Clear` or `Sort` it goes on through the elements that were behind
the element at that moment, though they are not in the list any more.
-/
namespace Verif.Dllist
open Spec (Op Res St Client SRun Safe valsOf insBefore insAfter nextOf prevOf exchange StableSorted)
variable {T A : Type} {m m' : Mem T} {s s' : St T} {S : Nat → List Nat}

/-! ## Specification -/

/-- The place of the loop: the element passed is in the list; it has been removed; the list has been cleared or sorted, with `r` behind the element. -/
inductive Pos where
  | at
  | gone
  | left (r : List Nat)

/-- The elements behind `e` in `l`. -/
def Behind (m : Mem T) (l e : Nat) (r : List Nat) : Prop := ∃ xs v ys, Shows m l (xs ++ (e, v) :: ys) ∧ r = ys.map (·.1)

/-- The call removes `e` from a list. -/
def removes : Op T → Option Nat
  | .remove _ e | .elRemove e => some e
  | _ => none

/-- What a call does to the place of a loop over `l` that has passed `e`. -/
inductive Shift (l e : Nat) (m : Mem T) (op : Op T) (m' : Mem T) : Pos → Pos → Prop
  | stays : In m' l e → Shift l e m op m' .at .at
  | removed : removes op = some e → ¬ In m' l e → Shift l e m op m' .at .gone
  | reset {r} : resets op = some l → ¬ In m' l e → Behind m l e r → Shift l e m op m' .at (.left r)
  | gone : Shift l e m op m' .gone .gone
  | left {r} : Shift l e m op m' (.left r) (.left r)

/-- What several calls do. -/
inductive Shifts (l e : Nat) : Mem T → Pos → Mem T → Pos → Prop
  | nil {m p} : Shifts l e m p m p
  | cons {m op r m1 p q m' t} : MStep m op r m1 → Shift l e m op m1 p q → Shifts l e m1 q m' t → Shifts l e m p m' t

/-- What is passed after `e`, from a place. -/
inductive Next (m : Mem T) (l e : Nat) : Pos → Option (Nat × Pos) → Prop
  | at {n} : In m l e → NextIn m l e n → Next m l e .at (n.map (·, .at))
  | gone : Next m l e .gone none
  | empty : Next m l e (.left []) none
  | left {x r} : Next m l e (.left (x :: r)) (some (x, .left r))

/-- What the calls of the function have to be, from memory `m` on with `n` next, to memory `m'`; the Boolean is the result of `Range`. -/
inductive Course (l : Nat) : Mem T → Option (Nat × Pos) → List (Visit T) → Mem T → Bool → Prop
  | done (m : Mem T) : Course l m none [] m true
  | stop {m m' : Mem T} {e : Nat} {p q : Pos} : Shifts l e m p m' q → Course l m (some (e, p)) [⟨m, e, m', false⟩] m' false
  | next {m m1 m' : Mem T} {e : Nat} {p q : Pos} {n : Option (Nat × Pos)} {log : List (Visit T)} {b : Bool} :
      Shifts l e m p m1 q → Next m1 l e q n → Course l m1 n log m' b → Course l m (some (e, p)) (⟨m, e, m1, true⟩ :: log) m' b

/-- The lists and elements there are in `s0` are there in `s`, too. -/
def Grows (s0 s : St T) : Prop := (∀ l, s0.lists l → s.lists l) ∧ ∀ n, s0.val n ≠ none → s.val n ≠ none

/-- The function changes the memory only by calls that the specification speaks about; it may use the lists and elements returned before `Range` is called
(by the calls with results `rs`). The elements it must not use as arguments (`stale`) are those that were in a list when that was cleared or sorted. -/
def UsesAny (c : Client T) (rs : List (Res T)) (body : Mem T → A → Ptr → Option (Mem T × A × Bool)) : Prop :=
  ∀ s0 m s a e m' a' c', SRun c rs s0 → Grows s0 s → Impl m s → s.val e ≠ none → (∀ n, s.stale n → ∃ l, m.owner (.node n) = some l ∧ n ∉ s.seq l) →
    body m a (.node e) = some (m', a', c') → ∃ s', Calls (fun _ => True) m s m' s'

/-! ## Proofs -/

theorem Impl.norm (h : Impl m s) : Impl m { s with stale := fun n => ∃ l, m.owner (.node n) = some l ∧ n ∉ s.seq l } := by
  obtain ⟨S, h⟩ := h
  refine ⟨S, h.rep, h.seq, h.listAlloc, h.val, h.alloc, h.elems, fun n l hn ho => ?_, h.noList⟩
  by_cases hm : n ∈ s.seq l
  · exact .inl ⟨h.mem_lists hm, hm⟩
  · exact .inr ⟨l, ho, hm⟩

/-- An element stays in its list unless it is removed or the list is reset. -/
theorem step_stays {op : Op T} {r : Res T} (h : s.Step op r s') (hS : Sim m s S) {l e : Nat} (he : e ∈ s.seq l) (h1 : resets op ≠ some l)
    (h2 : removes op ≠ some e) : e ∈ s'.seq l := by
  have hl := hS.mem_lists he
  by_cases hp : Leaves l e op
  · exact (step_same h hS hl hp).2 he
  · cases op <;> simp only [St.Step] at h <;> simp only [Leaves, not_true_eq_false, Classical.not_not, ne_eq] at hp <;>
      simp only [Dllist.resets, removes, ne_eq, Option.some.injEq] at h1 h2
    case clear l' => exact absurd hp h1
    case sort l' _ => exact absurd hp h1
    case remove l' x => exact absurd hp h2
    case elRemove x => exact absurd hp h2
    case moveToFront l' x =>
      subst hp
      obtain ⟨rfl, h⟩ := h
      split at h
      · subst h
        simp only [Spec.set, if_true, List.mem_cons]
        by_cases hx : e = x
        · exact .inl hx
        · exact .inr ((List.mem_erase_of_ne hx).2 he)
      · subst h; exact he
    case moveToBack l' x =>
      subst hp
      obtain ⟨rfl, h⟩ := h
      split at h
      · subst h
        simp only [Spec.set, if_true, List.mem_append, List.mem_singleton]
        by_cases hx : e = x
        · exact .inr hx
        · exact .inl ((List.mem_erase_of_ne hx).2 he)
      · subst h; exact he
    case moveBefore l' x mark =>
      subst hp
      obtain ⟨rfl, h⟩ := h
      split at h
      · next hc =>
        subst h
        simp only [Spec.set, if_true]
        obtain ⟨xs, ys, y1, y2, _, _⟩ := split_nodup ((hS.nodup l').erase x) ((List.mem_erase_of_ne (Ne.symm hc.2.2)).2 hc.2.1)
        rw [y1, insBefore_eq y2]
        by_cases hx : e = x
        · simp [hx]
        · have := (List.mem_erase_of_ne hx).2 he
          rw [y1] at this
          simp only [List.mem_append, List.mem_cons] at this ⊢
          tauto
      · subst h; exact he
    case moveAfter l' x mark =>
      subst hp
      obtain ⟨rfl, h⟩ := h
      split at h
      · next hc =>
        subst h
        simp only [Spec.set, if_true]
        obtain ⟨xs, ys, y1, y2, _, _⟩ := split_nodup ((hS.nodup l').erase x) ((List.mem_erase_of_ne (Ne.symm hc.2.2)).2 hc.2.1)
        rw [y1, insAfter_eq y2]
        by_cases hx : e = x
        · simp [hx]
        · have := (List.mem_erase_of_ne hx).2 he
          rw [y1] at this
          simp only [List.mem_append, List.mem_cons] at this ⊢
          tauto
      · subst h; exact he
    case swap l' a b =>
      subst hp
      obtain ⟨rfl, h⟩ := h
      split at h
      · next hc =>
        subst h
        simp only [Spec.set, if_true, exchange, List.mem_map]
        by_cases ha : e = a
        · exact ⟨b, hc.2, by split; · next h => rw [ha, h]
                             · simp [ha]⟩
        · by_cases hb : e = b
          · exact ⟨a, hc.1, by simp [hb]⟩
          · exact ⟨e, he, by simp [ha, hb]⟩
      · subst h; exact he

/-- The place in the memory. -/
def Old (m : Mem T) (s : St T) (l : Nat) (r : List Nat) (e : Nat) : Prop :=
  s.val e ≠ none ∧ e ∉ s.seq l ∧ m.owner (.node e) = some l ∧ m.next (.node e) = some (headP l r)

def Stale (m : Mem T) (s : St T) (l : Nat) : List Nat → Nat → Prop
  | [], e => Old m s l [] e
  | x :: r, e => Old m s l (x :: r) e ∧ Stale m s l r x

theorem Stale.old {l : Nat} {r : List Nat} {e : Nat} (h : Stale m s l r e) : Old m s l r e := by
  cases r with
  | nil => exact h
  | cons x r => exact h.1

def Holds (m : Mem T) (s : St T) (l e : Nat) : Pos → Prop
  | .at => e ∈ s.seq l ∧ ¬ s.stale e
  | .gone => s.Usable e ∧ ∀ l, e ∉ s.seq l
  | .left r => Stale m s l r e

theorem Holds.val {l e : Nat} {p : Pos} (hS : Sim m s S) (h : Holds m s l e p) : s.val e ≠ none := by
  cases p with
  | «at» => exact hS.elems l e h.1
  | gone => exact h.1.1
  | left r => exact (Stale.old h).1

theorem Old.step {op : Op T} {res : Res T} (hS : Sim m s S) (hv : s.Valid op) (hm : MStep m op res m') (hs : s.Step op res s')
    {l : Nat} {r : List Nat} {e : Nat} (hl : s.lists l) (h : Old m s l r e) : Old m' s' l r e := by
  obtain ⟨F, hF⟩ := hm
  obtain ⟨S', k⟩ := exec_kept hS hv (hF F (Nat.le_refl _))
  obtain ⟨h1, h2, h3, h4⟩ := h
  have hn : ∀ l', True → e ∉ S l' := fun l' _ hc => by
    have := hS.rep.owner l' e hc
    rw [h3] at this
    injection this with this
    subst this
    rw [hS.seq l hl] at hc
    exact h2 hc
  obtain ⟨_, a2, a3⟩ := k.keep e (hS.alloc e h1) (by rw [h3]; simp) hn
  exact ⟨(step_keeps hs hS.wf h1).1, fun hc => h2 (step_old hs h1 hc), by rw [a2, h3], by rw [a3, h4]⟩

theorem Stale.step {op : Op T} {res : Res T} (hS : Sim m s S) (hv : s.Valid op) (hm : MStep m op res m') (hs : s.Step op res s')
    {l : Nat} (hl : s.lists l) : ∀ {r : List Nat} {e : Nat}, Stale m s l r e → Stale m' s' l r e := by
  intro r
  induction r with
  | nil => intro e h; exact Old.step hS hv hm hs hl h
  | cons x r ih => intro e h; exact ⟨Old.step hS hv hm hs hl h.1, ih h.2⟩

/-- What is left behind by a reset. -/
theorem stale_reset {op : Op T} {res : Res T} (hS : Sim m s S) (hm : MStep m op res m') (hs : s.Step op res s')
    {l : Nat} (hl : s.lists l) (hr : resets op = some l) (hne : ∃ e ∈ s.seq l, e ∉ s'.seq l) : ∀ {post pre : List Nat} {e : Nat}, s.seq l = pre ++ e :: post →
    Stale m' s' l post e := by
  have key : ∀ e ∈ s.seq l, e ∉ s'.seq l ∧ s'.val e ≠ none ∧ m'.owner (.node e) = some l ∧ m'.next (.node e) = m.next (.node e) := by
    intro e he
    have hv := hS.elems l e he
    refine ⟨?_, (step_keeps hs hS.wf hv).1, ?_⟩
    · cases op <;> simp only [Dllist.resets, Option.some.injEq, reduceCtorEq] at hr
      case clear l' => subst hr; obtain ⟨rfl, rfl⟩ := hs; simp [Spec.set]
      case sort l' _ =>
        subst hr
        obtain ⟨rfl, hs⟩ := hs
        split at hs
        · subst hs; obtain ⟨x, h1, h2⟩ := hne; exact absurd h1 h2
        · obtain ⟨ns, vs, s1, _, _, h, rfl⟩ := hs
          intro hc
          have hc : e ∈ s1.seq l' := hc
          rw [h.seq_self] at hc
          exact hv (h.1.2 e hc)
    · obtain ⟨F, hF⟩ := hm
      have e1 := hF F (Nat.le_refl _)
      cases op <;> simp only [Dllist.resets, Option.some.injEq, reduceCtorEq] at hr
      case clear l' =>
        subst hr
        simp only [exec, Option.some.injEq, Prod.mk.injEq] at e1
        obtain ⟨rfl, _⟩ := e1
        exact ⟨hS.rep.owner _ e (hS.memS he), by simp [Dllist.clear, Mem.setNext, Mem.setPrev, Mem.setLen, Mem.setInited, upd]⟩
      case sort l' less =>
        subst hr
        simp only [exec, Option.bind_eq_bind, Option.bind_eq_some_iff, Option.some.injEq, Prod.mk.injEq] at e1
        obtain ⟨m1, e1, rfl, _⟩ := e1
        refine (sort_kept less F hS.rep (hS.listAlloc _ hl) e1).2 ?_ e (hS.memS he)
        rw [hS.seq _ hl]
        obtain ⟨rfl, hs⟩ := hs
        split at hs
        · subst hs; obtain ⟨x, h1, h2⟩ := hne; exact absurd h1 h2
        · omega
  have hold : ∀ {post pre : List Nat} {e : Nat}, s.seq l = pre ++ e :: post → Old m' s' l post e := by
    intro post pre e h
    have he : e ∈ s.seq l := by rw [h]; simp
    obtain ⟨k1, k2, k3, k4⟩ := key e he
    refine ⟨k2, k1, k3, ?_⟩
    obtain ⟨h3, _⟩ := hS.rep.links (hS.rep.init_of_mem (hS.memS he)) (xs := pre ++ [e]) (ys := post) (by rw [hS.seq l hl, h]; simp)
    rw [lastP_concat] at h3
    rw [k4, h3]
  intro post
  induction post with
  | nil => intro pre e h; exact hold h
  | cons x post ih => intro pre e h; exact ⟨hold h, ih (pre := pre ++ [e]) (by rw [h]; simp)⟩

theorem Impl.behind (h : Impl m s) {l e : Nat} (hl : s.lists l) {pre post : List Nat} (hs : s.seq l = pre ++ e :: post) : Behind m l e post := by
  obtain ⟨S, h⟩ := h
  have h1 := h.shows hl
  obtain ⟨v, hv, _⟩ := h.value (l := l) (n := e) (by rw [hs]; simp)
  refine ⟨pairs s pre, v, pairs s post, ?_, ?_⟩
  · rw [hs, pairs_append] at h1
    have : pairs s (e :: post) = (e, v) :: pairs s post := by simp [pairs, hv]
    rwa [this] at h1
  · rw [pairs_fst]
    intro n hn
    exact h.elems l n (by rw [hs]; simp [hn])

/-- One call, and the place. -/
theorem pos_step {op : Op T} {res : Res T} (hS : Impl m s) (hv : s.Valid op) (hm : MStep m op res m') (hs : s.Step op res s') (h1 : Impl m' s')
    {l e : Nat} (hl : s.lists l) {p : Pos} (hp : Holds m s l e p) : ∃ q, Shift l e m op m' p q ∧ Holds m' s' l e q := by
  have hI := hS
  obtain ⟨S, hS⟩ := hS
  have hl' := step_lists_mono hs hl
  cases p with
  | «at» =>
    obtain ⟨he, hst⟩ := hp
    obtain ⟨k1, k2⟩ := step_keeps hs hS.wf (hS.elems l e he)
    by_cases he' : e ∈ s'.seq l
    · refine ⟨.at, .stays (h1.in he'), he', fun hst' => ?_⟩
      rcases k2 hst' with h | ⟨l', h, hl'⟩
      · exact hst h
      · have := hS.unique hl' he
        subst this
        have hx : ∀ x ∈ s'.seq l', x ∉ s.seq l' ∨ s' = s := by
          intro x hx
          cases op <;> simp only [Dllist.resets, Option.some.injEq, reduceCtorEq] at h
          case clear l' => subst h; obtain ⟨rfl, rfl⟩ := hs; simp [Spec.set] at hx
          case sort l' _ =>
            subst h
            obtain ⟨rfl, hs⟩ := hs
            split at hs
            · exact .inr hs
            · obtain ⟨ns, vs, s1, _, _, h, rfl⟩ := hs
              have hx : x ∈ s1.seq l' := hx
              rw [h.seq_self] at hx
              exact .inl fun hc => hS.elems l' x hc (h.1.2 x hx)
        rcases hx e he' with h | rfl
        · exact h he
        · exact hst hst'
    · have hni : ¬ In m' l e := fun h => he' ((h1.in_iff hl').1 h)
      by_cases hr : resets op = some l
      · obtain ⟨pre, post, hpp⟩ := List.append_of_mem he
        exact ⟨.left post, .reset hr hni (hI.behind hl hpp), stale_reset hS hm hs hl hr ⟨e, he, he'⟩ hpp⟩
      · by_cases hrm : removes op = some e
        · refine ⟨.gone, .removed hrm hni, ⟨k1, fun hst' => ?_⟩, fun l' hc => ?_⟩
          · rcases k2 hst' with h | ⟨l', h, hl'⟩
            · exact hst h
            · cases op <;> simp only [Dllist.resets, removes, Option.some.injEq, reduceCtorEq] at h hrm
          · have := hS.unique (step_old hs (hS.elems l e he) hc) he
            subst this
            exact he' hc
        · exact absurd (step_stays hs hS he hr hrm) he'
  | gone =>
    obtain ⟨⟨u1, u2⟩, hn⟩ := hp
    obtain ⟨k1, k2⟩ := step_keeps hs hS.wf u1
    refine ⟨.gone, .gone, ⟨k1, fun hst => ?_⟩, fun l' hc => hn l' (step_old hs u1 hc)⟩
    rcases k2 hst with h | ⟨l', _, h⟩
    · exact u2 h
    · exact hn l' h
  | left r => exact ⟨.left r, .left, Stale.step hS hv hm hs hl hp⟩

theorem pos_calls {P : Op T → Prop} (h : Calls P m s m' s') (h0 : Impl m s) {l e : Nat} (hl : s.lists l) {p : Pos} (hp : Holds m s l e p) :
    ∃ q, Shifts l e m p m' q ∧ Impl m' s' ∧ s'.lists l ∧ Holds m' s' l e q := by
  induction h generalizing p with
  | nil => exact ⟨p, .nil, h0, hl, hp⟩
  | @cons m s op r m1 s1 m' s' _ hv hm hs h1 hc ih =>
    obtain ⟨q, a1, a2⟩ := pos_step h0 hv hm hs h1 hl hp
    obtain ⟨t, b1, b2, b3, b4⟩ := ih h1 (step_lists_mono hs hl) a2
    exact ⟨t, .cons hm a1 b1, b2, b3, b4⟩

/-- The place does not depend on what is counted as stale, as long as the elements of lists are not. -/
theorem Holds.norm {l e : Nat} {p : Pos} (hS : Sim m s S) (h : Holds m s l e p) :
    Holds m { s with stale := fun n => ∃ l, m.owner (.node n) = some l ∧ n ∉ s.seq l } l e p := by
  cases p with
  | «at» =>
    refine ⟨h.1, ?_⟩
    rintro ⟨l', h1, h2⟩
    have h3 := hS.rep.owner l e (hS.memS h.1)
    rw [h1] at h3
    injection h3 with h3
    subst h3
    exact h2 h.1
  | gone =>
    refine ⟨⟨h.1.1, ?_⟩, h.2⟩
    rintro ⟨l', h1, _⟩
    rw [hS.owner_none h.1 h.2] at h1
    cases h1
  | left r =>
    have h : Stale m s l r e := h
    show Stale _ _ l r e
    induction r generalizing e with
    | nil => exact h
    | cons x r ih => exact ⟨h.1, ih h.2 h.2⟩

/-- The next element. -/
theorem pos_next (hI : Impl m s) {l e : Nat} (hl : s.lists l) {q : Pos} (hq : Holds m s l e q) :
    ∃ n, Next m l e q n ∧ Dllist.elNext m (.node e) = n.map (fun x => .node x.1) ∧ ∀ x p, n = some (x, p) → Holds m s l x p ∨ (p = .at ∧ x ∈ s.seq l) := by
  cases q with
  | «at» =>
    have hn := hI.next hl e
    have hi := hI.in hq.1
    obtain ⟨S, hS⟩ := hI
    obtain ⟨xs, ys, h1, h2, _, _⟩ := split_nodup (hS.nodup l) hq.1
    refine ⟨_, .at hi hn, ?_, ?_⟩
    · rw [hS.elNext h1, h1, nextOf_eq h2]
      cases ys.head? <;> rfl
    · intro x p hx
      right
      cases hno : nextOf e (s.seq l) with
      | none => rw [hno] at hx; cases hx
      | some y =>
        rw [hno] at hx
        simp only [Option.map_some, Option.some.injEq, Prod.mk.injEq] at hx
        obtain ⟨rfl, rfl⟩ := hx
        exact ⟨rfl, mem_nextOf hno⟩
  | gone =>
    obtain ⟨S, hS⟩ := hI
    exact ⟨none, .gone, by simp [Dllist.elNext, hS.owner_none hq.1 hq.2], by simp⟩
  | left r =>
    obtain ⟨h1, h2, h3, h4⟩ := Stale.old hq
    cases r with
    | nil => exact ⟨none, .empty, by simp [Dllist.elNext, h3, h4], by simp⟩
    | cons x r =>
      refine ⟨some (x, .left r), .left, by simp [Dllist.elNext, h3, h4], ?_⟩
      rintro _ _ hx
      cases hx
      exact .inl hq.2

theorem course_of_loop {cl : Client T} {rs : List (Res T)} {s0 : St T} (hs0 : SRun cl rs s0) {l : Nat}
    {body : Mem T → A → Ptr → Option (Mem T × A × Bool)} (hb : UsesAny cl rs body) :
    ∀ (fuel : Nat) (m : Mem T) (s : St T) (a : A) (log : List (Visit T)) (n : Option (Nat × Pos)) (m' : Mem T) (a' : A)
      (log' : List (Visit T)) (b : Bool),
      Impl m s → Grows s0 s → s.lists l → (∀ x p, n = some (x, p) → Holds m s l x p ∨ (p = .at ∧ x ∈ s.seq l)) →
      rangeLoop (logged body) fuel m (a, log) (n.map fun x => .node x.1) = some (m', (a', log'), b) →
      ∃ more, log' = log ++ more ∧ Course l m n more m' b := by
  intro fuel
  induction fuel with
  | zero => intro m s a log n m' a' log' b _ _ _ _ h; simp [rangeLoop] at h
  | succ k ih =>
    intro m s a log n m' a' log' b hi hg hl hn h
    cases n with
    | none =>
      simp only [Option.map_none, rangeLoop, Option.some.injEq, Prod.mk.injEq] at h
      obtain ⟨rfl, ⟨rfl, rfl⟩, rfl⟩ := h
      exact ⟨[], by simp, .done _⟩
    | some x =>
      obtain ⟨e, p⟩ := x
      simp only [Option.map_some, rangeLoop, logged] at h
      rcases hbd : body m a (.node e) with _ | ⟨m1, a1, c⟩
      · rw [hbd] at h; cases h
      · rw [hbd] at h
        obtain ⟨S, hS⟩ := hi
        have hp : Holds m { s with stale := fun n => ∃ l, m.owner (.node n) = some l ∧ n ∉ s.seq l } l e p := by
          rcases hn e p rfl with h | ⟨rfl, h⟩
          · exact h.norm hS
          · have : Holds m { s with stale := fun n => s.stale n ∧ ∀ l, n ∉ s.seq l } l e .at := ⟨h, fun h' => h'.2 l h⟩
            have t := Holds.norm hS.unstale this
            exact t
        obtain ⟨s1, hc⟩ := hb s0 m { s with stale := fun n => ∃ l, m.owner (.node n) = some l ∧ n ∉ s.seq l } a e m1 a1 c hs0 hg (Impl.norm ⟨S, hS⟩) (show s.val e ≠ none by
          rcases hn e p rfl with h | ⟨rfl, h⟩
          · exact h.val hS
          · exact hS.elems l e h) (fun _ h => h) hbd
        obtain ⟨q, c1, c2, c3, c4⟩ := pos_calls hc (Impl.norm ⟨S, hS⟩) (l := l) hl hp
        obtain ⟨_, g1, g2⟩ := hc.old (Impl.norm ⟨S, hS⟩)
        have hg' : Grows s0 s1 := ⟨fun l h => g1 l (hg.1 l h), fun n h => (g2 n (hg.2 n h)).1⟩
        cases c with
        | false =>
          simp only [Option.bind_eq_bind, Option.bind_some, Bool.false_eq_true, if_false, Option.some.injEq, Prod.mk.injEq] at h
          obtain ⟨rfl, ⟨rfl, rfl⟩, rfl⟩ := h
          exact ⟨_, rfl, .stop c1⟩
        | true =>
          obtain ⟨n', d1, d2, d3⟩ := pos_next c2 c3 c4
          simp only [Option.bind_eq_bind, Option.bind_some, if_true] at h
          rw [d2] at h
          obtain ⟨more, h1, h2⟩ := ih m1 s1 a1 _ n' m' a' log' b c2 hg' c3 d3 h
          exact ⟨_, by rw [h1, List.append_assoc]; rfl, .next c1 d1 h2⟩

/-- C138: whatever calls the function of `Range` makes, `Clear` and `Sort` of the list included: it is given the first element of the list first. After
a call for `e` that returns true, `Range` goes on with the element that follows `e` in the list at that moment; if `e` has been removed meanwhile, `Range`
ends; if the list has been cleared, or sorted into new elements, it goes on through the elements that were behind `e` when that happened,
whatever has been done since. -/
theorem C138_range {c : Client T} (hc : Safe c) {rs : List (Res T)} (h : MRun c rs m) {l : Nat} (hl : Res.list l ∈ rs)
    {body : Mem T → A → Ptr → Option (Mem T × A × Bool)} (hb : UsesAny c rs body)
    {fuel : Nat} {a a' : A} {m' : Mem T} {log : List (Visit T)} {b : Bool}
    (hr : range (logged body) fuel m (a, []) l = some (m', (a', log), b)) :
    ∃ m0 n, FirstIn m0 l n ∧ (∀ l' xs, Res.list l' ∈ rs → (Shows m0 l' xs ↔ Shows m l' xs)) ∧ Course l m0 (n.map (·, .at)) log m' b := by
  obtain ⟨s, S, h1, h2⟩ := run_sim hc h
  have hll := srun_lists h1 hl
  obtain ⟨m0, e0, h3, _⟩ := h2.front hll
  unfold Dllist.range at hr
  rw [e0] at hr
  dsimp only at hr
  obtain ⟨more, h4, h5⟩ := course_of_loop h1 hb fuel m0 s a [] ((s.seq l).head?.map (·, .at)) m' a' log b ⟨S, h3⟩ ⟨fun _ h => h, fun _ h => h⟩ hll
    (fun e p he => .inr (by
      cases hh : (s.seq l).head? with
      | none => rw [hh] at he; cases he
      | some y =>
        rw [hh] at he
        simp only [Option.map_some, Option.some.injEq, Prod.mk.injEq] at he
        obtain ⟨rfl, rfl⟩ := he
        exact ⟨rfl, List.mem_of_mem_head? (by simp [hh])⟩)) (by
      rw [Option.map_map]; exact hr)
  have h4 : log = more := h4
  subst h4
  refine ⟨m0, _, ⟨_, h3.shows hll, by rw [pairs_fst (h3.elems l)]⟩, fun l' xs hl' => ?_, h5⟩
  have hl' := srun_lists h1 hl'
  exact ⟨fun h => by rw [h3.shows_eq hl' h]; exact h2.shows hl', fun h => by rw [h2.shows_eq hl' h]; exact h3.shows hl'⟩

/-! ### Examples -/

/-- A function that clears the list when it is given the first element, and puts a new value into it. -/
def clearing : Mem Nat → Bool → Ptr → Option (Mem Nat × Bool × Bool) := fun m a _ =>
  if a then (exec 0 (clear m 0) (.pushBack 0 7)).map fun x => (x.1, false, true) else some (m, false, true)

theorem clearing_uses {c : Client Nat} {rs : List (Res Nat)} (h : Res.list 0 ∈ rs) : UsesAny c rs clearing := by
  intro s0 m s a e m' a' c' h0 hg hi he hst hb
  have hl : s.lists 0 := hg.1 0 (srun_lists h0 h)
  obtain ⟨S, hS⟩ := hi
  unfold clearing at hb
  cases a with
  | false => simp at hb; obtain ⟨rfl, _⟩ := hb; exact ⟨s, .nil⟩
  | true =>
    obtain ⟨r, m1, s1, S1, h1, h2, h3⟩ := sim_step hS (.clear 0) hl
    have e1 : m1 = clear m 0 := by
      obtain ⟨F, h1⟩ := h1
      have := h1 F (Nat.le_refl _)
      simp only [exec, Option.some.injEq, Prod.mk.injEq] at this
      exact this.1.symm
    subst e1
    have hl1 := step_lists_mono h2 hl
    obtain ⟨r', m2, s2, S2, k1, k2, k3⟩ := sim_step h3 (.pushBack 0 7) hl1
    have e2 : m2 = m' := by
      obtain ⟨F, k1⟩ := k1
      have := k1 F (Nat.le_refl _)
      have hx : exec F (clear m 0) (.pushBack 0 7) = exec 0 (clear m 0) (.pushBack 0 7) := rfl
      rw [hx] at this
      simp [this] at hb
      exact hb.1
    subst e2
    exact ⟨s2, .cons (op := .clear 0) trivial hl h1 h2 ⟨S1, h3⟩ (.cons (op := .pushBack 0 7) trivial hl1 k1 k2 ⟨S2, k3⟩ .nil)⟩

/-- All three elements are passed, though the list has one element only, which is not passed. -/
example : (do
      let m ← after [.new, .pushBack 0 1, .pushBack 0 2, .pushBack 0 3]
      let (m, (_, log), b) ← range (logged clearing) 20 m (true, []) 0
      let (_, r) ← exec 20 m (.slice 0)
      some (log.map (·.e), b, match r with | .vals xs => xs | _ => [])) = some ([0, 1, 2], true, [7]) := rfl

end Verif.Dllist
