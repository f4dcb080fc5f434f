import Verif.PQueue.Props
/-!
# Items of equal priority (C168)

Is `PQueue` first in, first out among items of the same priority? It is not; what it does with them instead.
-/
namespace Verif.PQueue
variable {V : Type}

/-! ## Specification -/

/-- A queue, in the order of the calls of `Push`, from which `Pop` takes the first of the pairs with extremal priority. -/
inductive Fifo (k : Kind) : List (Int × V) → List (Op V) → List (Int × V) → List (Int × V) → Prop
  | nil (b) : Fifo k b [] [] b
  | push {p v b os outs b'} : Fifo k (b ++ [(p, v)]) os outs b' → Fifo k b (.push p v :: os) outs b'
  | pop {l r l' os outs b'} : (∀ x ∈ l, ¬ before k x.1 r.1) → (∀ x ∈ l', before k r.1 x.1) → Fifo k (l ++ l') os outs b' →
      Fifo k (l ++ r :: l') (.pop :: os) (r :: outs) b'

/-- The priorities of the pushes. -/
def prios : List (Op V) → List Int
  | [] => []
  | .push p _ :: os => p :: prios os
  | .pop :: os => prios os

/-- The last comes to the front. -/
def refill {T : Type} (l : List T) : List T := match l.getLast? with
  | none => []
  | some y => y :: l.dropLast

/-- What `Pop` does to a line of values: it takes the first, and the last takes its place. -/
def takeFirst : List V → Option (V × List V)
  | [] => none
  | x :: l => some (x, refill l)

/-- `Push` puts values at the end of the line. -/
def line : List V → List (Op V) → Option (List V × List V)
  | l, [] => some ([], l)
  | l, .push _ v :: os => line (l ++ [v]) os
  | l, .pop :: os => do
    let (v, l') ← takeFirst l
    let (vs, l'') ← line l' os
    pure (v :: vs, l'')

/-! ## Equal priorities -/

theorem less_none {lt : Item V → Item V → Bool} {q : List (Item V)} (h : ∀ a ∈ q, ∀ b ∈ q, lt a b = false) {i j : Nat} (hi : i < q.length) (hj : j < q.length) :
    Heap.less lt q i j = some false := by
  simp only [Heap.less, List.getElem?_eq_getElem hi, List.getElem?_eq_getElem hj]
  rw [h _ (List.getElem_mem hi) _ (List.getElem_mem hj)]

theorem up_none {lt : Item V → Item V → Bool} {q : List (Item V)} (h : ∀ a ∈ q, ∀ b ∈ q, lt a b = false) {j : Nat} (hj : j < q.length) :
    Heap.up lt q j = some q := by
  rw [Heap.up]
  split
  · rfl
  · rw [less_none h hj (by omega)]

theorem down_none {lt : Item V → Item V → Bool} {q : List (Item V)} (h : ∀ a ∈ q, ∀ b ∈ q, lt a b = false) {n : Nat} (hn : n ≤ q.length) :
    Heap.down lt q 0 n = some (q, false) := by
  have : Heap.downLoop lt q 0 n = some (q, 0) := by
    rw [Heap.downLoop]
    dsimp only
    split
    · rfl
    · have h1 : (if 2 * 0 + 1 + 1 < n then Heap.less lt q (2 * 0 + 1 + 1) (2 * 0 + 1) else some false) = some false := by
        split
        · exact less_none h (by omega) (by omega)
        · rfl
      rw [h1]
      dsimp only
      rw [if_neg (by simp), less_none h (by omega) (by omega)]
  simp [Heap.down, this]

theorem same_less (k : Kind) {p : Int} {q : List (Item V)} (h : ∀ a ∈ q, a.priority = p) : ∀ a ∈ q, ∀ b ∈ q, lessOf k a b = false := by
  intro a ha b hb
  cases k <;> simp [lessOf, minLess, maxLess, h a ha, h b hb]

theorem push_same (k : Kind) {p : Int} {q : List (Item V)} (h : ∀ a ∈ q, a.priority = p) (v : V) : push k q p v = some (q ++ [⟨p, v⟩]) := by
  have h' : ∀ a ∈ q ++ [(⟨p, v⟩ : Item V)], a.priority = p := by
    intro a ha
    rcases List.mem_append.1 ha with ha | ha
    · exact h a ha
    · simp at ha; rw [ha]
  exact up_none (same_less k h') (by simp [Heap.rawPush])

theorem pop_same (k : Kind) {p : Int} {x : Item V} {q : List (Item V)} (h : ∀ a ∈ x :: q, a.priority = p) :
    pop k (x :: q) = some ((p, x.value), refill q) := by
  have hx := h x (by simp)
  rcases List.eq_nil_or_concat q with rfl | ⟨m, y, rfl⟩
  · have hs : Heap.swap [x] 0 0 = some [x] := rfl
    have hd := down_none (same_less k h) (n := 0) (by simp)
    simp [pop, Heap.pop, hs, hd, Heap.rawPop, hx, refill]
  · have hs : Heap.swap (x :: (m ++ [y])) 0 (m.length + 1) = some (y :: (m ++ [x])) := by
      simp [Heap.swap]
    have hd : Heap.down (lessOf k) (y :: (m ++ [x])) 0 (m.length + 1) = some (y :: (m ++ [x]), false) := by
      refine down_none (same_less k (p := p) ?_) (by simp)
      intro a ha
      refine h a ?_
      simp at ha ⊢
      rcases ha with ha | ha | ha
      · exact .inr (.inr ha)
      · exact .inr (.inl ha)
      · exact .inl ha
    have e : y :: (m ++ [x]) = (y :: m) ++ [x] := rfl
    have hr : Heap.rawPop (y :: (m ++ [x])) = some (x, y :: m) := by
      have h1 : (y :: (m ++ [x])).getLast? = some x := by rw [e, List.getLast?_append]; rfl
      have h2 : (y :: (m ++ [x])).dropLast = y :: m := by rw [e, List.dropLast_concat]
      simp only [Heap.rawPop, h1, h2]
    simp only [List.concat_eq_append]
    simp [pop, Heap.pop, hs, hd, hr, hx, refill]

theorem refill_mem {T : Type} {l : List T} {a : T} (h : a ∈ refill l) : a ∈ l := by
  unfold refill at h
  split at h
  · cases h
  · rename_i y hy
    rcases List.mem_cons.1 h with rfl | h
    · exact List.mem_of_getLast? hy
    · exact List.dropLast_subset _ h

theorem refill_map {T U : Type} (f : T → U) (l : List T) : (refill l).map f = refill (l.map f) := by
  unfold refill
  rw [List.getLast?_map, ← List.map_dropLast]
  cases l.getLast? <;> rfl

theorem refill_concat {T : Type} (l : List T) (y : T) : refill (l ++ [y]) = y :: l := by simp [refill]

/-- **C168**, partial: when all items have the same priority, the first item comes out first, then the last takes its place. This says what calls give from any queue of
such items; the full claim is `Fifo`, see `C168_false`. -/
theorem C168_same_partial (k : Kind) (p : Int) (os : List (Op V)) (ho : ∀ p' ∈ prios os, p' = p) (q : List (Item V)) (hq : ∀ a ∈ q, a.priority = p) :
    (run k q os).map (fun r => (r.1, r.2.map (·.value))) = (line (q.map (·.value)) os).map fun r => (r.1.map fun v => (p, v), r.2) := by
  induction os generalizing q with
  | nil => simp [run, line]
  | cons o os ih =>
    cases o with
    | push p' v =>
      obtain rfl : p' = p := ho p' (by simp [prios])
      have := ih (fun x hx => ho x (by simp [prios, hx])) (q ++ [⟨p', v⟩]) (by
        intro a ha
        rcases List.mem_append.1 ha with ha | ha
        · exact hq a ha
        · simp at ha; rw [ha])
      simp only [run, push_same k hq, line]
      simpa using this
    | pop =>
      cases q with
      | nil => simp [run, line, pop, Heap.pop, takeFirst]
      | cons x q =>
        have hm : ∀ a ∈ refill q, a.priority = p := fun a ha => hq a (.tail _ (refill_mem ha))
        have := ih (fun x hx => ho x (by simpa [prios] using hx)) _ hm
        rw [refill_map] at this
        simp only [run, pop_same k hq, line, List.map_cons, takeFirst, Option.bind_eq_bind, Option.bind_some]
        revert this
        generalize refill q = q1
        generalize refill (q.map (·.value)) = l1
        cases run k q1 os <;> cases line l1 os <;> simp

/-- **C168**: pushed one after the other with the same priority and popped, the first item comes first, the others from the last to the second. -/
theorem C168_drain (k : Kind) (p : Int) (v : V) (vs : List V) :
    ∃ q, run k new ((v :: vs).map (.push p) ++ (v :: vs).map fun _ => .pop) = some ((v :: vs.reverse).map fun v => (p, v), q) := by
  have hp : ∀ l : List V, prios (l.map (Op.push p) ++ l.map fun _ => .pop) = l.map fun _ => p := by
    have h1 : ∀ l : List V, prios (l.map fun _ => (.pop : Op V)) = [] := by
      intro l; induction l with
      | nil => rfl
      | cons a l ih => simpa [prios] using ih
    have h2 : ∀ (l : List V) os, prios (l.map (Op.push p) ++ os : List (Op V)) = (l.map fun _ => p) ++ prios os := by
      intro l os; induction l with
      | nil => rfl
      | cons a l ih => simp [prios, ih]
    intro l; rw [h2, h1]; simp
  have h := C168_same_partial k p ((v :: vs).map (.push p) ++ (v :: vs).map fun _ => .pop) (by rw [hp]; simp) new (by simp [new])
  have hpush : ∀ (l m : List V) os, line m (l.map (Op.push p) ++ os) = line (m ++ l) os := by
    intro l; induction l with
    | nil => simp
    | cons a l ih => intro m os; simp [line, ih]
  have hpop : ∀ (n : Nat) (y : V) (m : List V), m.length = n → line (y :: m) ((y :: m).map fun _ => .pop) = some (y :: m.reverse, []) := by
    intro n; induction n with
    | zero =>
      intro y m hm
      obtain rfl := List.length_eq_zero_iff.1 hm
      rfl
    | succ n ih =>
      intro y m hm
      rcases List.eq_nil_or_concat m with rfl | ⟨m, z, rfl⟩
      · cases hm
      · have := ih z m (by simpa using hm)
        have e : ((m.concat z).map fun _ => (.pop : Op V)) = (z :: m).map fun _ => .pop := by
          simp [List.map_const', List.replicate_succ, ← List.replicate_succ']
        simp only [List.map_cons, line]
        rw [e]
        simp only [List.concat_eq_append, takeFirst, refill_concat, Option.bind_eq_bind, Option.bind_some, this]
        simp
  rw [hpush] at h
  simp only [new, List.map_nil, List.nil_append] at h
  rw [hpop _ v vs rfl] at h
  cases e : run k new ((v :: vs).map (.push p) ++ (v :: vs).map fun _ => .pop) with
  | none => simp [new] at e; simp [e] at h
  | some r =>
    have e' := e
    simp only [new] at e'
    rw [e'] at h
    obtain ⟨outs, q⟩ := r
    simp at h
    exact ⟨q, by rw [h.1]; simp⟩

/-- **C168**, starvation: an item may stay in the queue forever, though it is popped from again and again and all items have the same priority: with `a` and `b` in
the queue, after each round of one `Push` and one `Pop` `b` is still there; the items popped are `a` and then those pushed after `b`. -/
theorem C168_starves (k : Kind) (p : Int) (a b : V) (vs : List V) :
    ∃ q last, run k new (.push p a :: .push p b :: vs.flatMap fun v => [.push p v, .pop]) = some (((a :: vs).dropLast).map fun v => (p, v), q) ∧
      (a :: vs).getLast? = some last ∧ q.map (·.value) = [last, b] := by
  have key : ∀ (vs : List V) (a : V), ∃ last, line [a, b] (vs.flatMap fun v => [.push p v, .pop]) = some ((a :: vs).dropLast, [last, b]) ∧
      (a :: vs).getLast? = some last := by
    intro vs
    induction vs with
    | nil => intro a; exact ⟨a, rfl, rfl⟩
    | cons v vs ih =>
      intro a
      obtain ⟨last, h1, h2⟩ := ih v
      refine ⟨last, ?_, by simpa using h2⟩
      simp only [List.flatMap_cons, List.cons_append, List.nil_append, line, takeFirst]
      have e : refill [b, v] = [v, b] := rfl
      simp only [e, Option.bind_eq_bind, Option.bind_some, h1]
      simp
  obtain ⟨last, h1, h2⟩ := key vs a
  have hp : ∀ p' ∈ prios (.push p a :: .push p b :: vs.flatMap fun v => [.push p v, .pop]), p' = p := by
    intro p' h
    simp only [prios, List.mem_cons] at h
    rcases h with h | h | h
    · exact h
    · exact h
    · clear h1 h2
      induction vs with
      | nil => cases h
      | cons v vs ih =>
        simp only [List.flatMap_cons, List.cons_append, List.nil_append, prios, List.mem_cons] at h
        exact h.elim id ih
  have h := C168_same_partial k p _ hp new (by simp [new])
  simp only [new, List.map_nil, line, List.nil_append, List.cons_append] at h
  rw [h1] at h
  cases e : run k [] (.push p a :: .push p b :: vs.flatMap fun v => [.push p v, .pop]) with
  | none => simp [e] at h
  | some r =>
    obtain ⟨outs, q⟩ := r
    simp [e] at h
    exact ⟨q, last, by rw [new, e, h.1]; simp, h2, h.2⟩

theorem Fifo.push_inv {k : Kind} {p : Int} {v : V} {b os outs b'} (h : Fifo k b (.push p v :: os) outs b') : Fifo k (b ++ [(p, v)]) os outs b' := by
  generalize e : Op.push p v :: os = os' at h
  cases h with
  | nil => cases e
  | push h => cases e; exact h
  | pop => cases e

theorem Fifo.pop_inv {k : Kind} {b os outs} {b' : List (Int × V)} (h : Fifo k b (.pop :: os) outs b') :
    ∃ l r l' outs', b = l ++ r :: l' ∧ outs = r :: outs' ∧ (∀ x ∈ l, ¬ before k x.1 r.1) ∧ Fifo k (l ++ l') os outs' b' := by
  generalize e : Op.pop :: os = os' at h
  cases h with
  | nil => cases e
  | push => cases e
  | pop h1 _ h3 => cases e; exact ⟨_, _, _, _, rfl, rfl, h1, h3⟩

/-- Among items of the same priority, the first is taken. -/
theorem Fifo.pop_head {k : Kind} {p : Int} {x : Int × V} {b os outs b'} (hb : ∀ y ∈ x :: b, y.1 = p) (h : Fifo k (x :: b) (.pop :: os) outs b') :
    ∃ outs', outs = x :: outs' ∧ Fifo k b os outs' b' := by
  obtain ⟨l, r, l', outs', h1, h2, h3, h4⟩ := h.pop_inv
  cases l with
  | nil =>
    simp only [List.nil_append, List.cons.injEq] at h1
    obtain ⟨rfl, rfl⟩ := h1
    exact ⟨outs', h2, h4⟩
  | cons y l =>
    have hy : y.1 = p := hb y (by rw [h1]; simp)
    have hr : r.1 = p := hb r (by rw [h1]; simp)
    exact absurd (by cases k <;> simp [before, hy, hr]) (h3 y (by simp))

/-- **C168** does not hold: three items of the same priority. -/
theorem C168_false (k : Kind) : ¬ ∀ (ops : List (Op Nat)) (outs : List (Int × Nat)) (q : List (Item Nat)), run k new ops = some (outs, q) →
    ∃ b, Fifo k [] ops outs b := by
  intro h
  obtain ⟨q, hq⟩ := C168_drain k 0 1 [2, 3]
  obtain ⟨b, hb⟩ := h _ _ _ hq
  obtain ⟨o1, h1, h2⟩ := Fifo.pop_head (p := 0) (x := (0, 1)) (b := [(0, 2), (0, 3)]) (by simp) hb.push_inv.push_inv.push_inv
  obtain ⟨o2, h3, _⟩ := Fifo.pop_head (p := 0) (x := (0, 2)) (b := [(0, 3)]) (by simp) h2
  rw [h3] at h1
  simp at h1

theorem SpecRun.fifo {k : Kind} {b os outs} {b' : List (Int × V)} (h : SpecRun k b os outs b') {c : List (Int × V)} (hc : b.Perm c)
    (hd : (c.map (·.1) ++ prios os).Nodup) : ∃ c', Fifo k c os outs c' ∧ b'.Perm c' := by
  induction h generalizing c with
  | nil b => exact ⟨c, .nil c, hc⟩
  | push p v b os outs b' _ ih =>
    obtain ⟨c', h1, h2⟩ := ih (c := c ++ [(p, v)]) ((hc.cons _).trans (List.perm_append_singleton _ _).symm) (by simpa [prios] using hd)
    exact ⟨c', .push h1, h2⟩
  | pop b rest r os outs b' hp hx _ ih =>
    have hr : r ∈ c := (hp.trans (.refl _)).symm.trans hc |>.subset (by simp)
    obtain ⟨l, l', rfl⟩ := List.append_of_mem hr
    have hrest : rest.Perm (l ++ l') := List.Perm.cons_inv ((hp.symm.trans hc).trans List.perm_middle)
    have hsub : List.Sublist ((l ++ l').map (·.1) ++ prios os) ((l ++ r :: l').map (·.1) ++ prios (.pop :: os)) := by
      refine List.Sublist.append (List.Sublist.map _ (List.Sublist.append (.refl _) (List.sublist_cons_self _ _))) ?_
      simp [prios]
    obtain ⟨c', h1, h2⟩ := ih hrest (hd.sublist hsub)
    refine ⟨c', .pop (fun x hxl hbx => ?_) (fun x hxl => hx x (hc.symm.subset (by simp [hxl]))) h1, h2⟩
    have hb := hx x (hc.symm.subset (by simp [hxl]))
    have he : x.1 = r.1 := by cases k <;> simp only [before] at hb hbx <;> omega
    have hn := (List.nodup_append.1 hd).1
    rw [List.map_append, List.map_cons] at hn
    exact (List.nodup_append.1 hn).2.2 x.1 (List.mem_map_of_mem hxl) r.1 (by simp) he
  | perm b d os outs b' hp _ ih => exact ih (hp.symm.trans hc) hd

/-- **C168**, partial: if no two items are pushed with the same priority. -/
theorem C168_distinct_partial (k : Kind) (ops : List (Op V)) (hd : (prios ops).Nodup) {outs : List (Int × V)} {q : List (Item V)} (h : run k new ops = some (outs, q)) :
    ∃ b, Fifo k [] ops outs b ∧ (contents q).Perm b := by
  have := C27_priority_queue k ops
  by_cases hn : NeverEmptyPop 0 ops
  · obtain ⟨outs', q', h1, h2, _⟩ := this.1 hn
    rw [h] at h1
    cases h1
    exact h2.fifo (.refl _) (by simpa using hd)
  · rw [this.2 hn] at h
    cases h

/-! ## Examples -/

/-- The item 2 does not come out while others are pushed. -/
example : ∃ q last, run .min new (.push 5 1 :: .push 5 2 :: [3, 4, 5].flatMap fun v => [.push 5 v, .pop]) = some ([(5, 1), (5, 3), (5, 4)], q) ∧
    [1, 3, 4, 5].getLast? = some last ∧ q.map (·.value) = [last, 2] := C168_starves .min 5 1 2 [3, 4, 5]

example : ∃ q, run .max new [.push 0 1, .push 0 2, .push 0 3, .push 0 4, .pop, .pop, .pop, .pop] = some ([(0, 1), (0, 4), (0, 3), (0, 2)], q) :=
  C168_drain .max 0 1 [2, 3, 4]

/-- Pops in between. -/
example : line [] [.push 0 1, .push 0 2, .push 0 3, .pop, .push 0 4, .pop, .pop] = some ([1, 3, 4], [2]) := by rfl

example : Fifo .min [] [.push 2 'a', .push 1 'b', .pop, .push 2 'c', .pop] [(1, 'b'), (2, 'a')] [(2, 'c')] :=
  .push (.push (.pop (l := [(2, 'a')]) (l' := []) (by simp [before]) (by simp) (.push (.pop (l := []) (by simp) (by simp [before]) (.nil _)))))

end Verif.PQueue
