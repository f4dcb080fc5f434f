import Verif.Heap.IfaceSim
/-!
# C110: items that know their position

The queue of heap/example_pq_test.go: `Swap`, `Push` and `Pop` note in each item where it is, so
that it can be given to `Fix` and `Remove`.
-/
namespace Verif.Heap

/-- No item is in the queue twice, and each knows its position. -/
def Indexed (m : PMem) : Prop := m.q.Nodup ∧ ∀ (k : Nat) (x : Nat), m.q[k]? = some x → m.index x = k

/-- The order of the queue: greater priority first. -/
def byPrio (prio : Nat → Int) (a b : Nat) : Bool := decide (prio a > prio b)

theorem byPrio_sw (prio : Nat → Int) : StrictWeak (byPrio prio) :=
  ⟨by simp [byPrio], by simp only [byPrio, decide_eq_true_eq]; omega, by simp only [byPrio, decide_eq_false_iff_not]; omega⟩

theorem nodup_inj {l : List Nat} (h : l.Nodup) {i j x : Nat} (hi : l[i]? = some x) (hj : l[j]? = some x) : i = j := by
  obtain ⟨h1, e1⟩ := List.getElem?_eq_some_iff.1 hi
  obtain ⟨h2, e2⟩ := List.getElem?_eq_some_iff.1 hj
  exact (List.getElem_inj h).1 (e1.trans e2.symm)

theorem at?_some {T : Type} {l : List T} {i : Int} {a : T} (h : at? l i = some a) : ∃ k : Nat, i = k ∧ l[k]? = some a := by
  unfold at? at h
  split at h
  · cases h
  · exact ⟨i.toNat, by omega, h⟩

theorem indexed_sim (prio : Nat → Int) : Sim indexed (slice (byPrio prio)) (fun m l => m.prio = prio ∧ m.q = l ∧ Indexed m)
    (fun x y m => x = y ∧ m.index x = -1) where
  len := by rintro m _ ⟨_, rfl, _⟩; rfl
  less := by
    rintro m _ i j ⟨rfl, rfl, h⟩
    simp only [indexed, slice, byPrio]
    rcases at? m.q i with _ | a <;> rcases at? m.q j with _ | b <;> first | trivial | exact ⟨rfl, rfl, rfl, h⟩
  swap := by
    rintro m _ i j ⟨rfl, rfl, h⟩
    simp only [indexed, slice]
    rcases hi0 : at? m.q i with _ | a <;> rcases hj0 : at? m.q j with _ | b <;> try trivial
    obtain ⟨i, rfl, hi⟩ := at?_some hi0
    obtain ⟨j, rfl, hj⟩ := at?_some hj0
    obtain ⟨hil, _⟩ := List.getElem?_eq_some_iff.1 hi
    obtain ⟨hjl, _⟩ := List.getElem?_eq_some_iff.1 hj
    obtain ⟨l', h1, _, h3, h4⟩ := swap_spec hil hjl
    simp only [swap, hi, hj, Option.some.injEq] at h1
    simp only [Int.toNat_natCast]
    refine ⟨rfl, rfl, ?_, ?_⟩
    · simp only [PMem.setIndex, h1]
      exact (h3.nodup_iff).2 h.1
    · intro k x hx
      simp only [PMem.setIndex, h1] at hx ⊢
      rw [h4] at hx
      split at hx
      · next e =>
        rw [hi] at hx
        cases hx
        simp [e]
      · next e =>
        split at hx
        · next e' =>
          rw [hj] at hx
          cases hx
          have : b ≠ a := by rintro rfl; exact e (e'.trans (nodup_inj h.1 hi hj))
          simp [this, e']
        · next e' =>
          have n1 : x ≠ a := by rintro rfl; exact e' (nodup_inj h.1 hx hi)
          have n2 : x ≠ b := by rintro rfl; exact e (nodup_inj h.1 hx hj)
          simp only [n1, n2, if_false]
          exact h.2 k x hx
  pop := by
    rintro m _ ⟨rfl, rfl, h⟩
    simp only [indexed, slice]
    rcases hl : m.q.getLast? with _ | x
    · trivial
    · obtain ⟨ys, hys⟩ := List.getLast?_eq_some_iff.1 hl
      refine ⟨⟨rfl, by simp [PMem.setIndex]⟩, rfl, rfl, ?_, ?_⟩
      · exact h.1.sublist (List.dropLast_sublist _)
      · intro k y hy
        simp only [PMem.setIndex] at hy ⊢
        have hq : m.q[k]? = some y := by
          obtain ⟨h1, e1⟩ := List.getElem?_eq_some_iff.1 hy
          rw [List.getElem_dropLast] at e1
          exact List.getElem?_eq_some_iff.2 ⟨by simp at h1; omega, e1⟩
        have hne : y ≠ x := by
          rintro rfl
          have hn := h.1
          rw [hys] at hn hy
          rw [List.dropLast_concat] at hy
          have := (List.nodup_append.1 hn).2.2 y (List.mem_of_getElem? hy) y (by simp)
          exact this rfl
        simp only [hne, if_false]
        exact h.2 k y hq

/-- Two slices, one of items and one of their priorities. -/
theorem prio_sim (prio : Nat → Int) : Sim (slice (byPrio prio)) (slice (maxLess (α := Int))) (fun l l' => l.map prio = l')
    (fun x y _ => prio x = y) where
  len := by rintro l _ rfl; simp [slice]
  less := by
    rintro l _ i j rfl
    have e : ∀ i, at? (l.map prio) i = (at? l i).map prio := by intro i; unfold at?; split <;> simp
    simp only [slice, e]
    rcases at? l i with _ | a <;> rcases at? l j with _ | b <;> first | trivial | exact ⟨rfl, rfl⟩
  swap := by
    rintro l _ i j rfl
    have e : ∀ i, at? (l.map prio) i = (at? l i).map prio := by intro i; unfold at?; split <;> simp
    simp only [slice, e]
    rcases at? l i with _ | a <;> rcases at? l j with _ | b <;> first | trivial | simp [RelO, List.map_set]
  pop := by
    rintro l _ rfl
    simp only [slice, List.getLast?_map]
    rcases l.getLast? with _ | x
    · trivial
    · exact ⟨rfl, by simp [List.map_dropLast]⟩

theorem heap_map (prio : Nat → Int) (l : List Nat) : IsHeap (byPrio prio) l ↔ IsHeap (maxLess (α := Int)) (l.map prio) := by
  unfold IsHeap
  refine forall_congr' fun k => forall_congr' fun hk => ?_
  simp only [List.getElem?_map]
  constructor
  · intro h x p hx hp
    obtain ⟨a, ha, rfl⟩ := Option.map_eq_some_iff.1 hx
    obtain ⟨b, hb, rfl⟩ := Option.map_eq_some_iff.1 hp
    exact h a b ha hb
  · intro h a b ha hb
    exact h (prio a) (prio b) (by simp [ha]) (by simp [hb])

theorem relO_some {α β : Type} {P : α → β → Prop} {a : Option α} {y : β} (h : RelO P a (some y)) : ∃ x, a = some x ∧ P x y := by
  rcases a with _ | x
  · exact h.elim
  · exact ⟨x, rfl, h⟩

/-! ## The claims -/

/-- The queue is in heap order for the priorities the items have now. -/
def InOrder (m : PMem) : Prop := IsHeap (byPrio m.prio) m.q

/-- C110: after `Init`, every item knows its position and the queue is in order. -/
theorem heap_index_init (m : PMem) (h : Indexed m) :
    ∃ m', indexed.init m = some m' ∧ Indexed m' ∧ InOrder m' ∧ m'.q.Perm m.q ∧ m'.prio = m.prio := by
  obtain ⟨l', h1, h2, h3⟩ := init_spec (lt := byPrio m.prio) m.q
  have hs := (indexed_sim m.prio).init m m.q ⟨rfl, rfl, h⟩
  rw [slice_init, h1] at hs
  obtain ⟨m', e, hp, rfl, hi⟩ := relO_some hs
  exact ⟨m', e, hi, by unfold InOrder; rw [hp]; exact h3 (byPrio_sw _), h2, hp⟩

/-- C110: `Push` of a new item. -/
theorem heap_index_push (m : PMem) (h : Indexed m) (ho : InOrder m) (x : Nat) (hx : x ∉ m.q) :
    ∃ m', indexed.hpush m x = some m' ∧ Indexed m' ∧ InOrder m' ∧ m'.q.Perm (x :: m.q) ∧ m'.prio = m.prio := by
  obtain ⟨l', h1, h2, h3⟩ := push_spec (lt := byPrio m.prio) m.q x
  have hs := (indexed_sim m.prio).hpush m m.q x x (by
    refine ⟨rfl, rfl, ?_, ?_⟩
    · simp only [PMem.setIndex]
      rw [List.nodup_append]
      refine ⟨h.1, by simp, fun a ha b hb => ?_⟩
      simp only [List.mem_singleton] at hb
      rintro rfl
      exact hx (hb ▸ ha)
    · intro k y hy
      simp only [PMem.setIndex] at hy ⊢
      rw [List.getElem?_append] at hy
      split at hy
      · have : y ≠ x := by rintro rfl; exact hx (List.mem_of_getElem? hy)
        simp only [this, if_false]
        exact h.2 k y hy
      · next hk =>
        obtain ⟨h4, h5⟩ := List.getElem?_eq_some_iff.1 hy
        simp at h4 h5
        simp only [h5, if_true]
        omega)
  rw [slice_hpush, h1] at hs
  obtain ⟨m', e, hp, rfl, hi⟩ := relO_some hs
  exact ⟨m', e, hi, by unfold InOrder; rw [hp]; exact h3 (byPrio_sw _) ho, h2, hp⟩

/-- C110: `Pop` returns an item whose priority, as it is now, is greatest, and notes in it that it is in no queue. -/
theorem heap_index_pop (m : PMem) (h : Indexed m) (ho : InOrder m) (hq : m.q ≠ []) :
    ∃ x m', indexed.hpop m = some (x, m') ∧ Indexed m' ∧ InOrder m' ∧ m.q.Perm (x :: m'.q) ∧ m'.prio = m.prio ∧
      m'.index x = -1 ∧ ∀ y ∈ m.q, m.prio y ≤ m.prio x := by
  obtain ⟨x, l', h1, h2, h3, h4⟩ := pop_spec (lt := byPrio m.prio) m.q (List.length_pos_iff.2 hq)
  have hs := (indexed_sim m.prio).hpop m m.q ⟨rfl, rfl, h⟩
  rw [slice_hpop, h1] at hs
  obtain ⟨⟨x', m'⟩, e, ⟨rfl, hx⟩, hp, rfl, hi⟩ := relO_some hs
  refine ⟨x', m', e, hi, by unfold InOrder; rw [hp]; exact h4 (byPrio_sw _) ho, h2, hp, hx, fun y hy => ?_⟩
  have := root_least (byPrio_sw _) ho h3 y hy
  simpa [byPrio] using this

/-- C110: `Remove` at the position an item knows removes that item. -/
theorem heap_index_remove (m : PMem) (h : Indexed m) (ho : InOrder m) (x : Nat) (hx : x ∈ m.q) :
    ∃ m', indexed.remove m (m.index x) = some (x, m') ∧ Indexed m' ∧ InOrder m' ∧ m.q.Perm (x :: m'.q) ∧ m'.prio = m.prio ∧
      m'.index x = -1 := by
  obtain ⟨k, hk⟩ := List.mem_iff_getElem?.1 hx
  obtain ⟨hkl, _⟩ := List.getElem?_eq_some_iff.1 hk
  rw [h.2 k x hk]
  obtain ⟨y, l', h1, h2, h3, h4⟩ := remove_spec (lt := byPrio m.prio) m.q k hkl
  have : y = x := by rw [hk] at h2; cases h2; rfl
  subst this
  have hs := (indexed_sim m.prio).remove m m.q k ⟨rfl, rfl, h⟩
  rw [slice_remove, h1] at hs
  obtain ⟨⟨x', m'⟩, e, ⟨rfl, hx'⟩, hp, rfl, hi⟩ := relO_some hs
  exact ⟨m', e, hi, by unfold InOrder; rw [hp]; exact h4 (byPrio_sw _) ho, h3, hp, hx'⟩

/-- C110: `update` gives an item a new priority and puts the queue in order again. -/
theorem heap_index_update (m : PMem) (h : Indexed m) (ho : InOrder m) (x : Nat) (hx : x ∈ m.q) (p : Int) :
    ∃ m', update m x p = some m' ∧ Indexed m' ∧ InOrder m' ∧ m'.q.Perm m.q ∧
      ∀ y, m'.prio y = if y = x then p else m.prio y := by
  obtain ⟨k, hk⟩ := List.mem_iff_getElem?.1 hx
  obtain ⟨hkl, hke⟩ := List.getElem?_eq_some_iff.1 hk
  have hidx := h.2 k x hk
  unfold update
  simp only
  rw [hidx]
  generalize hpr : (fun y => if y = x then p else m.prio y) = prio
  have hmap : m.q.map prio = (m.q.map m.prio).set k p := by
    refine List.ext_getElem? fun i => ?_
    rw [List.getElem?_set]
    split
    · next e =>
      subst e
      rw [if_pos (by simpa using hkl), List.getElem?_map, hk]
      simp [← hpr]
    · next e =>
      rw [List.getElem?_map, List.getElem?_map]
      rcases hi : m.q[i]? with _ | y
      · rfl
      · have : y ≠ x := by rintro rfl; exact e (nodup_inj h.1 hk hi)
        simp [← hpr, this]
  have ho' := (heap_map m.prio m.q).1 ho
  obtain ⟨l2, g1, g2, _⟩ := C25_fix_restores maxLess_strictWeak _ ho' k (by simpa using hkl) p
  rw [← hmap] at g1
  obtain ⟨l', h1, h2, _⟩ := fix_spec (lt := byPrio prio) m.q k hkl
  have hb := (prio_sim prio).fix m.q (m.q.map prio) k rfl
  rw [slice_fix, slice_fix, g1, h1] at hb
  have hs := (indexed_sim prio).fix { m with prio := prio } m.q k ⟨rfl, rfl, h⟩
  rw [slice_fix, h1] at hs
  obtain ⟨m', e, hp, rfl, hi⟩ := relO_some hs
  refine ⟨m', e, hi, ?_, h2, fun y => by rw [hp, ← hpr]⟩
  unfold InOrder
  rw [hp, heap_map]
  have hb' : m'.q.map prio = l2 := hb
  rw [hb']
  exact g2

/-- The calls of a client: a new item, `Pop`, `Remove` and `update` of an item. -/
inductive IOp where
  | push (x : Nat) (p : Int) | pop | remove (x : Nat) | update (x : Nat) (p : Int)

/-- A call with the item it returns. -/
def IOp.exec (m : PMem) : IOp → Option (Option Nat × PMem)
  | .push x p => (indexed.hpush { m with prio := fun y => if y = x then p else m.prio y } x).map (fun m => (none, m))
  | .pop => (indexed.hpop m).map (fun r => (some r.1, r.2))
  | .remove x => (indexed.remove m (m.index x)).map (fun r => (some r.1, r.2))
  | .update x p => (Heap.update m x p).map (fun m => (none, m))

/-- What a client may do: add items that are not in the queue; remove and change items that are; pop if there are any. -/
def IOp.ok (m : PMem) : IOp → Prop
  | .push x _ => x ∉ m.q
  | .pop => m.q ≠ []
  | .remove x => x ∈ m.q
  | .update x _ => x ∈ m.q

/-- What a call has to do, with the items in the queue as a multiset and their priorities. -/
def IOp.post (m m' : PMem) (r : Option Nat) : IOp → Prop
  | .push x p => r = none ∧ m'.q.Perm (x :: m.q) ∧ ∀ y, m'.prio y = if y = x then p else m.prio y
  | .pop => ∃ x, r = some x ∧ m.q.Perm (x :: m'.q) ∧ m'.prio = m.prio ∧ ∀ y ∈ m.q, m.prio y ≤ m.prio x
  | .remove x => r = some x ∧ m.q.Perm (x :: m'.q) ∧ m'.prio = m.prio
  | .update x p => r = none ∧ m'.q.Perm m.q ∧ ∀ y, m'.prio y = if y = x then p else m.prio y

/-- States a client can come to from a queue that `Init` has ordered. -/
inductive IReach : PMem → Prop where
  | init {m m'} : Indexed m → indexed.init m = some m' → IReach m'
  | op {m m' o r} : IReach m → IOp.ok m o → o.exec m = some (r, m') → IReach m'

theorem IOp.step (m : PMem) (h : Indexed m) (ho : InOrder m) (o : IOp) (hok : o.ok m) :
    ∃ r m', o.exec m = some (r, m') ∧ Indexed m' ∧ InOrder m' ∧ o.post m m' r := by
  cases o with
  | push x p =>
    have ho' : InOrder { m with prio := fun y => if y = x then p else m.prio y } := by
      refine (heap_map _ _).2 ?_
      have hm : m.q.map (fun y => if y = x then p else m.prio y) = m.q.map m.prio :=
        List.map_congr_left fun y hy => by rw [if_neg (by rintro rfl; exact hok hy)]
      show IsHeap _ (m.q.map (fun y => if y = x then p else m.prio y))
      rw [hm]
      exact (heap_map _ _).1 ho
    obtain ⟨m', h1, h2, h3, h4, h5⟩ := heap_index_push { m with prio := fun y => if y = x then p else m.prio y } h ho' x hok
    exact ⟨none, m', by simp [exec, h1], h2, h3, rfl, h4, fun y => by rw [h5]⟩
  | pop =>
    obtain ⟨x, m', h1, h2, h3, h4, h5, h6, h7⟩ := heap_index_pop m h ho hok
    exact ⟨some x, m', by simp [exec, h1], h2, h3, x, rfl, h4, h5, h7⟩
  | remove x =>
    obtain ⟨m', h1, h2, h3, h4, h5, h6⟩ := heap_index_remove m h ho x hok
    exact ⟨some x, m', by simp [exec, h1], h2, h3, rfl, h4, h5⟩
  | update x p =>
    obtain ⟨m', h1, h2, h3, h4, h5⟩ := heap_index_update m h ho x hok p
    exact ⟨none, m', by simp [exec, h1], h2, h3, rfl, h4, h5⟩

theorem IReach.good {m : PMem} (h : IReach m) : Indexed m ∧ InOrder m := by
  induction h with
  | init hi h =>
    obtain ⟨m', h1, h2, h3, _⟩ := heap_index_init _ hi
    rw [h1] at h
    cases h
    exact ⟨h2, h3⟩
  | op _ hok he ih =>
    obtain ⟨r, m', h1, h2, h3, _⟩ := IOp.step _ ih.1 ih.2 _ hok
    rw [h1] at he
    cases he
    exact ⟨h2, h3⟩

/-- C110: in every state a client can come to, each item in the queue knows its position, and every call returns and does
what it has to do. -/
theorem heap_index {m : PMem} (h : IReach m) :
    (∀ (k : Nat) (x : Nat), m.q[k]? = some x → m.index x = k) ∧
    ∀ o : IOp, o.ok m → ∃ r m', o.exec m = some (r, m') ∧ o.post m m' r := by
  obtain ⟨h1, h2⟩ := h.good
  refine ⟨h1.2, fun o hok => ?_⟩
  obtain ⟨r, m', a, _, _, b⟩ := IOp.step m h1 h2 o hok
  exact ⟨r, m', a, b⟩

/-- Three items of priorities 3, 2, 4 are ordered; a fourth of priority 1 is pushed, and popped after `update` to 5:
heap/example_pq_test.go:50-76. -/
example :
    let m : PMem := ⟨[0, 1, 2], fun x => if x = 0 then 3 else if x = 1 then 2 else if x = 2 then 4 else 0, fun x => x⟩
    (do
      let m ← indexed.init m
      let (_, m) ← (IOp.push 3 1).exec m
      let (_, m) ← (IOp.update 3 5).exec m
      let (r, m) ← IOp.pop.exec m
      some (r, m.q, m.index 3, m.index 2)) = some (some 3, [2, 1, 0], -1, 0) := by decide +kernel

end Verif.Heap
