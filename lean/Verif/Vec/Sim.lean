import Verif.Vec.Ops
/-!
# Refinement of `vec` to sequences
-/
namespace Verif.Vec
variable {T : Type} (E : Elt T) (g : Nat → Nat) (P : SortImpl T)

structure Rel (m : VMem T) (s : SState T) : Prop where
  n : m.nv = s.n
  less : ∀ v, (m.vec v).less = s.less v
  eq : ∀ v, (m.vec v).eq = s.eq v
  list : ∀ v, v < m.nv → m.list v = s.l v
  wf : ∀ v, v < m.nv → WF m.mem (m.d v) ∧ m.mem.own (m.d v).a = some v ∧ (m.d v).a < m.mem.na

variable {E g P} {m : VMem T} {s : SState T}

theorem put_self (s : SState T) (v : Nat) : s.put v (s.l v) = s := by
  cases s
  simp only [SState.put, SState.mk.injEq, and_true]
  funext w
  split
  · next h => rw [h]
  · rfl

theorem setD_nv (m : VMem T) (v : Nat) (r : Mem T × Slice) : (m.setD v r).nv = m.nv := rfl
theorem setD_d (m : VMem T) (v : Nat) (r : Mem T × Slice) : (m.setD v r).d v = r.2 := by simp [VMem.setD, VMem.d]
theorem setD_mem (m : VMem T) (v : Nat) (r : Mem T × Slice) : (m.setD v r).mem = r.1 := rfl

theorem Rel.setD (h : Rel m s) {v : Nat} (hv : v < m.nv) {r : Mem T × Slice} {l' : List T}
    (he : Eff v m.mem (m.d v) r.1 r.2 l') : Rel (m.setD v r) (s.put v l') := by
  refine ⟨h.n, ?_, ?_, ?_, ?_⟩
  · intro w
    simp only [VMem.setD, SState.put]
    split
    · next e => rw [e, h.less]
    · exact h.less w
  · intro w
    simp only [VMem.setD, SState.put]
    split
    · next e => rw [e, h.eq]
    · exact h.eq w
  · intro w hw
    by_cases e : w = v
    · subst e
      simp only [VMem.list, setD_d, setD_mem, SState.put, if_true]
      exact he.read
    · have hd : (m.setD v r).d w = m.d w := by simp [VMem.setD, VMem.d, e]
      simp only [VMem.list, hd, setD_mem, SState.put, if_neg e]
      rw [← h.list w hw]
      obtain ⟨_, o1, l1⟩ := h.wf w hw
      obtain ⟨_, o2, _⟩ := h.wf v hv
      have hne : (m.d w).a ≠ (m.d v).a := by
        intro e'
        rw [e', o2] at o1
        injection o1 with o1
        exact e o1.symm
      simp only [VMem.list, Mem.read, he.frame _ hne l1]
  · intro w hw
    by_cases e : w = v
    · subst e
      rw [setD_d, setD_mem]
      exact ⟨he.wf, he.mine, he.lt⟩
    · have hd : (m.setD v r).d w = m.d w := by simp [VMem.setD, VMem.d, e]
      obtain ⟨w1, o1, l1⟩ := h.wf w hw
      obtain ⟨_, o2, _⟩ := h.wf v hv
      have hne : (m.d w).a ≠ (m.d v).a := by
        intro e'
        rw [e', o2] at o1
        injection o1 with o1
        exact e o1.symm
      have hna := he.na
      rw [hd, setD_mem]
      refine ⟨⟨w1.len, ?_⟩, ?_, by omega⟩
      · rw [he.frame _ hne l1]; exact w1.cap
      · rw [he.own _ l1]; exact o1

/-- The memory changes in no way that concerns `v`. -/
theorem Rel.setD' (h : Rel m s) {v : Nat} (hv : v < m.nv) {r : Mem T × Slice}
    (he : Eff v m.mem (m.d v) r.1 r.2 (m.mem.read (m.d v))) : Rel (m.setD v r) s := by
  have := h.setD hv he
  rw [show m.mem.read (m.d v) = s.l v from h.list v hv, put_self] at this
  exact this

theorem Rel.new (h : Rel m s) (less eq : Cmp T) : Rel (m.new less eq)
    { l := fun w => if w = s.n then [] else s.l w
      less := fun w => if w = s.n then less else s.less w
      eq := fun w => if w = s.n then eq else s.eq w
      n := s.n + 1 } := by
  have hn := h.n
  refine ⟨by simp [VMem.new, hn], ?_, ?_, ?_, ?_⟩
  · intro w
    simp only [VMem.new, hn]
    by_cases e : w = s.n
    · simp [e]
    · simp [e, h.less]
  · intro w
    simp only [VMem.new, hn]
    by_cases e : w = s.n
    · simp [e]
    · simp [e, h.eq]
  · intro w hw
    simp only [VMem.new] at hw
    by_cases e : w = s.n
    · simp [VMem.list, VMem.new, VMem.d, hn, e, Mem.read]
    · have hlt : w < m.nv := by omega
      obtain ⟨_, _, l1⟩ := h.wf w hlt
      simp only [VMem.list, VMem.new, VMem.d, hn, e, if_false]
      rw [← h.list w hlt]
      simp only [VMem.list, Mem.read, Mem.alloc, VMem.d] at l1 ⊢
      rw [if_neg (by omega)]
  · intro w hw
    simp only [VMem.new] at hw
    by_cases e : w = m.nv
    · subst e
      simp only [VMem.new, VMem.d, if_true, Mem.alloc]
      exact ⟨⟨Nat.le_refl _, by simp⟩, by simp, by simp⟩
    · have hlt : w < m.nv := by omega
      obtain ⟨w1, o1, l1⟩ := h.wf w hlt
      simp only [VMem.new, VMem.d, e, if_false] at w1 o1 l1 ⊢
      refine ⟨⟨w1.len, ?_⟩, ?_, ?_⟩
      · have := w1.cap
        simp only [Mem.alloc]; rw [if_neg (by omega)]; exact this
      · simp only [Mem.alloc]; rw [if_neg (by omega)]; exact o1
      · simp only [Mem.alloc]; omega

theorem Rel.len (h : Rel m s) {v : Nat} (hv : v < m.nv) : m.len v = (s.l v).length := by
  rw [← h.list v hv]; exact (read_length (h.wf v hv).1).symm

theorem Rel.at_eq (h : Rel m s) {v : Nat} (hv : v < m.nv) {i : Nat} (hi : i < (s.l v).length) :
    m.at E v i = (s.l v)[i]?.getD E.zero := by
  rw [← h.len hv] at hi
  rw [← h.list v hv]
  simp only [VMem.at, VMem.list, read_get]
  rw [if_pos (show i < (m.d v).len from hi)]

theorem Rel.eqOf (h : Rel m s) (v : Nat) : m.eq E v = s.eqOf E v := by
  have : (fun w => (m.vec w).eq) = s.eq := funext h.eq
  simp only [VMem.eq, SState.eqOf, this]

theorem Rel.lessOf (h : Rel m s) (v : Nat) : m.less E v = s.lessOf E v := by
  have : (fun w => (m.vec w).less) = s.less := funext h.less
  simp only [VMem.less, SState.lessOf, this]

theorem Rel.push (h : Rel m s) {v : Nat} (hv : v < m.nv) (xs : List T) :
    Rel (push E g m v xs) (s.put v (s.l v ++ xs)) := by
  unfold Vec.push
  simp only
  have key : ∀ m : VMem T, Rel m s → v < m.nv →
      Rel (m.setD v (append E g (some v) m.mem (m.d v) xs)) (s.put v (s.l v ++ xs)) := by
    intro m h hv
    obtain ⟨w1, o1, l1⟩ := h.wf v hv
    have := h.setD hv (append_self E g w1 xs o1 l1)
    rwa [show m.mem.read (m.d v) = s.l v from h.list v hv] at this
  split
  · obtain ⟨w1, o1, l1⟩ := h.wf v hv
    exact key _ (h.setD' hv (eff_grow E g w1 o1 l1 xs.length).1) hv
  · exact key _ h hv

theorem Rel.remove (h : Rel m s) {v : Nat} (hv : v < m.nv) (i : Int) :
    Rel (remove E m v i).1 (remAt E s v i).1 ∧ (remAt E s v i).2 (remove E m v i).2 := by
  obtain ⟨w1, o1, l1⟩ := h.wf v hv
  have hlen := h.len hv
  have hc := w1.len
  have hml : m.len v = (m.d v).len := rfl
  unfold Vec.remove remAt inR
  simp only
  by_cases hi : i ≥ (m.len v : Int) ∨ i < 0
  · rw [if_pos hi, if_neg (by omega)]
    exact ⟨h, rfl⟩
  · rw [if_neg hi, if_pos (show 0 ≤ i ∧ i < ((s.l v).length : Int) by omega)]
    have hat := h.at_eq (E := E) hv (i := i.toNat) (by omega)
    have hle : m.mem.read (m.d v) = s.l v := h.list v hv
    by_cases h2 : i.toNat = m.len v - 1
    · rw [if_pos h2]
      refine ⟨?_, by rw [hat]⟩
      refine h.setD hv ((eff_id w1 o1 l1 (s' := sub (m.d v) 0 i.toNat) rfl rfl (by simp [sub]) (by simp [sub]; omega)
        (by simp [sub]; omega)).cast ?_)
      rw [hle]
      simp only [sub, Nat.sub_zero]
      rw [List.eraseIdx_eq_take_drop_succ, List.drop_of_length_le (by omega), List.append_nil]
    · rw [if_neg h2]
      refine ⟨?_, by rw [hat]⟩
      rw [hle]
      refine h.setD hv ((eff_write_any w1 o1 l1 i.toNat ((s.l v).drop (i.toNat + 1)) (by rw [List.length_drop]; omega)
        (s' := sub (m.d v) 0 (m.len v - 1)) rfl rfl (by simp [sub]) (by simp [sub]; omega)).cast ?_)
      apply List.ext_getElem?
      intro k
      have hcell : ((m.mem.arr (m.d v).a)[(m.d v).off + k]?) = if k < (m.d v).len then (s.l v)[k]? else
          (m.mem.arr (m.d v).a)[(m.d v).off + k]? := by
        rw [← hle, read_get]; by_cases h : k < (m.d v).len <;> simp [h]
      rw [read_get]
      simp only [sub, Nat.sub_zero, Nat.add_zero]
      rw [write_cell w1 _ _ (by rw [List.length_drop]; omega), hcell, List.eraseIdx_eq_take_drop_succ]
      rw [List.getElem?_append, List.length_take, List.getElem?_take, List.getElem?_drop, List.getElem?_drop]
      grind

theorem Rel.cut (h : Rel m s) {v : Nat} (hv : v < m.nv) (i j : Int) :
    (span i j (s.l v).length → Rel (cut E g m v i j).1 (s.put v ((s.l v).take i.toNat ++ (s.l v).drop j.toNat)) ∧
      (cut E g m v i j).2 = some (sub (m.d v) i.toNat j.toNat)) ∧
    (¬ span i j (s.l v).length → cut E g m v i j = (m, none)) := by
  obtain ⟨w1, o1, l1⟩ := h.wf v hv
  have hlen := h.len hv
  have hml : m.len v = (m.d v).len := rfl
  have hle : m.mem.read (m.d v) = s.l v := h.list v hv
  have hc := w1.len
  unfold Vec.cut span
  constructor
  · intro hs
    rw [if_neg (by omega)]
    refine ⟨?_, rfl⟩
    have := eff_append E g w1 o1 l1 i.toNat (by omega) ((m.mem.read (m.d v)).drop j.toNat)
    rw [sub_read w1 _ (by omega), hle] at this
    rw [hle]
    exact h.setD hv this
  · intro hs
    rw [if_pos (by omega)]

theorem step_sort (h : Rel m s) {v : Nat} (hok : v < m.nv) {f : (T → T → Option Int) → List T → Option (List T)}
    (hf : Sorts f) {cmp : T → T → Option Int} :
    (sortBy (f cmp) m v = none ∧
      (f cmp (s.l v)).map (fun l => (s.put v l, ((· = .unit) : Res T → Prop))) = none) ∨
    ∃ m' r s' p, sortBy (f cmp) m v = some (m', r) ∧
      (f cmp (s.l v)).map (fun l => (s.put v l, ((· = .unit) : Res T → Prop))) = some (s', p) ∧ Rel m' s' ∧ p r := by
  obtain ⟨w1, o1, l1⟩ := h.wf v hok
  have hle : m.mem.read (m.d v) = s.l v := h.list v hok
  have hlen := h.len hok
  have hml : m.len v = (m.d v).len := rfl
  unfold sortBy
  rw [hle]
  cases hc : f cmp (s.l v) with
  | none => exact Or.inl ⟨rfl, rfl⟩
  | some l =>
    have hp := (hf.perm _ _ _ hc).length_eq
    have := h.setD hok (r := (m.mem.write (m.d v).a (m.d v).off l, m.d v)) (eff_all w1 o1 l1 l (by omega))
    exact Or.inr ⟨_, _, _, _, rfl, rfl, this, rfl⟩

/-- One call: the code and the specification agree on panic, result and contents. -/
theorem step (h : Rel m s) (op : Mut T)
    (hok : match op with
      | .new _ _ => True
      | .setCmpLess v _ | .setCmpEqual v _ | .push v _ | .pop v | .remove v _ | .set v _ _ | .clear v | .cut v _ _
      | .splitOff v _ | .swap v _ _ | .compareAndRemove v _ _ | .grow v _ | .clip v | .clone v | .compact v
      | .compactFunc v _ | .delete v _ _ | .insert v _ _ | .replace v _ _ _ | .reverse v | .sort v | .sortFunc v _ _
      | .sortStable v | .sortStableFunc v _ _ => v < m.nv) :
    (exec E g P m op = none ∧ spec E P s op = none) ∨
    ∃ m' r s' p, exec E g P m op = some (m', r) ∧ spec E P s op = some (s', p) ∧ Rel m' s' ∧ p r := by
  cases op with
  | new less eq => exact Or.inr ⟨_, _, _, _, rfl, rfl, h.new _ _, by rw [h.n]⟩
  | setCmpLess v f =>
    refine Or.inr ⟨_, _, _, _, rfl, rfl, ⟨h.n, ?_, ?_, ?_, ?_⟩, rfl⟩
    · intro w; simp only; split
      · rfl
      · exact h.less w
    · intro w; simp only; split
      · next e => rw [e]; exact h.eq v
      · exact h.eq w
    · intro w hw
      rw [← h.list w hw]
      simp only [VMem.list, VMem.d]
      split
      · next e => rw [e]
      · rfl
    · intro w hw
      have := h.wf w hw
      simp only [VMem.d] at this ⊢
      by_cases e : w = v
      · subst e; rw [if_pos rfl]; exact this
      · rw [if_neg e]; exact this
  | setCmpEqual v f =>
    refine Or.inr ⟨_, _, _, _, rfl, rfl, ⟨h.n, ?_, ?_, ?_, ?_⟩, rfl⟩
    · intro w; simp only; split
      · next e => rw [e]; exact h.less v
      · exact h.less w
    · intro w; simp only; split
      · rfl
      · exact h.eq w
    · intro w hw
      rw [← h.list w hw]
      simp only [VMem.list, VMem.d]
      split
      · next e => rw [e]
      · rfl
    · intro w hw
      have := h.wf w hw
      simp only [VMem.d] at this ⊢
      by_cases e : w = v
      · subst e; rw [if_pos rfl]; exact this
      · rw [if_neg e]; exact this
  | push v xs => exact Or.inr ⟨_, _, _, _, rfl, rfl, h.push hok xs, rfl⟩
  | pop v =>
    have := h.remove (E := E) hok ((m.len v : Int) - 1)
    simp only [exec, spec]
    rw [← h.len hok]
    exact Or.inr ⟨_, _, _, _, rfl, rfl, this.1, this.2⟩
  | remove v i =>
    have := h.remove (E := E) hok i
    exact Or.inr ⟨_, _, _, _, rfl, rfl, this.1, this.2⟩
  | set v i x =>
    obtain ⟨w1, o1, l1⟩ := h.wf v hok
    have hlen := h.len hok
    have hml : m.len v = (m.d v).len := rfl
    have hle : m.mem.read (m.d v) = s.l v := h.list v hok
    have hc := w1.len
    simp only [exec, spec, inR]
    by_cases hi : i ≥ (m.len v : Int) ∨ i < 0
    · rw [if_pos hi, if_neg (by omega)]
      exact Or.inr ⟨_, _, _, _, rfl, rfl, h, rfl⟩
    · rw [if_neg hi, if_pos (by omega)]
      refine Or.inr ⟨_, _, _, _, rfl, rfl, ?_, rfl⟩
      refine h.setD hok ((eff_write_any w1 o1 l1 i.toNat [x] (by simp; omega) (s' := m.d v) rfl rfl (Nat.le_refl _)
        hc).cast ?_)
      apply List.ext_getElem?
      intro k
      have hcell : ((m.mem.arr (m.d v).a)[(m.d v).off + k]?) = if k < (m.d v).len then (s.l v)[k]? else
          (m.mem.arr (m.d v).a)[(m.d v).off + k]? := by
        rw [← hle, read_get]; by_cases h : k < (m.d v).len <;> simp [h]
      rw [read_get, write_cell w1 _ _ (by simp; omega), hcell, List.getElem?_set]
      grind
  | clear v =>
    obtain ⟨w1, o1, l1⟩ := h.wf v hok
    refine Or.inr ⟨_, _, _, _, rfl, rfl, ?_, rfl⟩
    exact h.setD hok ((eff_id w1 o1 l1 (s' := sub (m.d v) 0 0) rfl rfl (by simp [sub]) (by simp [sub])
      (by simp [sub])).cast (by simp [sub]))
  | cut v i j =>
    have := h.cut (E := E) (g := g) hok i j
    simp only [exec, spec]
    by_cases hs : span i j (s.l v).length
    · rw [if_pos hs]
      refine Or.inr ⟨_, _, _, _, rfl, rfl, (this.1 hs).1, ?_⟩
      rw [(this.1 hs).2]
      exact ⟨_, rfl, by simp only [span] at hs; simp [sub]; omega⟩
    · rw [if_neg hs, this.2 hs]
      exact Or.inr ⟨_, _, _, _, rfl, rfl, h, rfl⟩
  | splitOff v i =>
    have hn := h.n
    have h1 := h.new (.same v) (.same v)
    have hv1 : v < (m.new (.same v) (.same v)).nv := by simp only [VMem.new]; omega
    have hnv : s.n < (m.new (.same v) (.same v)).nv := by simp only [VMem.new]; omega
    have hle : (m.new (.same v) (.same v)).len v = (s.l v).length := by
      rw [h1.len hv1]; simp only; rw [if_neg (by omega)]
    have hc := h1.cut (E := E) (g := g) hv1 i (s.l v).length
    simp only [if_neg (show ¬ v = s.n by omega)] at hc
    simp only [exec, spec]
    refine Or.inr ?_
    by_cases hs : span i (s.l v).length (s.l v).length
    · rw [if_pos hs]
      obtain ⟨c1, c2⟩ := hc.1 hs
      refine ⟨_, _, _, _, rfl, rfl, ?_, by rw [hn]⟩
      unfold splitOff
      simp only
      rw [hle]
      generalize hgm : m.new (.same v) (.same v) = m1 at *
      have hel : (cut E g m1 v i (s.l v).length).1.elems (cut E g m1 v i (s.l v).length).2 = (s.l v).drop i.toNat := by
        rw [c2]
        obtain ⟨w1, o1, l1⟩ := h1.wf v hv1
        have hle' : m1.mem.read (m1.d v) = s.l v := by
          have := h1.list v hv1
          simp only [if_neg (show ¬ v = s.n by omega)] at this
          exact this
        have hml : m1.len v = (m1.d v).len := rfl
        have hcp := w1.len
        simp only [span] at hs
        simp only [VMem.elems]
        -- nothing is moved
        have harr : (cut E g m1 v i (s.l v).length).1.mem.arr (m1.d v).a = m1.mem.arr (m1.d v).a := by
          unfold cut
          rw [if_neg (by omega)]
          simp only [setD_mem]
          rw [hle', List.drop_of_length_le (by omega)]
          rw [append_room E g [] (by simp [sub]; omega)]
          simp [Mem.write, sub]
        simp only [Mem.read, sub]
        rw [harr]
        apply List.ext_getElem?
        intro k
        have hcell : ((m1.mem.arr (m1.d v).a)[(m1.d v).off + (i.toNat + k)]?) = if i.toNat + k < (m1.d v).len then
            (s.l v)[i.toNat + k]? else (m1.mem.arr (m1.d v).a)[(m1.d v).off + (i.toNat + k)]? := by
          rw [← hle', read_get]; by_cases h : i.toNat + k < (m1.d v).len <;> simp [h]
        simp only [List.getElem?_take, List.getElem?_drop]
        rw [Nat.add_assoc, hcell]
        by_cases hk : i.toNat + k < (s.l v).length
        · rw [if_pos (by omega), if_pos (by omega)]
        · rw [if_neg (by omega), List.getElem?_eq_none (by omega)]
      rw [hel, hn]
      have hnv2 : s.n < (cut E g m1 v i (s.l v).length).1.nv := by
        rw [show (cut E g m1 v i (s.l v).length).1.nv = m1.nv by unfold cut; split <;> rfl]; exact hnv
      have := c1.push (E := E) (g := g) hnv2 ((s.l v).drop i.toNat)
      refine cast ?_ this
      congr 1
      simp only [SState.put, SState.addLike, SState.mk.injEq, and_true]
      try refine ⟨?_, rfl, rfl⟩
      funext w
      rw [List.drop_of_length_le (by simp : (s.l v).length ≤ ((s.l v).length : Int).toNat)]
      by_cases e : w = s.n
      · simp [e, show ¬ s.n = v by omega]
      · simp [e]
    · rw [if_neg hs]
      refine ⟨_, _, _, _, rfl, rfl, ?_, by rw [hn]⟩
      unfold splitOff
      simp only
      rw [hle, hc.2 hs, hn]
      have := h1.push (E := E) (g := g) hnv []
      refine cast ?_ this
      congr 1
      simp only [SState.put, SState.addLike, SState.mk.injEq, and_true]
      try refine ⟨?_, rfl, rfl⟩
      funext w
      by_cases e : w = s.n <;> simp [e]
  | swap v i j =>
    obtain ⟨w1, o1, l1⟩ := h.wf v hok
    have hlen := h.len hok
    have hml : m.len v = (m.d v).len := rfl
    have hle : m.mem.read (m.d v) = s.l v := h.list v hok
    have hc := w1.len
    simp only [exec, spec, inR, swap]
    by_cases hi : i < 0 ∨ i ≥ (m.len v : Int) ∨ j < 0 ∨ j ≥ (m.len v : Int)
    · rw [if_pos hi, if_neg (by omega)]
      exact Or.inr ⟨_, _, _, _, rfl, rfl, h, rfl⟩
    · rw [if_neg hi, if_pos (by omega)]
      refine Or.inr ⟨_, _, _, _, rfl, rfl, ?_, rfl⟩
      have e1 := eff_write_any w1 o1 l1 i.toNat [m.at E v j.toNat] (by simp; omega) (s' := m.d v) rfl rfl (Nat.le_refl _) hc
      have e2 := eff_write_any e1.wf e1.mine e1.lt j.toNat [m.at E v i.toNat] (by simp; omega) (s' := m.d v) rfl rfl
        (Nat.le_refl _) hc
      refine h.setD hok ((e1.trans e2).cast ?_)
      apply List.ext_getElem?
      intro k
      have hcell : ((m.mem.arr (m.d v).a)[(m.d v).off + k]?) = if k < (m.d v).len then (s.l v)[k]? else
          (m.mem.arr (m.d v).a)[(m.d v).off + k]? := by
        rw [← hle, read_get]; by_cases h : k < (m.d v).len <;> simp [h]
      rw [read_get, write_cell e1.wf _ _ (by simp; omega), write_cell w1 _ _ (by simp; omega), hcell,
        swapL_get _ _ _ (by omega) (by omega), h.at_eq hok (by omega), h.at_eq hok (by omega)]
      have hgi : (s.l v)[i.toNat]? = some ((s.l v)[i.toNat]?.getD E.zero) := by
        rw [List.getElem?_eq_getElem (by omega)]; rfl
      have hgj : (s.l v)[j.toNat]? = some ((s.l v)[j.toNat]?.getD E.zero) := by
        rw [List.getElem?_eq_getElem (by omega)]; rfl
      generalize (s.l v)[i.toNat]?.getD E.zero = x at *
      generalize (s.l v)[j.toNat]?.getD E.zero = y at *
      rw [hgi, hgj]
      simp only [List.length_singleton]
      by_cases k1 : k = j.toNat
      · rw [if_pos (by omega), if_neg (by omega), if_pos (by omega), if_pos k1, k1, Nat.sub_self]; rfl
      · rw [if_neg k1]
        by_cases k2 : k = i.toNat
        · rw [if_pos (by omega), if_pos k2]
          rw [show ∀ a b : Option T, (if k < j.toNat then a else if k < j.toNat + 1 then b else a) = a by
            intro a b; split
            · rfl
            · rw [if_neg (by omega)]]
          rw [if_neg (by omega), if_pos (by omega), k2, Nat.sub_self]; rfl
        · rw [if_neg k2]
          by_cases hk : k < (m.d v).len
          · rw [if_pos hk, if_pos hk]
            split
            · split
              · rfl
              · rw [if_neg (by omega)]
            · rw [if_neg (by omega)]
              split
              · rfl
              · rw [if_neg (by omega)]
          · rw [if_neg hk, List.getElem?_eq_none (by omega)]
  | compareAndRemove v i x =>
    have hlen := h.len hok
    simp only [exec, spec, inR, compareAndRemove]
    by_cases hi : i < 0 ∨ i ≥ (m.len v : Int)
    · rw [if_pos hi, if_neg (by omega)]
      exact Or.inr ⟨_, _, _, _, rfl, rfl, h, rfl⟩
    · rw [if_neg hi, if_pos (by omega), h.eqOf]
      cases s.eqOf E v with
      | none => exact Or.inl ⟨rfl, rfl⟩
      | some eq =>
        simp only
        rw [h.at_eq hok (by omega)]
        split
        · exact Or.inr ⟨_, _, _, _, rfl, rfl, h.remove hok i⟩
        · exact Or.inr ⟨_, _, _, _, rfl, rfl, h, rfl⟩
  | grow v n =>
    obtain ⟨w1, o1, l1⟩ := h.wf v hok
    simp only [exec, spec]
    by_cases hn : n < 0
    · rw [if_pos hn, if_neg (by omega)]; exact Or.inl ⟨rfl, rfl⟩
    · rw [if_neg hn, if_pos (by omega)]
      exact Or.inr ⟨_, _, _, _, rfl, rfl, h.setD' hok (eff_grow E g w1 o1 l1 n.toNat).1, rfl⟩
  | clip v =>
    obtain ⟨w1, o1, l1⟩ := h.wf v hok
    refine Or.inr ⟨_, _, _, _, rfl, rfl, ?_, rfl⟩
    refine h.setD' hok ((eff_id w1 o1 l1 (s' := clipS (m.d v)) rfl rfl (by simp [clipS, w1.len]) (by simp [clipS])
      (by simp [clipS])).cast ?_)
    exact List.take_of_length_le (Nat.le_of_eq (read_length w1))
  | clone v =>
    have hn := h.n
    have hle : m.mem.read (m.d v) = s.l v := h.list v hok
    refine Or.inr ⟨_, _, _, _, rfl, rfl, ?_, by rw [hn]⟩
    have h1 := h.new (.same v) (.same v)
    have hnv : s.n < (m.new (.same v) (.same v)).nv := by simp only [VMem.new]; omega
    have := h1.push (E := E) (g := g) hnv (s.l v)
    rw [hle, hn]
    refine cast ?_ this
    congr 1
    simp only [SState.put, SState.addLike, SState.mk.injEq, and_true]
    try refine ⟨?_, rfl, rfl⟩
    funext w
    by_cases e : w = s.n <;> simp [e]
  | compact v =>
    obtain ⟨w1, o1, l1⟩ := h.wf v hok
    have hle : m.mem.read (m.d v) = s.l v := h.list v hok
    simp only [exec, spec]
    rw [h.len hok, h.eqOf]
    by_cases h2 : (s.l v).length < 2
    · rw [if_pos h2, if_pos h2]; exact Or.inr ⟨_, _, _, _, rfl, rfl, h, rfl⟩
    · rw [if_neg h2, if_neg h2]
      cases s.eqOf E v with
      | none => exact Or.inl ⟨rfl, rfl⟩
      | some eq =>
        have := h.setD hok (eff_compact E w1 o1 l1 eq)
        rw [hle] at this
        exact Or.inr ⟨_, _, _, _, rfl, rfl, this, rfl⟩
  | compactFunc v eq =>
    obtain ⟨w1, o1, l1⟩ := h.wf v hok
    have := h.setD hok (eff_compact E w1 o1 l1 eq)
    rw [show m.mem.read (m.d v) = s.l v from h.list v hok] at this
    exact Or.inr ⟨_, _, _, _, rfl, rfl, this, rfl⟩
  | delete v i j =>
    obtain ⟨w1, o1, l1⟩ := h.wf v hok
    have hlen := h.len hok
    have hml : m.len v = (m.d v).len := rfl
    simp only [exec, spec, span]
    rw [h.len hok]
    by_cases hs : 0 ≤ i ∧ i ≤ j ∧ j ≤ (s.l v).length
    · rw [if_pos hs, if_pos hs]
      have := h.setD hok (eff_delete E g w1 o1 l1 i.toNat j.toNat (by omega) (by omega))
      rw [show m.mem.read (m.d v) = s.l v from h.list v hok] at this
      exact Or.inr ⟨_, _, _, _, rfl, rfl, this, rfl⟩
    · rw [if_neg hs, if_neg hs]; exact Or.inl ⟨rfl, rfl⟩
  | insert v i xs =>
    obtain ⟨w1, o1, l1⟩ := h.wf v hok
    have hlen := h.len hok
    have hml : m.len v = (m.d v).len := rfl
    simp only [exec, spec, span]
    rw [h.len hok]
    by_cases hs : 0 ≤ i ∧ i ≤ (s.l v).length
    · rw [if_pos hs, if_pos (by omega)]
      have := h.setD hok (eff_insert E g w1 o1 l1 i.toNat (by omega) xs)
      rw [show m.mem.read (m.d v) = s.l v from h.list v hok] at this
      exact Or.inr ⟨_, _, _, _, rfl, rfl, this, rfl⟩
    · rw [if_neg hs, if_neg (by omega)]; exact Or.inl ⟨rfl, rfl⟩
  | replace v i j xs =>
    obtain ⟨w1, o1, l1⟩ := h.wf v hok
    have hlen := h.len hok
    have hml : m.len v = (m.d v).len := rfl
    simp only [exec, spec, span]
    rw [h.len hok]
    by_cases hs : 0 ≤ i ∧ i ≤ j ∧ j ≤ (s.l v).length
    · rw [if_pos hs, if_pos hs]
      have := h.setD hok (eff_replace E g w1 o1 l1 i.toNat j.toNat (by omega) (by omega) xs)
      rw [show m.mem.read (m.d v) = s.l v from h.list v hok] at this
      exact Or.inr ⟨_, _, _, _, rfl, rfl, this, rfl⟩
    · rw [if_neg hs, if_neg hs]; exact Or.inl ⟨rfl, rfl⟩
  | reverse v =>
    obtain ⟨w1, o1, l1⟩ := h.wf v hok
    have := h.setD hok (r := (reverseS m.mem (m.d v), m.d v)) (eff_reverse w1 o1 l1)
    rw [show m.mem.read (m.d v) = s.l v from h.list v hok] at this
    exact Or.inr ⟨_, _, _, _, rfl, rfl, this, rfl⟩
  | sort v =>
    simp only [exec, spec]
    rw [h.eqOf, h.lessOf]
    exact step_sort h hok P.sort_ok
  | sortFunc v less eq => exact step_sort h hok P.sort_ok
  | sortStable v =>
    simp only [exec, spec]
    rw [h.eqOf, h.lessOf]
    exact step_sort h hok P.stable_ok
  | sortStableFunc v less eq => exact step_sort h hok P.stable_ok

end Verif.Vec
