import Verif.Heap.IfaceSim
/-!
# C109: how often `Less` and `Swap` are called
-/
namespace Verif.Heap
variable {S T : Type}

theorem log2_mono {a b : Nat} (h : a ≤ b) : Nat.log2 a ≤ Nat.log2 b := by
  by_cases h0 : a = 0
  · subst h0; simp
  · exact (Nat.le_log2 (by omega)).2 (Nat.le_trans (Nat.log2_self_le h0) h)

theorem log2_half {a : Nat} (h : 2 ≤ a) : Nat.log2 (a / 2) + 1 = Nat.log2 a := by
  conv => rhs; rw [Nat.log2_def]
  rw [if_pos h]

theorem log2_add {a b : Nat} (ha : a ≠ 0) (hb : b ≠ 0) : Nat.log2 a + Nat.log2 b ≤ Nat.log2 (a * b) := by
  have hab : a * b ≠ 0 := Nat.mul_ne_zero ha hb
  rw [Nat.le_log2 hab, Nat.pow_add]
  exact Nat.mul_le_mul (Nat.log2_self_le ha) (Nat.log2_self_le hb)

/-- A step down halves what is below. -/
theorem log2_child {m a j : Nat} (h : 2 * a + 1 < m) (hj : 2 * a + 1 ≤ j) : Nat.log2 (m / (j + 1)) + 1 ≤ Nat.log2 (m / (a + 1)) := by
  have h2 : 2 ≤ m / (a + 1) := by rw [Nat.le_div_iff_mul_le (by omega)]; omega
  have h1 : m / (j + 1) ≤ m / (a + 1) / 2 := by
    rw [Nat.div_div_eq_div_mul]
    exact Nat.div_le_div_left (by omega) (by omega)
  have := log2_mono h1
  have := log2_half h2
  omega

/-- A step up halves the position. -/
theorem log2_parent {j : Nat} (h : (j - 1) / 2 ≠ j) : Nat.log2 ((j - 1) / 2 + 1) + 1 ≤ Nat.log2 (j + 1) := by
  have h1 : (j - 1) / 2 + 1 = (j + 1) / 2 := by omega
  rw [h1, log2_half (by omega)]
  exact Nat.le_refl _

/-- Counting changes nothing else. -/
theorem counted_sim (I : Iface S T) : Sim (counted I) I (fun s t => s.1 = t) (fun x y _ => x = y) where
  len := by rintro s _ rfl; rfl
  less := by
    rintro s _ i j rfl
    simp only [counted]
    rcases I.less s.1 i j with _ | ⟨b, t⟩
    · trivial
    · exact ⟨rfl, rfl⟩
  swap := by
    rintro s _ i j rfl
    simp only [counted]
    rcases I.swap s.1 i j with _ | t
    · trivial
    · exact rfl
  pop := by
    rintro s _ rfl
    simp only [counted]
    rcases I.pop s.1 with _ | ⟨x, t⟩
    · trivial
    · exact ⟨rfl, rfl⟩

theorem up_cost (I : Iface S T) (j : Nat) : ∀ (st st' : S × Nat × Nat), (counted I).up st j = some st' →
    st'.2.1 ≤ st.2.1 + Nat.log2 (j + 1) ∧ st'.2.2 ≤ st.2.2 + Nat.log2 (j + 1) := by
  induction j using Nat.strongRecOn with
  | _ j ih =>
    intro st st' h
    rw [Iface.up] at h
    have e : ((j : Int) - 1).tdiv 2 = (((j - 1) / 2 : Nat) : Int) := by
      rcases j with _ | j
      · rfl
      · rw [Iface.tdiv_pos _ (by omega)]; omega
    simp only [e] at h
    split at h
    · cases h; omega
    · next hij =>
      have hlog := log2_parent (j := j) (by omega)
      simp only [counted] at h
      rcases hl : I.less st.1 j ((j - 1) / 2 : Nat) with _ | ⟨b, t⟩
      · rw [hl] at h; cases h
      · rw [hl] at h
        cases b
        · cases h; simp only; omega
        · simp only at h
          rcases hs : I.swap t ((j - 1) / 2 : Nat) j with _ | t2
          · rw [hs] at h; cases h
          · rw [hs] at h
            have := ih _ (by omega) _ _ h
            simp only at this
            omega

theorem downLoop_cost (I : Iface S T) (m : Nat) : ∀ (k a : Nat), m - a = k → ∀ (st st' : S × Nat × Nat) (i' : Int),
    (counted I).downLoop st a m = some (st', i') →
    st'.2.1 ≤ st.2.1 + 2 * Nat.log2 (m / (a + 1)) ∧ st'.2.2 ≤ st.2.2 + Nat.log2 (m / (a + 1)) := by
  intro k
  induction k using Nat.strongRecOn with
  | _ k ih =>
    intro a ha st st' i' h
    rw [Iface.downLoop] at h
    simp only at h
    split at h
    · cases h; omega
    · next hj =>
      have h2 : 1 ≤ Nat.log2 (m / (a + 1)) := by have := log2_child (m := m) (a := a) (j := 2 * a + 1) (by omega) (by omega); omega
      obtain ⟨b, t, c, hc, hl⟩ : ∃ b t c, c ≤ st.2.1 + 1 ∧
          (if 2 * (a : Int) + 1 + 1 < m then (counted I).less st (2 * (a : Int) + 1 + 1) (2 * (a : Int) + 1) else some (false, st)) =
            some (b, t, c, st.2.2) := by
        split
        · next hlt =>
          rw [if_pos hlt] at h
          simp only [counted] at h ⊢
          rcases hl : I.less st.1 (2 * (a : Int) + 1 + 1) (2 * (a : Int) + 1) with _ | ⟨b, t⟩
          · rw [hl] at h; cases h
          · exact ⟨b, t, _, Nat.le_refl _, rfl⟩
        · exact ⟨false, st.1, st.2.1, by omega, rfl⟩
      rw [hl] at h
      simp only at h
      obtain ⟨j, hj1, hj2, ej⟩ : ∃ j : Nat, 2 * a + 1 ≤ j ∧ j ≤ 2 * a + 2 ∧ (if b = true then 2 * (a : Int) + 1 + 1 else 2 * (a : Int) + 1) = j := by
        cases b
        · exact ⟨2 * a + 1, by omega, by omega, by simp⟩
        · exact ⟨2 * a + 2, by omega, by omega, by simp; omega⟩
      rw [ej] at h
      have hlog := log2_child (m := m) (a := a) (j := j) (by omega) hj1
      simp only [counted] at h
      rcases hl : I.less t j a with _ | ⟨b, t1⟩
      · rw [hl] at h; cases h
      · rw [hl] at h
        cases b
        · cases h; simp only; omega
        · simp only at h
          rcases hs : I.swap t1 a j with _ | t2
          · rw [hs] at h; cases h
          · rw [hs] at h
            have := ih _ (by omega) j rfl _ _ _ h
            simp only at this
            omega

theorem down_cost (I : Iface S T) (m a : Nat) (st st' : S × Nat × Nat) (b : Bool) (h : (counted I).down st a m = some (st', b)) :
    st'.2.1 ≤ st.2.1 + 2 * Nat.log2 (m / (a + 1)) ∧ st'.2.2 ≤ st.2.2 + Nat.log2 (m / (a + 1)) := by
  unfold Iface.down at h
  rcases hd : (counted I).downLoop st a m with _ | ⟨st1, i⟩
  · rw [hd] at h; cases h
  · rw [hd] at h
    cases h
    exact downLoop_cost I m _ a rfl _ _ _ hd

theorem downUp_cost (I : Iface S T) (m a : Nat) (ha : a < m) (st st' : S × Nat × Nat) (h : (counted I).downUp st a m = some st') :
    st'.2.1 ≤ st.2.1 + 2 * Nat.log2 m ∧ st'.2.2 ≤ st.2.2 + Nat.log2 m := by
  have h0 : m / (a + 1) ≠ 0 := by have : 1 ≤ m / (a + 1) := (Nat.le_div_iff_mul_le (by omega)).2 (by omega); omega
  have hm : Nat.log2 (m / (a + 1)) + Nat.log2 (a + 1) ≤ Nat.log2 m :=
    Nat.le_trans (log2_add h0 (by omega)) (log2_mono (Nat.div_mul_le_self m (a + 1)))
  unfold Iface.downUp at h
  rcases hd : (counted I).down st a m with _ | ⟨st1, b⟩
  · rw [hd] at h; cases h
  · rw [hd] at h
    have h1 := down_cost I m a _ _ _ hd
    cases b
    · have h2 := up_cost I a _ _ h
      omega
    · cases h; omega

/-- The steps of `Init`, from position `k - 1` down. -/
theorem initLoop_cost (I : Iface S T) (m : Nat) : ∀ (k : Nat) (st st' : S × Nat × Nat), (counted I).initLoop m k st = some st' →
    st'.2.1 ≤ st.2.1 + 2 * ((List.range k).map (fun a => Nat.log2 (m / (a + 1)))).sum ∧
    st'.2.2 ≤ st.2.2 + ((List.range k).map (fun a => Nat.log2 (m / (a + 1)))).sum := by
  intro k
  induction k with
  | zero => intro st st' h; cases h; simp
  | succ k ih =>
    intro st st' h
    unfold Iface.initLoop at h
    rcases hd : (counted I).down st k m with _ | ⟨st1, b⟩
    · rw [hd] at h; cases h
    · rw [hd] at h
      have h1 := down_cost I m k _ _ _ hd
      have h2 := ih _ _ h
      rw [List.range_succ]
      simp only [List.map_append, List.map_cons, List.map_nil, List.sum_append, List.sum_cons, List.sum_nil]
      omega

theorem sum_log2 (m : Nat) : ((List.range (m / 2)).map (fun a => Nat.log2 (m / (a + 1)))).sum ≤ m := by
  induction m using Nat.strongRecOn with
  | _ m ih =>
    by_cases h0 : m < 2
    · have : m / 2 = 0 := by omega
      rw [this]; simp
    · have h1 := ih (m / 2) (by omega)
      have h2 : (List.range (m / 2)).map (fun a => Nat.log2 (m / (a + 1))) =
          (List.range (m / 2)).map (fun a => Nat.log2 (m / 2 / (a + 1)) + 1) := by
        refine List.map_congr_left fun a ha => ?_
        rw [List.mem_range] at ha
        have : 2 ≤ m / (a + 1) := by rw [Nat.le_div_iff_mul_le (by omega)]; omega
        rw [← log2_half this, Nat.div_div_eq_div_mul, Nat.div_div_eq_div_mul, Nat.mul_comm]
      have h3 : ∀ (l : List Nat) (f : Nat → Nat), (l.map (fun a => f a + 1)).sum = (l.map f).sum + l.length := by
        intro l f
        induction l with
        | nil => rfl
        | cons x l ihl => simp only [List.map_cons, List.sum_cons, List.length_cons, ihl]; omega
      have h4 : m / 2 = m / 2 / 2 + (m / 2 - m / 2 / 2) := by omega
      rw [h2, h3, List.length_range]
      have h5 : ((List.range (m / 2)).map (fun a => Nat.log2 (m / 2 / (a + 1)))).sum =
          ((List.range (m / 2 / 2)).map (fun a => Nat.log2 (m / 2 / (a + 1)))).sum := by
        have h6 : List.range (m / 2) = List.range (m / 2 / 2 + (m / 2 - m / 2 / 2)) := congrArg _ h4
        rw [h6, List.range_add]
        rw [List.map_append, List.sum_append]
        have : ((List.range (m / 2 - m / 2 / 2)).map (fun x => m / 2 / 2 + x)).map (fun a => Nat.log2 (m / 2 / (a + 1))) =
            (List.range (m / 2 - m / 2 / 2)).map (fun _ => 0) := by
          rw [List.map_map]
          refine List.map_congr_left fun a ha => ?_
          simp only [Function.comp]
          have h7 : m / 2 / (m / 2 / 2 + a + 1) < 2 := by rw [Nat.div_lt_iff_lt_mul (by omega)]; omega
          generalize m / 2 / (m / 2 / 2 + a + 1) = z at h7 ⊢
          have h8 : z = 0 ∨ z = 1 := by omega
          rcases h8 with rfl | rfl <;> rfl
        have h9 : ∀ l : List Nat, (l.map (fun _ => 0)).sum = 0 := by
          intro l
          induction l with
          | nil => rfl
          | cons x l ihl => simp only [List.map_cons, List.sum_cons, ihl]
        rw [this, h9]
        rfl
      rw [h5]
      omega

/-! ## The claims -/

/-- C109: counting `Less` and `Swap` calls changes nothing in what the functions do. -/
theorem heap_counted (I : Iface S T) (s : S) (c : Nat × Nat) :
    ((counted I).init (s, c)).map (·.1) = I.init s ∧
    (∀ x, ((counted I).hpush (s, c) x).map (·.1) = I.hpush s x) ∧
    ((counted I).hpop (s, c)).map (fun r => (r.1, r.2.1)) = I.hpop s ∧
    (∀ i, ((counted I).remove (s, c) i).map (fun r => (r.1, r.2.1)) = I.remove s i) ∧
    (∀ i, ((counted I).fix (s, c) i).map (·.1) = I.fix s i) := by
  have k1 : ∀ {a : Option (S × Nat × Nat)} {b : Option S}, RelO (fun s t => s.1 = t) a b → a.map (·.1) = b := by
    intro a b h
    rcases a with _ | a <;> rcases b with _ | b <;> first | rfl | exact h.elim | exact congrArg some h
  have k2 : ∀ {a : Option (T × S × Nat × Nat)} {b : Option (T × S)},
      RelO (fun a b => a.1 = b.1 ∧ a.2.1 = b.2) a b → a.map (fun r => (r.1, r.2.1)) = b := by
    intro a b h
    rcases a with _ | a <;> rcases b with _ | b <;> first | rfl | exact h.elim | exact congrArg some (Prod.ext h.1 h.2)
  have h := counted_sim I
  refine ⟨k1 (h.init _ _ rfl), fun x => k1 (h.hpush _ _ x x ?_), k2 (h.hpop _ _ rfl), fun i => k2 (h.remove _ _ i rfl), fun i => k1 (h.fix _ _ i rfl)⟩
  simp only [counted]
  rcases I.push s x with _ | t
  · trivial
  · exact rfl

/-- C109: `Init` of `n` elements calls `Less` at most `2 n` times and `Swap` at most `n` times. -/
theorem heap_init_cost (I : Iface S T) (s s' : S) (less swap : Nat) (h : (counted I).init (s, 0, 0) = some (s', less, swap)) :
    less ≤ 2 * I.len s ∧ swap ≤ I.len s := by
  have h1 := initLoop_cost I (I.len s) (I.len s / 2) _ _ h
  have h2 := sum_log2 (I.len s)
  simp only at h1
  omega

/-- C109: `Push` calls `Less` and `Swap` at most `log₂ n` times each, `n` being the number of elements with the new one. -/
theorem heap_push_cost (I : Iface S T) (s s1 s' : S) (x : T) (less swap : Nat) (hp : I.push s x = some s1) (hn : 0 < I.len s1)
    (h : (counted I).hpush (s, 0, 0) x = some (s', less, swap)) :
    less ≤ Nat.log2 (I.len s1) ∧ swap ≤ Nat.log2 (I.len s1) := by
  unfold Iface.hpush at h
  simp only [counted, hp] at h
  have e : (I.len s1 : Int) - 1 = ((I.len s1 - 1 : Nat) : Int) := by omega
  rw [e] at h
  have h1 := up_cost I _ _ _ h
  rw [Nat.sub_add_cancel hn] at h1
  simpa using h1

/-- C109: `Pop` of `n + 1` elements calls `Less` at most `2 log₂ n` times, `Swap` at most `1 + log₂ n` times. -/
theorem heap_pop_cost (I : Iface S T) (s s' : S) (x : T) (n less swap : Nat) (hn : I.len s = n + 1)
    (h : (counted I).hpop (s, 0, 0) = some (x, s', less, swap)) : less ≤ 2 * Nat.log2 n ∧ swap ≤ 1 + Nat.log2 n := by
  unfold Iface.hpop at h
  simp only at h
  have e : ((counted I).len (s, 0, 0) : Int) - 1 = (n : Int) := by simp only [counted, hn]; omega
  rw [e] at h
  rcases hs : I.swap s 0 n with _ | s1
  · simp only [counted, hs] at h; cases h
  · have hs' : (counted I).swap (s, 0, 0) 0 n = some (s1, 0, 1) := by simp only [counted, hs]
    rw [hs'] at h
    simp only at h
    rcases hd : (counted I).down (s1, 0, 1) ((0 : Nat) : Int) n with _ | ⟨⟨s2, c, d⟩, b⟩
    · rw [show (0 : Int) = ((0 : Nat) : Int) from rfl, hd] at h; cases h
    · rw [show (0 : Int) = ((0 : Nat) : Int) from rfl, hd] at h
      have h1 := down_cost I n 0 _ _ _ hd
      simp only [Nat.zero_add, Nat.div_one] at h1
      simp only [counted] at h
      rcases hq : I.pop s2 with _ | ⟨y, s3⟩
      · rw [hq] at h; cases h
      · rw [hq] at h; cases h; exact h1

/-- C109: `Remove` from `n + 1` elements calls `Less` at most `2 log₂ n` times, `Swap` at most `1 + log₂ n` times. -/
theorem heap_remove_cost (I : Iface S T) (s s' : S) (x : T) (i n less swap : Nat) (hn : I.len s = n + 1) (hi : i ≤ n)
    (h : (counted I).remove (s, 0, 0) i = some (x, s', less, swap)) : less ≤ 2 * Nat.log2 n ∧ swap ≤ 1 + Nat.log2 n := by
  unfold Iface.remove at h
  simp only at h
  have e : ((counted I).len (s, 0, 0) : Int) - 1 = (n : Int) := by simp only [counted, hn]; omega
  rw [e] at h
  split at h
  · rcases hs : I.swap s i n with _ | s1
    · simp only [counted, hs] at h; cases h
    · have hs' : (counted I).swap (s, 0, 0) i n = some (s1, 0, 1) := by simp only [counted, hs]
      rw [hs'] at h
      simp only at h
      rcases hd : (counted I).downUp (s1, 0, 1) i n with _ | ⟨s2, c, d⟩
      · rw [hd] at h; cases h
      · rw [hd] at h
        have h1 := downUp_cost I n i (by omega) _ _ hd
        simp only [Nat.zero_add] at h1
        simp only [counted] at h
        rcases hq : I.pop s2 with _ | ⟨y, s3⟩
        · rw [hq] at h; cases h
        · rw [hq] at h; cases h; exact h1
  · simp only [counted] at h
    rcases hq : I.pop s with _ | ⟨y, s3⟩
    · rw [hq] at h; cases h
    · rw [hq] at h; cases h; omega

/-- C109: `Fix` in `n` elements calls `Less` at most `2 log₂ n` times, `Swap` at most `log₂ n` times. -/
theorem heap_fix_cost (I : Iface S T) (s s' : S) (i less swap : Nat) (hi : i < I.len s)
    (h : (counted I).fix (s, 0, 0) i = some (s', less, swap)) : less ≤ 2 * Nat.log2 (I.len s) ∧ swap ≤ Nat.log2 (I.len s) := by
  have h1 := downUp_cost I (I.len s) i hi _ _ h
  simpa using h1

/-- `MinHeap[int]`: seven elements in descending order take 8 comparisons and 4 swaps to order; a `Pop` then takes 3 and 2. -/
example : (counted (slice (minLess (α := Int)))).init ([7, 6, 5, 4, 3, 2, 1], 0, 0) = some ([1, 3, 2, 4, 6, 7, 5], 8, 4) := by
  decide +kernel
example : (counted (slice (minLess (α := Int)))).hpop ([1, 3, 2, 4, 6, 7, 5], 0, 0) = some (1, [2, 3, 5, 4, 6, 7], 3, 2) := by
  decide +kernel

end Verif.Heap
