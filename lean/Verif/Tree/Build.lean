import Verif.Tree.Shape
/-!
# `tree`: `BuildTree`
-/
namespace Verif.Tree
variable {T : Type}

/-- The first `i` values are stored, heap-like, from address `f` on; older nodes are as in `m0`. -/
structure Built (m0 m : Mem T) (f : Nat) (vs : List T) (i : Nat) : Prop where
  fresh : m.fresh = f + i
  val : ∀ t, t < i → vs[t]? = some (m.val (f + t))
  left : ∀ t, t < i → m.left (f + t) = if 2 * t + 1 < i then some (f + (2 * t + 1)) else none
  right : ∀ t, t < i → m.right (f + t) = if 2 * t + 2 < i then some (f + (2 * t + 2)) else none
  parent : ∀ t, t < i → m.parent (f + t) = if t = 0 then none else some (f + (t - 1) / 2)
  frame : ∀ y, y < f → m.val y = m0.val y ∧ m.left y = m0.left y ∧ m.right y = m0.right y ∧
    m.parent y = m0.parent y

theorem Built.addLeft {m0 m : Mem T} {f j : Nat} {vs : List T} (h : Built m0 m f vs (2 * j + 1))
    {v : T} (hv : vs[2 * j + 1]? = some v) :
    Built m0 (setLeft (newNode m v).1 (f + j) (some m.fresh)).1 f vs (2 * j + 2) ∧
    (setLeft (newNode m v).1 (f + j) (some m.fresh)).1.left (f + j) = some (f + (2 * j + 1)) := by
  have hf := h.fresh
  have hold : (newNode m v).1.left (f + j) = none := by
    simp only [newNode, upd]
    rw [if_neg (by omega), h.left j (by omega), if_neg (by omega)]
  have e : (setLeft (newNode m v).1 (f + j) (some m.fresh)).1 =
      { (newNode m v).1 with
        left := upd (newNode m v).1.left (f + j) (some m.fresh)
        parent := upd (newNode m v).1.parent m.fresh (some (f + j)) } := by
    simp [setLeft, hold, setParent]
  rw [e]
  refine ⟨⟨?_, ?_, ?_, ?_, ?_, ?_⟩, ?_⟩
  · simp [newNode, hf]; omega
  · intro t ht
    simp only [newNode, upd]
    by_cases h1 : t = 2 * j + 1
    · subst h1; rw [if_pos (by omega)]; exact hv
    · rw [if_neg (by omega)]; exact h.val t (by omega)
  · intro t ht
    simp only [newNode, upd]
    by_cases h1 : t = j
    · subst h1; rw [if_pos rfl, if_pos (by omega)]; simp [hf]
    · rw [if_neg (by omega)]
      by_cases h2 : t = 2 * j + 1
      · subst h2; rw [if_pos (by omega), if_neg (by omega)]
      · rw [if_neg (by omega), h.left t (by omega)]
        by_cases h3 : 2 * t + 1 < 2 * j + 1
        · rw [if_pos h3, if_pos (by omega)]
        · rw [if_neg h3, if_neg (by omega)]
  · intro t ht
    simp only [newNode, upd]
    by_cases h2 : t = 2 * j + 1
    · subst h2; rw [if_pos (by omega), if_neg (by omega)]
    · rw [if_neg (by omega), h.right t (by omega)]
      by_cases h3 : 2 * t + 2 < 2 * j + 1
      · rw [if_pos h3, if_pos (by omega)]
      · rw [if_neg h3, if_neg (by omega)]
  · intro t ht
    simp only [newNode, upd]
    by_cases h2 : t = 2 * j + 1
    · subst h2
      rw [if_pos (by omega), if_neg (by omega)]
      congr 2; omega
    · rw [if_neg (by omega), if_neg (by omega), h.parent t (by omega)]
  · intro y hy
    obtain ⟨h1, h2, h3, h4⟩ := h.frame y hy
    simp only [newNode, upd]
    rw [if_neg (by omega), if_neg (by omega), if_neg (by omega), if_neg (by omega), if_neg (by omega),
      if_neg (by omega)]
    exact ⟨h1, h2, h3, h4⟩
  · simp [upd, hf]

theorem Built.addRight {m0 m : Mem T} {f j : Nat} {vs : List T} (h : Built m0 m f vs (2 * j + 2))
    {v : T} (hv : vs[2 * j + 2]? = some v) :
    Built m0 (setRight (newNode m v).1 (f + j) (some m.fresh)).1 f vs (2 * j + 3) ∧
    (setRight (newNode m v).1 (f + j) (some m.fresh)).1.right (f + j) = some (f + (2 * j + 2)) := by
  have hf := h.fresh
  have hold : (newNode m v).1.right (f + j) = none := by
    simp only [newNode, upd]
    rw [if_neg (by omega), h.right j (by omega), if_neg (by omega)]
  have e : (setRight (newNode m v).1 (f + j) (some m.fresh)).1 =
      { (newNode m v).1 with
        right := upd (newNode m v).1.right (f + j) (some m.fresh)
        parent := upd (newNode m v).1.parent m.fresh (some (f + j)) } := by
    simp [setRight, hold, setParent]
  rw [e]
  refine ⟨⟨?_, ?_, ?_, ?_, ?_, ?_⟩, ?_⟩
  · simp [newNode, hf]; omega
  · intro t ht
    simp only [newNode, upd]
    by_cases h1 : t = 2 * j + 2
    · subst h1; rw [if_pos (by omega)]; exact hv
    · rw [if_neg (by omega)]; exact h.val t (by omega)
  · intro t ht
    simp only [newNode, upd]
    by_cases h2 : t = 2 * j + 2
    · subst h2; rw [if_pos (by omega), if_neg (by omega)]
    · rw [if_neg (by omega), h.left t (by omega)]
      by_cases h3 : 2 * t + 1 < 2 * j + 2
      · rw [if_pos h3, if_pos (by omega)]
      · rw [if_neg h3, if_neg (by omega)]
  · intro t ht
    simp only [newNode, upd]
    by_cases h1 : t = j
    · subst h1; rw [if_pos rfl, if_pos (by omega)]; simp [hf]
    · rw [if_neg (by omega)]
      by_cases h2 : t = 2 * j + 2
      · subst h2; rw [if_pos (by omega), if_neg (by omega)]
      · rw [if_neg (by omega), h.right t (by omega)]
        by_cases h3 : 2 * t + 2 < 2 * j + 2
        · rw [if_pos h3, if_pos (by omega)]
        · rw [if_neg h3, if_neg (by omega)]
  · intro t ht
    simp only [newNode, upd]
    by_cases h2 : t = 2 * j + 2
    · subst h2
      rw [if_pos (by omega), if_neg (by omega)]
      congr 2; omega
    · rw [if_neg (by omega), if_neg (by omega), h.parent t (by omega)]
  · intro y hy
    obtain ⟨h1, h2, h3, h4⟩ := h.frame y hy
    simp only [newNode, upd]
    rw [if_neg (by omega), if_neg (by omega), if_neg (by omega), if_neg (by omega), if_neg (by omega),
      if_neg (by omega)]
    exact ⟨h1, h2, h3, h4⟩
  · simp [upd, hf]

theorem buildLoop_spec {m0 : Mem T} {f : Nat} {vs : List T} (k : Nat) : ∀ (m : Mem T) (j i : Nat),
    Built m0 m f vs i → i ≤ vs.length → (i = vs.length ∨ i = 2 * j + 1) → vs.length < i + k →
    ∃ m', buildLoop vs k m (List.range' (f + j) (i - j)) i = some m' ∧ Built m0 m' f vs vs.length := by
  induction k with
  | zero => intro m j i _ h1 _ h2; omega
  | succ k ih =>
    intro m j i hb hi hij hk
    by_cases hlt : i < vs.length
    · have hj : i = 2 * j + 1 := by omega
      subst hj
      have hq : List.range' (f + j) (2 * j + 1 - j) = (f + j) :: List.range' (f + (j + 1)) j := by
        have : 2 * j + 1 - j = j + 1 := by omega
        rw [this, List.range'_succ, Nat.add_assoc]
      obtain ⟨hb1, hl1⟩ := hb.addLeft (List.getElem?_eq_getElem hlt)
      have hq1 : List.range' (f + (j + 1)) j ++ [f + (2 * j + 1)] = List.range' (f + (j + 1)) (j + 1) := by
        rw [List.range'_1_concat]; congr 2; omega
      have hm : m.fresh = (newNode m vs[2 * j + 1]).2 := rfl
      by_cases hlt2 : 2 * j + 2 < vs.length
      · obtain ⟨hb2, hl2⟩ := hb1.addRight (List.getElem?_eq_getElem hlt2)
        obtain ⟨m', e, hb'⟩ := ih _ (j + 1) (2 * j + 3) hb2 (by omega) (by omega) (by omega)
        refine ⟨m', ?_, hb'⟩
        have hq2 : List.range' (f + (j + 1)) (j + 1) ++ [f + (2 * j + 2)] =
            List.range' (f + (j + 1)) (2 * j + 3 - (j + 1)) := by
          have : 2 * j + 3 - (j + 1) = (j + 1) + 1 := by omega
          rw [this, List.range'_1_concat (n := j + 1)]; congr 2; omega
        rw [← e, ← hq2, ← hq1, hq]
        have e1 : addLeft vs m (f + j) (List.range' (f + (j + 1)) j) (2 * j + 1) =
            some ((setLeft (newNode m vs[2 * j + 1]).1 (f + j) (some m.fresh)).1,
              List.range' (f + (j + 1)) j ++ [f + (2 * j + 1)], 2 * j + 2) := by
          have e1 : newNode m vs[2 * j + 1] = ((newNode m vs[2 * j + 1]).1, m.fresh) := rfl
          simp only [addLeft, hlt, if_true, List.getElem?_eq_getElem hlt, Option.bind_eq_bind,
            Option.bind_some]
          rw [e1]
          simp only [hl1, Option.bind_some]
        conv_lhs => rw [buildLoop]
        simp only [hlt, if_true, e1, Option.bind_eq_bind, Option.bind_some]
        generalize (setLeft (newNode m vs[2 * j + 1]).1 (f + j) (some m.fresh)).1 = M at *
        have e2 : addRight vs M (f + j) (List.range' (f + (j + 1)) j ++ [f + (2 * j + 1)]) (2 * j + 2) =
            some ((setRight (newNode M vs[2 * j + 2]).1 (f + j) (some M.fresh)).1,
              List.range' (f + (j + 1)) j ++ [f + (2 * j + 1)] ++ [f + (2 * j + 2)], 2 * j + 3) := by
          have e2 : newNode M vs[2 * j + 2] = ((newNode M vs[2 * j + 2]).1, M.fresh) := rfl
          simp only [addRight, hlt2, if_true, List.getElem?_eq_getElem hlt2, Option.bind_eq_bind,
            Option.bind_some]
          rw [e2]
          simp only [hl2, Option.bind_some]
        simp only [e2, Option.bind_some]
      · have hn : vs.length = 2 * j + 2 := by omega
        obtain ⟨m', e, hb'⟩ := ih _ (j + 1) (2 * j + 2) hb1 (by omega) (by omega) (by omega)
        refine ⟨m', ?_, hb'⟩
        have hq2 : List.range' (f + (j + 1)) (j + 1) =
            List.range' (f + (j + 1)) (2 * j + 2 - (j + 1)) := by
          congr 1; omega
        rw [← e, ← hq2, ← hq1, hq]
        have e1 : addLeft vs m (f + j) (List.range' (f + (j + 1)) j) (2 * j + 1) =
            some ((setLeft (newNode m vs[2 * j + 1]).1 (f + j) (some m.fresh)).1,
              List.range' (f + (j + 1)) j ++ [f + (2 * j + 1)], 2 * j + 2) := by
          have e1 : newNode m vs[2 * j + 1] = ((newNode m vs[2 * j + 1]).1, m.fresh) := rfl
          simp only [addLeft, hlt, if_true, List.getElem?_eq_getElem hlt, Option.bind_eq_bind,
            Option.bind_some]
          rw [e1]
          simp only [hl1, Option.bind_some]
        conv_lhs => rw [buildLoop]
        simp only [hlt, if_true, e1, Option.bind_eq_bind, Option.bind_some, addRight, hlt2, if_false]
    · refine ⟨m, by simp [buildLoop, hlt], ?_⟩
      have : i = vs.length := by omega
      rw [← this]; exact hb

theorem buildTree_spec (m : Mem T) (v : T) (vs : List T) : ∃ m',
    Returns (fun fuel => buildTree fuel m (v :: vs)) (m', some m.fresh) ∧
    Built m m' m.fresh (v :: vs) (v :: vs).length := by
  have hb : Built m (newNode m v).1 m.fresh (v :: vs) 1 := by
    refine ⟨rfl, ?_, ?_, ?_, ?_, ?_⟩
    · intro t ht
      have : t = 0 := by omega
      subst this; simp [newNode, upd]
    · intro t ht
      have : t = 0 := by omega
      subst this; simp [newNode, upd]
    · intro t ht
      have : t = 0 := by omega
      subst this; simp [newNode, upd]
    · intro t ht
      have : t = 0 := by omega
      subst this; simp [newNode, upd]
    · intro y hy
      simp only [newNode, upd]
      rw [if_neg (by omega), if_neg (by omega), if_neg (by omega), if_neg (by omega)]
      simp
  have key : ∀ fuel, vs.length + 1 ≤ fuel → ∃ m', buildTree fuel m (v :: vs) = some (m', some m.fresh) ∧
      Built m m' m.fresh (v :: vs) (v :: vs).length := by
    intro fuel hf
    obtain ⟨m', e, hb'⟩ := buildLoop_spec fuel _ 0 1 hb (by simp) (Or.inr rfl) (by simp; omega)
    refine ⟨m', ?_, hb'⟩
    have e1 : newNode m v = ((newNode m v).1, m.fresh) := rfl
    simp only [buildTree, Option.bind_eq_bind]
    rw [e1]
    have e' : buildLoop (v :: vs) fuel (newNode m v).1 [m.fresh] 1 = some m' := e
    simp only [e', Option.bind_some]
  obtain ⟨m', e, hb'⟩ := key (vs.length + 1) (Nat.le_refl _)
  refine ⟨m', ⟨vs.length + 1, fun fuel hf => ?_⟩, hb'⟩
  -- more fuel, same result
  have mono : ∀ k m q i r, buildLoop (v :: vs) k m q i = some r → ∀ k', k ≤ k' →
      buildLoop (v :: vs) k' m q i = some r := by
    intro k
    induction k with
    | zero => intro m q i r h; simp [buildLoop] at h
    | succ k ih =>
      intro m q i r h k' hk'
      obtain ⟨k', rfl⟩ : ∃ k'', k' = k'' + 1 := ⟨k' - 1, by omega⟩
      cases q with
      | nil => simpa only [buildLoop] using h
      | cons node q =>
        rw [buildLoop] at h ⊢
        split
        · next hlt =>
          rw [if_pos hlt] at h
          simp only [Option.bind_eq_bind, Option.bind_eq_some_iff] at h ⊢
          obtain ⟨x, hx, y, hy, hr⟩ := h
          exact ⟨x, hx, y, hy, ih _ _ _ _ hr _ (by omega)⟩
        · next hlt => rw [if_neg hlt] at h; exact h
  have e1 : newNode m v = ((newNode m v).1, m.fresh) := rfl
  simp only [buildTree, Option.bind_eq_bind] at e ⊢
  rw [e1] at e ⊢
  simp only [Option.bind_eq_some_iff] at e ⊢
  obtain ⟨r, h1, h2⟩ := e
  exact ⟨r, mono _ _ _ _ _ h1 _ hf, h2⟩

/-! ## The tree it builds -/

/-- The subtree of index `i` (with `k` large enough). -/
def ht (f n : Nat) : Nat → Nat → Tr
  | 0, _ => .nil
  | k + 1, i => if i < n then .node (f + i) (ht f n k (2 * i + 1)) (ht f n k (2 * i + 2)) else .nil

theorem ht_nil {f n k i : Nat} (h : ¬ i < n) : ht f n k i = .nil := by
  cases k <;> simp [ht, h]

theorem ht_is {m0 m : Mem T} {f : Nat} {vs : List T} (h : Built m0 m f vs vs.length) (k : Nat) :
    ∀ i, vs.length ≤ i + k → Is m (ht f vs.length k i) (if i < vs.length then some (f + i) else none) := by
  induction k with
  | zero =>
    intro i hi
    rw [if_neg (by omega)]; rfl
  | succ k ih =>
    intro i hi
    by_cases hlt : i < vs.length
    · simp only [ht, hlt, if_true]
      refine ⟨rfl, ?_, ?_⟩
      · rw [h.left i hlt]; exact ih _ (by omega)
      · rw [h.right i hlt]; exact ih _ (by omega)
    · rw [if_neg hlt, ht_nil hlt]; rfl

theorem ht_row (f n : Nat) (d : Nat) : ∀ k i, n ≤ i + k → (ht f n k i).atDepth d =
    ((List.range' (2 ^ d * (i + 1) - 1) (2 ^ d)).filter (· < n)).map (f + ·) := by
  induction d with
  | zero =>
    intro k i hk
    by_cases hlt : i < n
    · cases k with
      | zero => omega
      | succ k => simp [ht, hlt, Tr.atDepth, List.range'_succ]
    · rw [ht_nil hlt]; simp [Tr.atDepth, List.range'_succ, hlt]
  | succ d ih =>
    intro k i hk
    have hpos : 0 < 2 ^ d := Nat.two_pow_pos d
    by_cases hlt : i < n
    · cases k with
      | zero => omega
      | succ k =>
        simp only [ht, hlt, if_true, Tr.atDepth]
        rw [ih k _ (by omega), ih k _ (by omega), ← List.map_append, ← List.filter_append]
        congr 2
        have e1 : 2 ^ d * (2 * i + 1 + 1) - 1 = 2 ^ (d + 1) * (i + 1) - 1 := by
          rw [Nat.pow_succ, Nat.mul_assoc]; congr 2
        have e2 : 2 ^ d * (2 * i + 2 + 1) - 1 = 2 ^ (d + 1) * (i + 1) - 1 + 2 ^ d := by
          have a1 : 2 ^ d * (2 * i + 2 + 1) = 2 ^ d * (2 * i + 1 + 1) + 2 ^ d := by
            rw [show 2 * i + 2 + 1 = (2 * i + 1 + 1) + 1 from rfl, Nat.mul_add, Nat.mul_one]
          have a2 : 1 ≤ 2 ^ d * (2 * i + 1 + 1) := Nat.mul_pos hpos (by omega)
          omega
        rw [e1, e2, List.range'_append_1, Nat.pow_succ]
        congr 1; omega
    · rw [ht_nil hlt]
      simp only [Tr.atDepth]
      symm
      rw [List.map_eq_nil_iff, List.filter_eq_nil_iff]
      intro x hx
      rw [List.mem_range'_1] at hx
      have : i + 1 ≤ 2 ^ (d + 1) * (i + 1) := Nat.le_mul_of_pos_left _ (Nat.two_pow_pos _)
      simp; omega

theorem ht_rows (f n k : Nat) (hk : n ≤ k) (D : Nat) :
    ((List.range D).map (ht f n k 0).atDepth).flatten =
      ((List.range' 0 (2 ^ D - 1)).filter (· < n)).map (f + ·) := by
  induction D with
  | zero => simp
  | succ D ih =>
    rw [List.range_succ, List.map_append, List.flatten_append, ih]
    simp only [List.map_cons, List.map_nil, List.flatten_cons, List.flatten_nil, List.append_nil]
    rw [ht_row f n D k 0 (by omega), ← List.map_append, ← List.filter_append]
    congr 2
    have hpos : 0 < 2 ^ D := Nat.two_pow_pos D
    have e : 2 ^ D * (0 + 1) - 1 = 0 + (2 ^ D - 1) := by omega
    rw [e, List.range'_append_1, Nat.pow_succ]
    congr 1; omega

theorem rows_extend (t : Tr) (D : Nat) (h : t.height ≤ D) :
    ((List.range D).map t.atDepth).flatten = t.levels := by
  obtain ⟨c, rfl⟩ := Nat.exists_eq_add_of_le h
  induction c with
  | zero => rfl
  | succ c ih =>
    rw [← Nat.add_assoc, List.range_succ, List.map_append, List.flatten_append, ih (by omega)]
    simp [atDepth_height t (t.height + c) (by omega)]

theorem ht_levels (f n k : Nat) (hk : n ≤ k) : (ht f n k 0).levels = (List.range n).map (f + ·) := by
  have h := ht_rows f n k hk (max (ht f n k 0).height n)
  rw [rows_extend _ _ (by omega)] at h
  rw [h]
  congr 1
  have hn : n ≤ 2 ^ (max (ht f n k 0).height n) - 1 := by
    have h1 : n < 2 ^ n := Nat.lt_two_pow_self
    have h2 : 2 ^ n ≤ 2 ^ (max (ht f n k 0).height n) := Nat.pow_le_pow_right (by omega) (by omega)
    omega
  obtain ⟨c, hc⟩ := Nat.exists_eq_add_of_le hn
  rw [hc, ← List.range'_append_1, List.filter_append]
  rw [List.filter_eq_self.2, List.filter_eq_nil_iff.2, List.append_nil, List.range_eq_range']
  · intro x hx; rw [List.mem_range'_1] at hx; simp; omega
  · intro x hx; rw [List.mem_range'_1] at hx; simp; omega

end Verif.Tree
