import Verif.Tree.Props
/-!
# What `DrawTree` prints (C73)
-/
namespace Verif.Tree
variable {T : Type}

/-- How many values go on line `d`: one, then 2, 4, 6, 8, … -/
def width (d : Nat) : Nat := if d = 0 then 1 else d * 2

/-- Lines of these widths; the last one may be shorter.  There is only one way to break a text into such lines (`Rows.unique`). -/
def Rows {α : Type} (rs : List (List α)) : Prop :=
  ∀ (d : Nat) (r : List α), rs[d]? = some r → r ≠ [] ∧ r.length ≤ width d ∧ (d + 1 < rs.length → r.length = width d)

theorem rows_unique_aux {α : Type} : ∀ (rs rs' : List (List α)) (e : Nat),
    (∀ (d : Nat) (r : List α), rs[d]? = some r → r ≠ [] ∧ r.length ≤ width (e + d) ∧ (d + 1 < rs.length → r.length = width (e + d))) →
    (∀ (d : Nat) (r : List α), rs'[d]? = some r → r ≠ [] ∧ r.length ≤ width (e + d) ∧ (d + 1 < rs'.length → r.length = width (e + d))) →
    rs.flatten = rs'.flatten → rs = rs'
  | [], [], _, _, _, _ => rfl
  | [], r :: rs', e, _, h2, h => by
    simp at h
    exact absurd h.1 (h2 0 r rfl).1
  | r :: rs, [], e, h1, _, h => by
    simp at h
    exact absurd h.1 (h1 0 r rfl).1
  | r :: rs, r' :: rs', e, h1, h2, h => by
    have a := h1 0 r rfl
    have b := h2 0 r' rfl
    simp only [List.length_cons, Nat.add_zero] at a b
    have hlen : r.length = r'.length := by
      rcases Nat.lt_trichotomy r.length r'.length with hlt | he | hlt
      · -- then `r` is the last line
        have hnil : rs = [] := by
          cases rs with
          | nil => rfl
          | cons x rs => have := a.2.2 (by simp); omega
        subst hnil
        have := congrArg List.length h
        simp at this; omega
      · exact he
      · have hnil : rs' = [] := by
          cases rs' with
          | nil => rfl
          | cons x rs => have := b.2.2 (by simp); omega
        subst hnil
        have := congrArg List.length h
        simp at this; omega
    simp only [List.flatten_cons] at h
    obtain ⟨rfl, ht⟩ := List.append_inj h hlen
    rw [rows_unique_aux rs rs' (e + 1) ?_ ?_ ht]
    · intro d q hq
      have := h1 (d + 1) q (by simpa using hq)
      rw [show e + 1 + d = e + (d + 1) by omega]
      simpa using this
    · intro d q hq
      have := h2 (d + 1) q (by simpa using hq)
      rw [show e + 1 + d = e + (d + 1) by omega]
      simpa using this

theorem Rows.unique {α : Type} {rs rs' : List (List α)} (h1 : Rows rs) (h2 : Rows rs') (h : rs.flatten = rs'.flatten) : rs = rs' :=
  rows_unique_aux rs rs' 0 (by simpa [Rows] using h1) (by simpa [Rows] using h2) h

/-- Breaking a list into lines, from line `e ≥ 1` on. -/
theorem rows_exist {α : Type} : ∀ (n : Nat) (l : List α) (e : Nat), l.length ≤ n → 1 ≤ e → ∃ rs : List (List α),
    rs.flatten = l ∧ (∀ r ∈ rs, r ≠ []) ∧
    (∀ i r, rs[i]? = some r → i + 1 < rs.length → r.length = (e + i) * 2) ∧
    (∀ i r, rs[i]? = some r → r.length ≤ (e + i) * 2)
  | 0, l, _, hl, _ => ⟨[], by rw [List.length_eq_zero_iff.1 (by omega : l.length = 0)]; rfl, by simp, by simp, by simp⟩
  | n + 1, l, e, hl, he => by
    by_cases h0 : l = []
    · exact ⟨[], h0 ▸ rfl, by simp, by simp, by simp⟩
    by_cases hle : l.length ≤ e * 2
    · refine ⟨[l], by simp, by simpa using h0, ?_, ?_⟩
      · intro i r _ hi; simp at hi
      · intro i r hr
        cases i with
        | zero => simp at hr; subst hr; simpa using hle
        | succ i => simp at hr
    · obtain ⟨rs, h1, h2, h3, h4⟩ := rows_exist n (l.drop (e * 2)) (e + 1) (by simp; omega) (by omega)
      refine ⟨l.take (e * 2) :: rs, by rw [List.flatten_cons, h1, List.take_append_drop], ?_, ?_, ?_⟩
      · intro r hr
        rcases List.mem_cons.1 hr with rfl | hr
        · simp [h0]; omega
        · exact h2 r hr
      · intro i r hr hi
        cases i with
        | zero => simp at hr; subst hr; simp; omega
        | succ i =>
          rw [h3 i r (by simpa using hr) (by simpa using hi)]; congr 1; omega
      · intro i r hr
        cases i with
        | zero => simp at hr; subst hr; simp; omega
        | succ i =>
          have := h4 i r (by simpa using hr)
          rw [show e + (i + 1) = e + 1 + i by omega]; exact this

/-- **C73**, for every finite tree: `DrawTree` prints the values in level order, one on the first line, then 2, 4, 6, 8, … on a line, whatever the
layers are. -/
theorem C73_exact {m : Mem T} {t : Tr} {p : Option Nat} (h : Is m t p) : ∃ out,
    Returns (fun fuel => drawTree m fuel p) out ∧ (shown out).flatten = t.levels.map m.val ∧ Rows (shown out) := by
  obtain ⟨F, hF⟩ := C67_bfs h
  refine ⟨drawLoop m ((List.range t.height).map t.atDepth).flatten 0 0 [],
    ⟨F, fun fuel hf => by have := hF fuel hf; simp only at this; simp [drawTree, this]⟩, ?_⟩
  rw [show t.levels = ((List.range t.height).map t.atDepth).flatten from rfl]
  generalize ((List.range t.height).map t.atDepth).flatten = nodes
  cases nodes with
  | nil => exact ⟨rfl, by intro d r hr; simp [drawLoop, shown, lines] at hr⟩
  | cons a nodes =>
    obtain ⟨rs, h1, h2, h3, h4⟩ := rows_exist nodes.length nodes 1 (Nat.le_refl _) (Nat.le_refl _)
    have hrows := drawLoop_rows m rs 1 (Nat.le_refl _) h2 h3 h4
    have hsh : shown (drawLoop m (a :: nodes) 0 0 []) = [m.val a] :: rs.map (List.map m.val) := by
      rw [drawLoop, if_pos rfl, drawLoop_out, ← h1]
      show shown (.val (m.val a) :: .nl :: drawLoop m _ 1 0 []) = _
      rw [shown] at hrows ⊢
      simp only [lines, List.filter_cons, List.isEmpty_cons, Bool.not_false, if_true, hrows]
    rw [hsh]
    constructor
    · rw [List.flatten_cons, List.singleton_append, List.map_cons, ← h1, List.map_flatten]
    · intro d r hr
      cases d with
      | zero => simp at hr; subst hr; simp [width]
      | succ d =>
        simp only [List.getElem?_cons_succ, List.getElem?_map, Option.map_eq_some_iff] at hr
        obtain ⟨q, hq, rfl⟩ := hr
        have hw : width (d + 1) = (1 + d) * 2 := by simp [width]; omega
        refine ⟨?_, ?_, ?_⟩
        · simpa using h2 q (List.mem_of_getElem? hq)
        · rw [List.length_map, hw]; exact h4 d q hq
        · intro hlt
          rw [List.length_map, hw]
          exact h3 d q hq (by simpa using hlt)

/-- **C73**: for which trees the lines are the layers. -/
theorem C73_iff {m : Mem T} {t : Tr} {x : Nat} (h : Is m t (some x)) : DrawsLayers m t (some x) ↔
    (∀ d, 1 ≤ d → d + 1 < t.height → (t.atDepth d).length = d * 2) ∧ ∀ d, 1 ≤ d → (t.atDepth d).length ≤ d * 2 := by
  constructor
  · rintro ⟨out, hr, hs⟩
    obtain ⟨out', hr', -, hrows⟩ := C73_exact h
    obtain rfl := hr.det hr'
    rw [hs] at hrows
    have get : ∀ d, d < t.height → ((List.range t.height).map fun d => (t.atDepth d).map m.val)[d]? = some ((t.atDepth d).map m.val) := by
      intro d hd
      rw [List.getElem?_map, List.getElem?_range hd]; rfl
    constructor
    · intro d h1 h2
      have := (hrows d _ (get d (by omega))).2.2 (by simpa using h2)
      rw [List.length_map] at this
      rw [this, width, if_neg (by omega)]
    · intro d h1
      rcases Nat.lt_or_ge d t.height with hd | hd
      · have := (hrows d _ (get d hd)).2.1
        rw [List.length_map, width, if_neg (by omega)] at this
        exact this
      · simp [atDepth_height t d hd]
  · rintro ⟨h1, h2⟩
    exact C73_draw_partial h h1 h2

theorem atDepth_le_pow : ∀ (t : Tr) (d : Nat), (t.atDepth d).length ≤ 2 ^ d
  | .nil, _ => by simp [Tr.atDepth]
  | .node _ _ _, 0 => by simp [Tr.atDepth]
  | .node _ l r, d + 1 => by
    have := atDepth_le_pow l d
    have := atDepth_le_pow r d
    simp only [Tr.atDepth, List.length_append]
    omega

/-- **C73** for the trees of `BuildTree(vals)`: the lines of `DrawTree` are the layers exactly when there are at most 13 values. -/
theorem C73_build (m : Mem T) (vals : List T) : ∃ m' p t,
    Returns (fun fuel => buildTree fuel m vals) (m', p) ∧ Is m' t p ∧ t.levels.map m'.val = vals ∧
    (DrawsLayers m' t p ↔ vals.length ≤ 13) := by
  obtain ⟨m', p, t, h1, h2, h3, h4⟩ := C66_full m vals
  refine ⟨m', p, t, h1, h2, h4, ?_⟩
  have hl : vals.length = ((List.range t.height).map fun d => (t.atDepth d).length).sum := by
    rw [← h4, List.length_map, Tr.levels, List.length_flatten, List.map_map]; rfl
  cases p with
  | none =>
    have ht : t = .nil := by
      cases t with
      | nil => rfl
      | node a l r => simp [Is] at h2
    subst ht
    obtain ⟨out, o1, o2, o3⟩ := C73_exact h2
    have h0 : vals.length = 0 := by simpa [Tr.height] using hl
    refine ⟨fun _ => by omega, fun _ => ⟨out, o1, ?_⟩⟩
    have : shown out = [] := Rows.unique o3 (by intro d r hr; simp at hr) (by simpa [Tr.levels, Tr.height] using o2)
    simpa [Tr.height] using this
  | some x =>
    rw [C73_iff h2, hl]
    have p0 := atDepth_le_pow t 0
    have p1 := atDepth_le_pow t 1
    have p2 := atDepth_le_pow t 2
    constructor
    · rintro ⟨f1, f2⟩
      have hh : t.height ≤ 4 := by
        by_contra hc
        have a := h3 3 (by omega)
        have b := f1 3 (by omega) (by omega)
        omega
      have p3 := f2 3 (by omega)
      generalize t.height = n at hh
      have : n = 0 ∨ n = 1 ∨ n = 2 ∨ n = 3 ∨ n = 4 := by omega
      rcases this with rfl | rfl | rfl | rfl | rfl <;> simp [List.range_succ] <;> omega
    · intro hle
      have hh : t.height ≤ 4 := by
        by_contra hc
        have a0 := h3 0 (by omega)
        have a1 := h3 1 (by omega)
        have a2 := h3 2 (by omega)
        have a3 := h3 3 (by omega)
        obtain ⟨k, hk⟩ := Nat.exists_eq_add_of_le (show 4 ≤ t.height by omega)
        rw [hk, List.range_add] at hle
        simp [List.range_succ] at hle
        omega
      constructor
      · intro d d1 d2
        have := h3 d d2
        have : d = 1 ∨ d = 2 := by omega
        rcases this with rfl | rfl <;> omega
      · intro d d1
        rcases Nat.lt_or_ge d t.height with hd | hd
        · have : d = 1 ∨ d = 2 ∨ d = 3 := by omega
          rcases this with rfl | rfl | rfl
          · omega
          · omega
          · have h4 : t.height = 4 := by omega
            have a0 := h3 0 (by omega)
            have a1 := h3 1 (by omega)
            have a2 := h3 2 (by omega)
            rw [h4] at hle
            simp [List.range_succ] at hle
            omega
        · simp [atDepth_height t d hd]

/-- The lines for 15 values: 1, 2, 4, 6 and 2 of them. -/
example : ∃ out, Returns (fun fuel => drawTree exD.1 fuel (some 0)) out ∧
    shown out = [[0], [1, 2], [3, 4, 5, 6], [7, 8, 9, 10, 11, 12], [13, 14]] := by
  obtain ⟨out, h1, h2, h3⟩ := C73_exact (C73_draw_false.1)
  refine ⟨out, h1, Rows.unique h3 ?_ (h2.trans (by decide))⟩
  intro d r hr
  match d, hr with
  | 0, hr => simp at hr; subst hr; decide
  | 1, hr => simp at hr; subst hr; decide
  | 2, hr => simp at hr; subst hr; decide
  | 3, hr => simp at hr; subst hr; decide
  | 4, hr => simp at hr; subst hr; decide
  | d + 5, hr => simp at hr

/-- Ten values are drawn right although the last layer is not full. -/
example : ∃ m' p t, Returns (fun fuel => buildTree fuel (Mem.empty 0) (List.range 10)) (m', p) ∧ DrawsLayers m' t p :=
  let ⟨m', p, t, h1, _, _, h4⟩ := C73_build (Mem.empty 0) (List.range 10)
  ⟨m', p, t, h1, h4.2 (by decide)⟩

end Verif.Tree
