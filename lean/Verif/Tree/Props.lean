import Verif.Tree.Build
import Mathlib.Tactic.Tauto
/-!
# Properties of `tree` (C66–C73)
-/
namespace Verif.Tree
variable {T : Type}

theorem Returns.det {β : Type} {f : Nat → Option β} {r s : β} (h1 : Returns f r) (h2 : Returns f s) :
    r = s := by
  obtain ⟨F, h1⟩ := h1
  obtain ⟨G, h2⟩ := h2
  have := (h1 (max F G) (by omega)).symm.trans (h2 (max F G) (by omega))
  injection this

/-! ## C67: traversals -/

/-- `TraversalDFS` of a finite tree is the preorder. -/
theorem C67_dfs {m : Mem T} {t : Tr} {x : Nat} (h : Is m t (some x)) :
    Returns (fun fuel => traversalDFS m fuel (some x)) t.pre := by
  refine ⟨t.size + 1, fun fuel hf => ?_⟩
  cases t with
  | nil => cases h
  | node a l r =>
    obtain ⟨e, hl, hr⟩ := h
    injection e with e
    subst e
    have := dfsLoop_spec m fuel [.node x l r] [] (by
      intro t ht
      simp only [List.mem_singleton] at ht
      subst ht
      exact ⟨by simp, rfl, hl, hr⟩) (by simp; omega)
    by_cases hleaf : isLeaf m x
    · have h2 : m.left x = none ∧ m.right x = none := by
        simp only [isLeaf, hasChild, hasLeft, hasRight, Bool.not_eq_true', Bool.or_eq_false_iff,
          Option.isSome_eq_false_iff, Option.isNone_iff_eq_none] at hleaf
        exact hleaf
      have e1 := hl.root; have e2 := hr.root
      rw [h2.1] at e1; rw [h2.2] at e2
      have el : l = .nil := by cases l with
        | nil => rfl
        | node => cases e1
      have er : r = .nil := by cases r with
        | nil => rfl
        | node => cases e2
      subst el; subst er
      simp [traversalDFS, hleaf, Tr.pre]
    · simp only [traversalDFS, hleaf, Option.bind_eq_bind, Option.bind_some]
      rw [if_neg (by decide)]
      exact this.trans (by simp)

/-- `TraversalBFS` of a finite tree lists the layers one after the other, each from left to right. -/
theorem C67_bfs {m : Mem T} {t : Tr} {p : Option Nat} (h : Is m t p) :
    Returns (fun fuel => traversalBFS m fuel p)
      ((List.range t.height).map t.atDepth).flatten :=
  ⟨t.height + 1, fun fuel hf => bfs_spec m t h fuel hf⟩

/-- Both visit the same nodes equally often; once each if no node occurs twice in the tree. -/
theorem C67_once {m : Mem T} {t : Tr} {x : Nat} (h : Is m t (some x)) : ∃ d b,
    Returns (fun fuel => traversalDFS m fuel (some x)) d ∧
    Returns (fun fuel => traversalBFS m fuel (some x)) b ∧ b.Perm d ∧ (d.Nodup → b.Nodup) :=
  ⟨t.pre, t.levels, C67_dfs h, C67_bfs h, levels_perm t, (levels_perm t).nodup_iff.2⟩

/-- The depth in level order never decreases. -/
theorem C67_depth (t : Tr) : ∃ ds : List Nat, ds.Pairwise (· ≤ ·) ∧
    List.Forall₂ (fun x d => x ∈ t.atDepth d) t.levels ds := by
  have key : ∀ D, ∃ ds : List Nat, ds.Pairwise (· ≤ ·) ∧ (∀ d ∈ ds, d < D) ∧
      List.Forall₂ (fun x d => x ∈ t.atDepth d) ((List.range D).map t.atDepth).flatten ds := by
    intro D
    induction D with
    | zero => exact ⟨[], by simp, by simp, by simp⟩
    | succ D ih =>
      obtain ⟨ds, h1, h2, h3⟩ := ih
      refine ⟨ds ++ List.replicate (t.atDepth D).length D, ?_, ?_, ?_⟩
      · rw [List.pairwise_append]
        refine ⟨h1, ?_, ?_⟩
        · rw [List.pairwise_replicate]; exact Or.inr (Nat.le_refl _)
        · intro a ha b hb
          have := h2 a ha
          rw [List.eq_of_mem_replicate hb]; omega
      · intro d hd
        rcases List.mem_append.1 hd with hd | hd
        · have := h2 d hd; omega
        · rw [List.eq_of_mem_replicate hd]; omega
      · rw [List.range_succ, List.map_append, List.flatten_append]
        refine List.rel_append h3 ?_
        simp only [List.map_cons, List.map_nil, List.flatten_cons, List.flatten_nil, List.append_nil]
        have : ∀ l : List Nat, (∀ x ∈ l, x ∈ t.atDepth D) →
            List.Forall₂ (fun x d => x ∈ t.atDepth d) l (List.replicate l.length D) := by
          intro l
          induction l with
          | nil => intro _; simp
          | cons a l ih =>
            intro h
            exact .cons (h a (by simp)) (ih (fun x hx => h x (by simp [hx])))
        exact this _ (fun x hx => hx)
  obtain ⟨ds, h1, _, h3⟩ := key t.height
  exact ⟨ds, h1, h3⟩

/-- Nil receivers. -/
theorem C67_nil (m : Mem T) : Returns (fun fuel => traversalBFS m fuel none) [] ∧
    ∀ fuel, traversalDFS m fuel none = none := by
  refine ⟨⟨1, fun fuel hf => ?_⟩, fun _ => rfl⟩
  obtain ⟨k, rfl⟩ : ∃ k, fuel = k + 1 := ⟨fuel - 1, by omega⟩
  rfl

/-! ## C66: `BuildTree` -/

/-- `BuildTree(vals)` is a new tree whose level order `as` has the values `vals`; the children of the
node number `i` are the nodes number `2i+1` and `2i+2`, and the `Parent` links agree.  Other nodes
are not changed. -/
theorem C66_build (m : Mem T) (vals : List T) : ∃ m' p as,
    Returns (fun fuel => buildTree fuel m vals) (m', p) ∧
    Returns (fun fuel => traversalBFS m' fuel p) as ∧
    as.map m'.val = vals ∧ p = as.head? ∧ as.Nodup ∧
    (∀ i x, as[i]? = some x → ¬ x < m.fresh ∧ x < m'.fresh ∧
      m'.left x = as[2 * i + 1]? ∧ m'.right x = as[2 * i + 2]? ∧
      m'.parent x = if i = 0 then none else as[(i - 1) / 2]?) ∧
    (∀ y, y < m.fresh → m'.val y = m.val y ∧ m'.left y = m.left y ∧ m'.right y = m.right y ∧
      m'.parent y = m.parent y) := by
  cases vals with
  | nil =>
    refine ⟨m, none, [], ⟨0, fun _ _ => rfl⟩, (C67_nil m).1, rfl, rfl, List.nodup_nil, ?_, ?_⟩
    · intro i x h; simp at h
    · intro y _; exact ⟨rfl, rfl, rfl, rfl⟩
  | cons v vs =>
    obtain ⟨m', h1, hb⟩ := buildTree_spec m v vs
    generalize hn : (v :: vs).length = n at *
    have hpos : 0 < n := by rw [← hn]; simp
    have his := ht_is (hn ▸ hb) n 0 (by omega)
    rw [hn, if_pos hpos] at his
    have hget : ∀ i, ((List.range n).map (m.fresh + ·))[i]? = if i < n then some (m.fresh + i) else none := by
      intro i
      by_cases h : i < n
      · rw [List.getElem?_map, List.getElem?_range h]; simp [h]
      · rw [List.getElem?_eq_none (by simp; omega)]; simp [h]
    refine ⟨m', some m.fresh, (List.range n).map (m.fresh + ·), h1, ?_, ?_, ?_, ?_, ?_, hb.frame⟩
    · have := C67_bfs his
      rw [show ((List.range (ht m.fresh n n 0).height).map (ht m.fresh n n 0).atDepth).flatten =
        (ht m.fresh n n 0).levels from rfl, ht_levels m.fresh n n (Nat.le_refl _)] at this
      exact this
    · apply List.ext_getElem?
      intro i
      rw [List.map_map, List.getElem?_map]
      by_cases h : i < n
      · rw [List.getElem?_range h, hb.val i h]; rfl
      · rw [List.getElem?_eq_none (by simp; omega), List.getElem?_eq_none (by omega)]; rfl
    · rw [List.head?_eq_getElem?, hget 0, if_pos hpos]; rfl
    · exact List.pairwise_map.2 (List.Pairwise.imp (fun h e => h (by omega)) (List.nodup_range (n := n)))
    · intro i x hx
      rw [hget] at hx
      by_cases hi : i < n
      · rw [if_pos hi] at hx
        injection hx with hx
        subst hx
        have hf := hb.fresh
        refine ⟨by omega, by omega, ?_, ?_, ?_⟩
        · rw [hb.left i hi, hget]
        · rw [hb.right i hi, hget]
        · rw [hb.parent i hi, hget]
          by_cases h0 : i = 0
          · simp [h0]
          · rw [if_neg h0, if_neg h0, if_pos (by omega)]
      · rw [if_neg hi] at hx; cases hx

/-- All layers but the last are full. -/
theorem C66_full (m : Mem T) (vals : List T) : ∃ m' p t,
    Returns (fun fuel => buildTree fuel m vals) (m', p) ∧ Is m' t p ∧
    (∀ d, d + 1 < t.height → (t.atDepth d).length = 2 ^ d) ∧ t.levels.map m'.val = vals := by
  cases vals with
  | nil =>
    exact ⟨m, none, .nil, ⟨0, fun _ _ => rfl⟩, rfl, fun d h => absurd h (by simp [Tr.height]), rfl⟩
  | cons v vs =>
    obtain ⟨m', p, as, h1, h2, h3, _⟩ := C66_build m (v :: vs)
    obtain ⟨m'', h1', hb⟩ := buildTree_spec m v vs
    have e := h1.det h1'
    injection e with e1 e2
    subst e1
    generalize hn : (v :: vs).length = n at *
    have hpos : 0 < n := by rw [← hn]; simp
    have his := ht_is (hn ▸ hb) n 0 (by omega)
    rw [hn, if_pos hpos] at his
    refine ⟨m', p, ht m.fresh n n 0, h1, by rw [e2]; exact his, ?_, ?_⟩
    · intro d hd
      have hne := atDepth_ne _ _ hd
      rw [ht_row m.fresh n (d + 1) n 0 (by omega)] at hne
      rw [ht_row m.fresh n d n 0 (by omega), List.length_map]
      have hpos : 0 < 2 ^ d := Nat.two_pow_pos d
      have hlt : 2 ^ (d + 1) - 1 < n := by
        rcases Nat.lt_or_ge (2 ^ (d + 1) - 1) n with h | h
        · exact h
        · exfalso; apply hne
          rw [List.map_eq_nil_iff, List.filter_eq_nil_iff]
          intro x hx
          rw [List.mem_range'_1] at hx
          simp; omega
      rw [List.filter_eq_self.2]
      · simp
      · intro x hx
        rw [List.mem_range'_1] at hx
        rw [Nat.pow_succ] at hlt
        simp; omega
    · have := (C67_bfs his)
      rw [Nat.add_zero, ← e2] at this
      rw [show (ht m.fresh n n 0).levels = as from this.det h2]
      exact h3

/-! ## C69: `Layer`, `MaxDepth` -/

/-- `k` steps to the parent lead from `x` to a node without parent. -/
inductive Up (m : Mem T) : Nat → Nat → Prop
  | root {x} : m.parent x = none → Up m x 0
  | step {x p k} : m.parent x = some p → Up m p k → Up m x (k + 1)

theorem C69_layer {m : Mem T} {x k : Nat} (h : Up m x k) :
    Returns (fun fuel => layer m fuel (some x)) (k : Int) := by
  refine ⟨k + 1, ?_⟩
  induction h with
  | root h =>
    intro fuel hf
    obtain ⟨n, rfl⟩ : ∃ n, fuel = n + 1 := ⟨fuel - 1, by omega⟩
    simp [layer, isRoot, hasParent, h]
  | step h _ ih =>
    intro fuel hf
    obtain ⟨n, rfl⟩ : ∃ n, fuel = n + 1 := ⟨fuel - 1, by omega⟩
    simp [layer, isRoot, hasParent, h, ih n (by omega)]

theorem C69_layer_nil (m : Mem T) : Returns (fun fuel => layer m fuel none) (-1) := by
  refine ⟨1, fun fuel hf => ?_⟩
  obtain ⟨n, rfl⟩ : ∃ n, fuel = n + 1 := ⟨fuel - 1, by omega⟩
  rfl

/-- `x` is a child of `y` exactly if `y` is `x`'s `Parent`. -/
def Consistent (m : Mem T) : Prop :=
  ∀ x y, (m.left y = some x ∨ m.right y = some x) ↔ m.parent x = some y

/-- In a consistent tree `Layer` is the depth: the nodes of layer `d` are those at distance `d`. -/
theorem C69_layer_depth {m : Mem T} (hc : Consistent m) {t : Tr} {r : Nat} (h : Is m t (some r))
    (hr : m.parent r = none) {d x : Nat} (hx : x ∈ t.atDepth d) :
    Returns (fun fuel => layer m fuel (some x)) (d : Int) := by
  have key : ∀ (t : Tr) (r k : Nat), Is m t (some r) → Up m r k → ∀ d, x ∈ t.atDepth d → Up m x (k + d) := by
    intro t
    induction t with
    | nil => intro r k _ _ d hx; cases hx
    | node a l rr ihl ihr =>
      intro r k his hu d hx
      obtain ⟨e, hl, hrr⟩ := his
      injection e with e
      subst e
      cases d with
      | zero => simp [Tr.atDepth] at hx; subst hx; exact hu
      | succ d =>
        have hd : k + (d + 1) = (k + 1) + d := by omega
        rw [hd]
        simp only [Tr.atDepth, List.mem_append] at hx
        rcases hx with hx | hx
        · cases hl' : m.left r with
          | none =>
            rw [hl'] at hl
            have := hl.root
            cases l with
            | nil => cases hx
            | node => cases this
          | some b =>
            rw [hl'] at hl
            exact ihl b (k + 1) hl (.step ((hc b r).1 (Or.inl hl')) hu) d hx
        · cases hr' : m.right r with
          | none =>
            rw [hr'] at hrr
            have := hrr.root
            cases rr with
            | nil => cases hx
            | node => cases this
          | some b =>
            rw [hr'] at hrr
            exact ihr b (k + 1) hrr (.step ((hc b r).1 (Or.inr hr')) hu) d hx
  have := key t r 0 h (.root hr) d hx
  rw [Nat.zero_add] at this
  exact C69_layer this

theorem max'_eq (a b : Nat) : max' a b = max a b := by
  unfold max'; split <;> omega

theorem maxDepth_spec {m : Mem T} (t : Tr) : ∀ (p : Option Nat) (fuel : Nat), Is m t p →
    t.height < fuel → maxDepth m fuel p = some (t.height - 1) := by
  induction t with
  | nil =>
    intro p fuel h hf
    obtain ⟨n, rfl⟩ : ∃ n, fuel = n + 1 := ⟨fuel - 1, by omega⟩
    have : p = none := h
    subst this; rfl
  | node a l r ihl ihr =>
    intro p fuel h hf
    obtain ⟨n, rfl⟩ : ∃ n, fuel = n + 1 := ⟨fuel - 1, by omega⟩
    obtain ⟨rfl, hl, hr⟩ := h
    simp only [Tr.height] at hf
    have i1 := ihl _ n hl (by omega)
    have i2 := ihr _ n hr (by omega)
    have e1 := hl.root; have e2 := hr.root
    by_cases hleaf : isLeaf m a
    · have h2 : m.left a = none ∧ m.right a = none := by
        simp only [isLeaf, hasChild, hasLeft, hasRight, Bool.not_eq_true', Bool.or_eq_false_iff,
          Option.isSome_eq_false_iff, Option.isNone_iff_eq_none] at hleaf
        exact hleaf
      rw [h2.1] at e1; rw [h2.2] at e2
      have el : l = .nil := by cases l with
        | nil => rfl
        | node => cases e1
      have er : r = .nil := by cases r with
        | nil => rfl
        | node => cases e2
      subst el; subst er
      simp [maxDepth, hleaf, Tr.height]
    · simp only [maxDepth, hleaf, i1, i2, Option.bind_eq_bind, Option.bind_some, max'_eq, Tr.height]
      have : 0 < l.height ∨ 0 < r.height := by
        cases l with
        | node => left; simp [Tr.height]
        | nil => cases r with
          | node => right; simp [Tr.height]
          | nil =>
            exfalso; apply hleaf
            simp [isLeaf, hasChild, hasLeft, hasRight, e1, e2, Tr.root]
      simp only [Bool.false_eq_true, if_false, Option.some.injEq]
      omega

/-- `MaxDepth` is the largest distance to a node of the subtree. -/
theorem C69_maxDepth {m : Mem T} {t : Tr} {x : Nat} (h : Is m t (some x)) : ∃ d,
    Returns (fun fuel => maxDepth m fuel (some x)) d ∧ (∃ y, y ∈ t.atDepth d) ∧
    ∀ e y, y ∈ t.atDepth e → e ≤ d := by
  refine ⟨t.height - 1, ⟨t.height + 1, fun fuel hf => maxDepth_spec t _ fuel h hf⟩, ?_, ?_⟩
  · have hpos : 0 < t.height := by cases t with
      | nil => cases h
      | node => simp [Tr.height]
    exact List.exists_mem_of_ne_nil _ (atDepth_ne t _ (by omega))
  · intro e y hy
    rcases Nat.lt_or_ge e t.height with h' | h'
    · omega
    · rw [atDepth_height t e h'] at hy; cases hy

theorem C69_maxDepth_nil (m : Mem T) : Returns (fun fuel => maxDepth m fuel none) 0 := by
  refine ⟨1, fun fuel hf => ?_⟩
  obtain ⟨n, rfl⟩ : ∃ n, fuel = n + 1 := ⟨fuel - 1, by omega⟩
  rfl

/-! ## C70, C71: ancestry -/

/-- `n` is `x` or an ancestor of `x`. -/
inductive Anc (m : Mem T) (n : Nat) : Nat → Prop
  | refl : Anc m n n
  | step {x p} : m.parent x = some p → Anc m n p → Anc m n x

/-- `n.IsAncestorRelation(x)` decides ancestry (`x` with finitely many ancestors). -/
theorem C70_ancestor {m : Mem T} {x k : Nat} (h : Up m x k) (n : Nat) : ∃ b,
    Returns (fun fuel => isAncestorRelation m fuel (some n) (some x)) b ∧ (b = true ↔ Anc m n x) := by
  have key : ∃ b, (∀ fuel, k + 2 ≤ fuel → ancLoop m (some n) fuel (some x) = some b) ∧
      (b = true ↔ Anc m n x) := by
    induction h with
    | @root x h =>
      by_cases e : x = n
      · subst e
        refine ⟨true, fun fuel hf => ?_, by simp [Anc.refl]⟩
        obtain ⟨k, rfl⟩ : ∃ k, fuel = k + 1 := ⟨fuel - 1, by omega⟩
        simp [ancLoop]
      · refine ⟨false, fun fuel hf => ?_, ?_⟩
        · obtain ⟨k, rfl⟩ : ∃ k, fuel = k + 1 + 1 := ⟨fuel - 2, by omega⟩
          simp [ancLoop, e, h]
        · constructor
          · intro h; cases h
          · intro ha
            cases ha with
            | refl => exact absurd rfl e
            | step h1 _ => rw [h] at h1; cases h1
    | @step x p k h _ ih =>
      by_cases e : x = n
      · subst e
        refine ⟨true, fun fuel hf => ?_, by simp [Anc.refl]⟩
        obtain ⟨k, rfl⟩ : ∃ k, fuel = k + 1 := ⟨fuel - 1, by omega⟩
        simp [ancLoop]
      · obtain ⟨b, i1, i2⟩ := ih
        refine ⟨b, fun fuel hf => ?_, ?_⟩
        · obtain ⟨j, rfl⟩ : ∃ j, fuel = j + 1 := ⟨fuel - 1, by omega⟩
          simp only [ancLoop, Option.some.injEq, e, if_false, h]
          exact i1 j (by omega)
        · rw [i2]
          constructor
          · exact .step h
          · intro ha
            cases ha with
            | refl => exact absurd rfl e
            | step h1 h2 => rw [h] at h1; injection h1 with h1; subst h1; exact h2
  obtain ⟨b, k1, k2⟩ := key
  exact ⟨b, ⟨k + 2, fun fuel hf => by simpa [isAncestorRelation] using k1 fuel hf⟩, k2⟩

theorem C70_nil (m : Mem T) (n : Option Nat) (fuel : Nat) :
    isAncestorRelation m fuel n none = some false := by simp [isAncestorRelation]

/-- `n.IsDescendantRelation(m)` should say whether `n` is in the subtree of `m`, i.e. whether `m` is
`n` or an ancestor of `n`.  It always says the opposite. -/
theorem C71_negated_partial {m : Mem T} {n k : Nat} (h : Up m n k) (x : Nat) : ∃ b,
    Returns (fun fuel => isDescendantRelation m fuel (some n) (some x)) b ∧ (b = true ↔ ¬ Anc m x n) := by
  obtain ⟨b, ⟨F, h1⟩, h2⟩ := C70_ancestor h x
  refine ⟨!b, ⟨F, fun fuel hf => ?_⟩, ?_⟩
  · simp only [isDescendantRelation]
    have := h1 fuel hf
    simp only at this
    rw [this]; rfl
  · rw [← h2]; simp

/-- The property as stated fails, for every node of every finite tree: a node is not a descendant of
its own root. -/
theorem C71_descendant_false {m : Mem T} {n k : Nat} (h : Up m n k) (x : Nat) :
    ¬ ∃ b, Returns (fun fuel => isDescendantRelation m fuel (some n) (some x)) b ∧
      (b = true ↔ Anc m x n) := by
  rintro ⟨b, h1, h2⟩
  obtain ⟨c, h3, h4⟩ := C71_negated_partial h x
  have := h1.det h3
  subst this
  rw [h4] at h2
  tauto

/-! ## C68: links -/

inductive LOp (T : Type) where
  | new (v : T)
  | setLeft (n : Nat) (c : Option Nat)
  | setRight (n : Nat) (c : Option Nat)

def lexec (m : Mem T) : LOp T → Mem T
  | .new v => (newNode m v).1
  | .setLeft n c => (setLeft m n c).1
  | .setRight n c => (setRight m n c).1

/-- The nodes exist. -/
def LOp.Ok (m : Mem T) : LOp T → Prop
  | .new _ => True
  | .setLeft n c | .setRight n c => n < m.fresh ∧ ∀ x ∈ c, x < m.fresh

def Mem.empty (d : T) : Mem T :=
  { val := fun _ => d, parent := fun _ => none, left := fun _ => none, right := fun _ => none, fresh := 0 }

inductive LRun (d : T) : List (LOp T) → Mem T → Prop
  | nil : LRun d [] (Mem.empty d)
  | snoc {h m op} : LRun d h m → LOp.Ok m op → LRun d (h ++ [op]) (lexec m op)

/-- C68 fails: a node that is made a child of another node stays a child of its old parent. -/
theorem C68_links_false : ¬ ∀ (h : List (LOp Nat)) (m : Mem Nat), LRun 0 h m → Consistent m := by
  intro H
  have hr : LRun 0 [.new 10, .new 11, .new 12, .setLeft 0 (some 2), .setLeft 1 (some 2)]
      (lexec (lexec (lexec (lexec (lexec (Mem.empty 0) (.new 10)) (.new 11)) (.new 12))
        (.setLeft 0 (some 2))) (.setLeft 1 (some 2))) := by
    refine .snoc (h := [_, _, _, _]) (.snoc (h := [_, _, _]) (.snoc (h := [_, _]) (.snoc (h := [_])
      (.snoc (h := []) .nil trivial) trivial) trivial) ⟨by decide, ?_⟩) ⟨by decide, ?_⟩ <;>
    · intro x hx
      simp at hx; subst hx; decide
  have := (H _ _ hr 2 0).1 (Or.inl rfl)
  exact absurd this (by decide)

/-- The call respects the links: the new child has no parent, or is the present child. -/
def LOp.Proper (m : Mem T) : LOp T → Prop
  | .new _ => True
  | .setLeft n c => ∀ x ∈ c, m.parent x = none ∨ m.left n = some x
  | .setRight n c => ∀ x ∈ c, m.parent x = none ∨ m.right n = some x

inductive PRun (d : T) : List (LOp T) → Mem T → Prop
  | nil : PRun d [] (Mem.empty d)
  | snoc {h m op} : PRun d h m → LOp.Ok m op → LOp.Proper m op → PRun d (h ++ [op]) (lexec m op)

/-- Consistent, no node is both children of its parent, nothing beyond the allocated nodes. -/
structure Links (m : Mem T) : Prop where
  cons : Consistent m
  diff : ∀ x y, m.left y = some x → m.right y ≠ some x
  bound : ∀ x y, m.parent x = some y → x < m.fresh ∧ y < m.fresh

theorem setLeft_parent (m : Mem T) (n : Nat) (c : Option Nat) (x : Nat) :
    (setLeft m n c).1.parent x =
      if c = some x then some n else if m.left n = some x then none else m.parent x := by
  cases c with
  | none =>
    cases h : m.left n with
    | none => simp [setLeft, setParent, h]
    | some o =>
      simp only [setLeft, setParent, h, upd]
      by_cases e : x = o
      · subst e; simp
      · simp [e, Ne.symm e]
  | some c =>
    cases h : m.left n with
    | none =>
      simp only [setLeft, setParent, h, upd]
      by_cases e : x = c
      · subst e; simp
      · simp [e, Ne.symm e]
    | some o =>
      simp only [setLeft, setParent, h, upd]
      by_cases e : x = c
      · subst e; simp
      · by_cases e' : x = o
        · subst e'; simp [e, Ne.symm e]
        · simp [e, Ne.symm e, e', Ne.symm e']

theorem setRight_parent (m : Mem T) (n : Nat) (c : Option Nat) (x : Nat) :
    (setRight m n c).1.parent x =
      if c = some x then some n else if m.right n = some x then none else m.parent x := by
  cases c with
  | none =>
    cases h : m.right n with
    | none => simp [setRight, setParent, h]
    | some o =>
      simp only [setRight, setParent, h, upd]
      by_cases e : x = o
      · subst e; simp
      · simp [e, Ne.symm e]
  | some c =>
    cases h : m.right n with
    | none =>
      simp only [setRight, setParent, h, upd]
      by_cases e : x = c
      · subst e; simp
      · simp [e, Ne.symm e]
    | some o =>
      simp only [setRight, setParent, h, upd]
      by_cases e : x = c
      · subst e; simp
      · by_cases e' : x = o
        · subst e'; simp [e, Ne.symm e]
        · simp [e, Ne.symm e, e', Ne.symm e']

theorem setLeft_left (m : Mem T) (n : Nat) (c : Option Nat) (y : Nat) :
    (setLeft m n c).1.left y = if y = n then c else m.left y := by
  have : (setLeft m n c).1.left = upd m.left n c := by
    cases c <;> cases h : m.left n <;> simp [setLeft, setParent, h]
  rw [this]; rfl

theorem setLeft_right (m : Mem T) (n : Nat) (c : Option Nat) (y : Nat) :
    (setLeft m n c).1.right y = m.right y := by
  cases c <;> cases h : m.left n <;> simp [setLeft, setParent, h]

theorem setLeft_fresh (m : Mem T) (n : Nat) (c : Option Nat) : (setLeft m n c).1.fresh = m.fresh := by
  cases c <;> cases h : m.left n <;> simp [setLeft, setParent, h]

theorem setRight_right (m : Mem T) (n : Nat) (c : Option Nat) (y : Nat) :
    (setRight m n c).1.right y = if y = n then c else m.right y := by
  have : (setRight m n c).1.right = upd m.right n c := by
    cases c <;> cases h : m.right n <;> simp [setRight, setParent, h]
  rw [this]; rfl

theorem setRight_left (m : Mem T) (n : Nat) (c : Option Nat) (y : Nat) :
    (setRight m n c).1.left y = m.left y := by
  cases c <;> cases h : m.right n <;> simp [setRight, setParent, h]

theorem setRight_fresh (m : Mem T) (n : Nat) (c : Option Nat) : (setRight m n c).1.fresh = m.fresh := by
  cases c <;> cases h : m.right n <;> simp [setRight, setParent, h]

theorem Links.setLeft {m : Mem T} (h : Links m) {n : Nat} {c : Option Nat} (hok : LOp.Ok m (.setLeft n c))
    (hp : LOp.Proper m (.setLeft n c)) : Links (setLeft m n c).1 := by
  refine ⟨?_, ?_, ?_⟩
  · intro x y
    rw [setLeft_left, setLeft_right, setLeft_parent]
    have hc := h.cons x y
    have hcn := h.cons x n
    by_cases hcx : c = some x
    · rw [if_pos hcx]
      have hx : m.parent x = none ∨ m.left n = some x := hp x (by simp [hcx])
      by_cases hy : y = n
      · subst hy; rw [if_pos rfl, hcx]; simp
      · rw [if_neg hy, hc]
        constructor
        · intro hpar
          rcases hx with hx | hx
          · rw [hx] at hpar; cases hpar
          · have := hcn.1 (Or.inl hx); rw [this] at hpar; injection hpar with hpar; exact absurd hpar.symm hy
        · intro e; injection e with e; exact absurd e.symm hy
    · rw [if_neg hcx]
      by_cases hl : m.left n = some x
      · rw [if_pos hl]
        have hpx := hcn.1 (Or.inl hl)
        constructor
        · intro hlr
          exfalso
          by_cases hy : y = n
          · subst hy
            rw [if_pos rfl] at hlr
            rcases hlr with e | e
            · exact hcx e
            · exact h.diff x y hl e
          · rw [if_neg hy, hc, hpx] at hlr
            injection hlr with e; exact hy e.symm
        · intro e; cases e
      · rw [if_neg hl]
        by_cases hy : y = n
        · subst hy
          rw [if_pos rfl, ← hc]
          tauto
        · rw [if_neg hy]; exact hc
  · intro x y
    rw [setLeft_left, setLeft_right]
    by_cases hy : y = n
    · subst hy
      rw [if_pos rfl]
      intro hcx hr
      have hpx := (h.cons x y).1 (Or.inr hr)
      rcases hp x (by simp [hcx]) with hx | hx
      · rw [hx] at hpx; cases hpx
      · exact h.diff x y hx hr
    · rw [if_neg hy]; exact h.diff x y
  · intro x y
    rw [setLeft_parent, setLeft_fresh]
    split
    · next e => intro e'; injection e' with e'; subst e'; exact ⟨hok.2 x (by simp [e]), hok.1⟩
    · split
      · intro e; cases e
      · exact h.bound x y

theorem Links.setRight {m : Mem T} (h : Links m) {n : Nat} {c : Option Nat} (hok : LOp.Ok m (.setRight n c))
    (hp : LOp.Proper m (.setRight n c)) : Links (setRight m n c).1 := by
  refine ⟨?_, ?_, ?_⟩
  · intro x y
    rw [setRight_left, setRight_right, setRight_parent]
    have hc := h.cons x y
    have hcn := h.cons x n
    by_cases hcx : c = some x
    · rw [if_pos hcx]
      have hx : m.parent x = none ∨ m.right n = some x := hp x (by simp [hcx])
      by_cases hy : y = n
      · subst hy; rw [if_pos rfl, hcx]; simp
      · rw [if_neg hy, hc]
        constructor
        · intro hpar
          rcases hx with hx | hx
          · rw [hx] at hpar; cases hpar
          · have := hcn.1 (Or.inr hx); rw [this] at hpar; injection hpar with hpar; exact absurd hpar.symm hy
        · intro e; injection e with e; exact absurd e.symm hy
    · rw [if_neg hcx]
      by_cases hl : m.right n = some x
      · rw [if_pos hl]
        have hpx := hcn.1 (Or.inr hl)
        constructor
        · intro hlr
          exfalso
          by_cases hy : y = n
          · subst hy
            rw [if_pos rfl] at hlr
            rcases hlr with e | e
            · exact h.diff x y e hl
            · exact hcx e
          · rw [if_neg hy, hc, hpx] at hlr
            injection hlr with e; exact hy e.symm
        · intro e; cases e
      · rw [if_neg hl]
        by_cases hy : y = n
        · subst hy
          rw [if_pos rfl, ← hc]
          tauto
        · rw [if_neg hy]; exact hc
  · intro x y
    rw [setRight_left, setRight_right]
    by_cases hy : y = n
    · subst hy
      rw [if_pos rfl]
      intro hr hcx
      have hpx := (h.cons x y).1 (Or.inl hr)
      rcases hp x (by simp [hcx]) with hx | hx
      · rw [hx] at hpx; cases hpx
      · exact h.diff x y hr hx
    · rw [if_neg hy]; exact h.diff x y
  · intro x y
    rw [setRight_parent, setRight_fresh]
    split
    · next e => intro e'; injection e' with e'; subst e'; exact ⟨hok.2 x (by simp [e]), hok.1⟩
    · split
      · intro e; cases e
      · exact h.bound x y

theorem Links.new {m : Mem T} (h : Links m) (v : T) : Links (newNode m v).1 := by
  have hb : ∀ y x, (m.left y = some x ∨ m.right y = some x) → x < m.fresh ∧ y < m.fresh :=
    fun y x hh => h.bound x y ((h.cons x y).1 hh)
  refine ⟨?_, ?_, ?_⟩
  · intro x y
    simp only [newNode, upd]
    by_cases hy : y = m.fresh
    · subst hy
      simp only [if_true]
      constructor
      · rintro (e | e) <;> cases e
      · by_cases hx : x = m.fresh
        · rw [if_pos hx]; intro e; cases e
        · rw [if_neg hx]; intro e; have := (h.bound _ _ e).2; omega
    · simp only [hy, if_false]
      rw [h.cons x y]
      by_cases hx : x = m.fresh
      · rw [if_pos hx]
        constructor
        · intro e; have := (h.bound _ _ e).1; omega
        · intro e; cases e
      · rw [if_neg hx]
  · intro x y
    simp only [newNode, upd]
    by_cases hy : y = m.fresh
    · simp [hy]
    · simp only [hy, if_false]; exact h.diff x y
  · intro x y
    simp only [newNode, upd]
    by_cases hx : x = m.fresh
    · simp [hx]
    · simp only [hx, if_false]
      intro e
      have := h.bound x y e
      omega

/-- C68, as long as every new child has no parent at that time (or is the present child).  What is
missing from the full statement is `SetLeft`/`SetRight` with a node that is a child elsewhere. -/
theorem C68_links_partial {d : T} {h : List (LOp T)} {m : Mem T} (hr : PRun d h m) : Consistent m := by
  have : Links m := by
    induction hr with
    | nil => exact ⟨by intro x y; simp [Mem.empty], by intro x y; simp [Mem.empty],
        by intro x y; simp [Mem.empty]⟩
    | @snoc h m op _ hok hp ih =>
      cases op with
      | new v => exact ih.new v
      | setLeft n c => exact ih.setLeft hok hp
      | setRight n c => exact ih.setRight hok hp
  exact this.cons

theorem PRun.links {d : T} {h : List (LOp T)} {m : Mem T} (hr : PRun d h m) : Links m := by
  induction hr with
  | nil => exact ⟨by intro x y; simp [Mem.empty], by intro x y; simp [Mem.empty],
      by intro x y; simp [Mem.empty]⟩
  | @snoc h m op _ hok hp ih =>
    cases op with
    | new v => exact ih.new v
    | setLeft n c => exact ih.setLeft hok hp
    | setRight n c => exact ih.setRight hok hp

/-- Exactly when one call of `SetLeft` keeps the links consistent: the child has no parent, or its
parent is the receiver. -/
theorem C68_exact {m : Mem T} (h : Links m) (n x : Nat) :
    Consistent (setLeft m n (some x)).1 ↔ m.parent x = none ∨ m.parent x = some n := by
  constructor
  · intro hc
    cases hp : m.parent x with
    | none => exact Or.inl rfl
    | some p =>
      right
      by_cases e : p = n
      · rw [e]
      · exfalso
        have h1 := (h.cons x p).2 hp
        have h2 := (hc x p).1 (by rw [setLeft_left, setLeft_right, if_neg e]; exact h1)
        rw [setLeft_parent, if_pos rfl] at h2
        injection h2 with h2
        exact e h2.symm
  · intro hx z y
    rw [setLeft_left, setLeft_right, setLeft_parent]
    have hc := h.cons z y
    have hcn := h.cons z n
    by_cases hzx : z = x
    · subst hzx
      rw [if_pos rfl]
      by_cases hy : y = n
      · subst hy; simp
      · rw [if_neg hy, hc]
        constructor
        · intro e
          rcases hx with hx | hx
          · rw [hx] at e; cases e
          · rw [hx] at e; exact e
        · intro e; injection e with e; exact absurd e.symm hy
    · rw [if_neg (show ¬ some x = some z by simpa using Ne.symm hzx)]
      by_cases hl : m.left n = some z
      · rw [if_pos hl]
        have hpz := hcn.1 (Or.inl hl)
        constructor
        · intro hlr
          exfalso
          by_cases hy : y = n
          · subst hy
            rw [if_pos rfl] at hlr
            rcases hlr with e | e
            · injection e with e; exact hzx e.symm
            · exact h.diff z y hl e
          · rw [if_neg hy, hc, hpz] at hlr
            injection hlr with e; exact hy e.symm
        · intro e; cases e
      · rw [if_neg hl]
        by_cases hy : y = n
        · subst hy
          rw [if_pos rfl, ← hc]
          constructor
          · rintro (e | e)
            · injection e with e; exact absurd e.symm hzx
            · exact Or.inr e
          · rintro (e | e)
            · exact absurd e hl
            · exact Or.inr e
        · rw [if_neg hy]; exact hc

/-- What `SetLeft` does in any state: it returns the old left child, which loses its parent; the new
one gets the receiver as parent; nothing else changes. -/
theorem C68_setLeft (m : Mem T) (n : Nat) (c : Option Nat) :
    (setLeft m n c).2 = m.left n ∧ (setLeft m n c).1.left n = c ∧
    (∀ x, c = some x → (setLeft m n c).1.parent x = some n) ∧
    (∀ x, m.left n = some x → c ≠ some x → (setLeft m n c).1.parent x = none) ∧
    (∀ x, c ≠ some x → m.left n ≠ some x → (setLeft m n c).1.parent x = m.parent x) ∧
    (∀ y, y ≠ n → (setLeft m n c).1.left y = m.left y) ∧
    (∀ y, (setLeft m n c).1.right y = m.right y) := by
  refine ⟨rfl, by rw [setLeft_left, if_pos rfl], ?_, ?_, ?_, ?_, setLeft_right m n c⟩
  · intro x e; rw [setLeft_parent, if_pos e]
  · intro x e1 e2; rw [setLeft_parent, if_neg e2, if_pos e1]
  · intro x e1 e2; rw [setLeft_parent, if_neg e1, if_neg e2]
  · intro y e; rw [setLeft_left, if_neg e]

/-- Likewise `SetRight`. -/
theorem C68_setRight (m : Mem T) (n : Nat) (c : Option Nat) :
    (setRight m n c).2 = m.right n ∧ (setRight m n c).1.right n = c ∧
    (∀ x, c = some x → (setRight m n c).1.parent x = some n) ∧
    (∀ x, m.right n = some x → c ≠ some x → (setRight m n c).1.parent x = none) ∧
    (∀ x, c ≠ some x → m.right n ≠ some x → (setRight m n c).1.parent x = m.parent x) ∧
    (∀ y, y ≠ n → (setRight m n c).1.right y = m.right y) ∧
    (∀ y, (setRight m n c).1.left y = m.left y) := by
  refine ⟨rfl, by rw [setRight_right, if_pos rfl], ?_, ?_, ?_, ?_, setRight_left m n c⟩
  · intro x e; rw [setRight_parent, if_pos e]
  · intro x e1 e2; rw [setRight_parent, if_neg e2, if_pos e1]
  · intro x e1 e2; rw [setRight_parent, if_neg e1, if_neg e2]
  · intro y e; rw [setRight_right, if_neg e]

/-! ## C72: family -/

/-- `y` is a child of `p`. -/
def Child (m : Mem T) (p y : Nat) : Prop := m.left p = some y ∨ m.right p = some y

/-- `y` is another child of a node of which `x` is a child. -/
def Sib (m : Mem T) (x y : Nat) : Prop := ∃ p, Child m p x ∧ Child m p y ∧ y ≠ x

theorem sibling_spec {m : Mem T} (h : Links m) (x : Nat) :
    ∃ s, sibling m x = some s ∧ ∀ y, s = some y ↔ Sib m x y := by
  cases hp : m.parent x with
  | none =>
    refine ⟨none, by simp [sibling, isRoot, hasParent, hp], ?_⟩
    intro y
    simp only [reduceCtorEq, false_iff]
    rintro ⟨p, h1, _⟩
    have := (h.cons x p).1 h1
    rw [hp] at this; cases this
  | some p =>
    have hch := (h.cons x p).2 hp
    have huniq : ∀ q, Child m q x → q = p := by
      intro q hq
      have := (h.cons x q).1 hq
      rw [hp] at this; injection this with this; exact this.symm
    by_cases hl : m.left p = some x
    · refine ⟨m.right p, by simp [sibling, isRoot, hasParent, isLeft, hp, hl], ?_⟩
      intro y
      constructor
      · intro hy
        exact ⟨p, hch, Or.inr hy, fun e => h.diff x p hl (e ▸ hy)⟩
      · rintro ⟨q, h1, h2, h3⟩
        rw [huniq q h1] at h2
        rcases h2 with h2 | h2
        · rw [hl] at h2; injection h2 with h2; exact absurd h2.symm h3
        · exact h2
    · have hr : m.right p = some x := hch.resolve_left hl
      refine ⟨m.left p, by simp [sibling, isRoot, hasParent, isLeft, hp, hl], ?_⟩
      intro y
      constructor
      · intro hy
        exact ⟨p, hch, Or.inl hy, fun e => hl (e ▸ hy)⟩
      · rintro ⟨q, h1, h2, h3⟩
        rw [huniq q h1] at h2
        rcases h2 with h2 | h2
        · exact h2
        · rw [hr] at h2; injection h2 with h2; exact absurd h2.symm h3

/-- `Sibling` in a consistent tree. -/
theorem C72_sibling {m : Mem T} (h : Links m) (x : Nat) :
    ∃ s, sibling m x = some s ∧ (∀ y, s = some y ↔ Sib m x y) ∧
      hasSibling m x = some s.isSome ∧
      ∀ n, isSiblingRelation m x n = some (decide (s = n)) := by
  obtain ⟨s, h1, h2⟩ := sibling_spec h x
  exact ⟨s, h1, h2, by simp [hasSibling, h1], fun n => by simp [isSiblingRelation, h1]⟩

/-- `Uncle`: the parent's sibling. -/
theorem C72_uncle {m : Mem T} (h : Links m) (x : Nat) :
    ∃ s, uncle m x = some s ∧ (∀ y, s = some y ↔ ∃ p, Child m p x ∧ Sib m p y) ∧
      hasUncle m x = some s.isSome ∧
      ∀ n, isUncleRelation m x n = some (decide (s = n)) := by
  have key : ∃ s, uncle m x = some s ∧ (∀ y, s = some y ↔ ∃ p, Child m p x ∧ Sib m p y) := by
    cases hp : m.parent x with
    | none =>
      refine ⟨none, by simp [uncle, isRoot, hasParent, hp], ?_⟩
      intro y
      simp only [reduceCtorEq, false_iff]
      rintro ⟨p, h1, _⟩
      have := (h.cons x p).1 h1
      rw [hp] at this; cases this
    | some p =>
      obtain ⟨s, h1, h2⟩ := sibling_spec h p
      refine ⟨s, by simp [uncle, isRoot, hasParent, hp, h1], ?_⟩
      intro y
      rw [h2]
      constructor
      · intro hs; exact ⟨p, (h.cons x p).2 hp, hs⟩
      · rintro ⟨q, hq, hs⟩
        have := (h.cons x q).1 hq
        rw [hp] at this; injection this with this
        rw [this]; exact hs
  obtain ⟨s, h1, h2⟩ := key
  exact ⟨s, h1, h2, by simp [hasUncle, h1], fun n => by simp [isUncleRelation, h1]⟩

/-- `Grandparent`. -/
theorem C72_grandparent {m : Mem T} (h : Links m) (x : Nat) :
    ∃ s, grandparent m x = some s ∧ (∀ y, s = some y ↔ ∃ p, Child m p x ∧ Child m y p) ∧
      hasGrandparent m x = some s.isSome ∧
      ∀ n, isGrandparentRelation m x n = some (decide (s = n)) := by
  have key : ∃ s, grandparent m x = some s ∧ (∀ y, s = some y ↔ ∃ p, Child m p x ∧ Child m y p) := by
    cases hp : m.parent x with
    | none =>
      refine ⟨none, by simp [grandparent, isRoot, hasParent, hp], ?_⟩
      intro y
      simp only [reduceCtorEq, false_iff]
      rintro ⟨p, h1, _⟩
      have := (h.cons x p).1 h1
      rw [hp] at this; cases this
    | some p =>
      refine ⟨m.parent p, by simp [grandparent, isRoot, hasParent, hp], ?_⟩
      intro y
      constructor
      · intro hy; exact ⟨p, (h.cons x p).2 hp, (h.cons p y).2 hy⟩
      · rintro ⟨q, h1, h2⟩
        have := (h.cons x q).1 h1
        rw [hp] at this; injection this with this
        rw [this]; exact (h.cons q y).1 h2
  obtain ⟨s, h1, h2⟩ := key
  exact ⟨s, h1, h2, by simp [hasGrandparent, h1], fun n => by simp [isGrandparentRelation, h1]⟩

/-- The simple predicates. -/
theorem C72_predicates {m : Mem T} (h : Links m) (x y : Nat) :
    (isLeaf m x = true ↔ ∀ z, ¬ Child m x z) ∧ (isRoot m x = true ↔ ∀ p, ¬ Child m p x) ∧
    (isLeft m x = true ↔ ∃ p, m.left p = some x) ∧ (isRight m x = true ↔ ∃ p, m.right p = some x) ∧
    (isLeftRelation m x (some y) = true ↔ m.left x = some y) ∧
    (isRightRelation m x (some y) = true ↔ m.right x = some y) ∧
    (isChildRelation m x (some y) = true ↔ Child m x y) ∧
    isLeftRelation m x none = false ∧ isRightRelation m x none = false := by
  have hleft : ∀ x, isLeft m x = true ↔ ∃ p, m.left p = some x := by
    intro x
    constructor
    · intro e
      unfold isLeft at e
      split at e
      · cases e
      · next p _ => exact ⟨p, by simpa using e⟩
    · rintro ⟨p, e⟩
      have := (h.cons x p).1 (Or.inl e)
      simp [isLeft, this, e]
  have hright : ∀ x, isRight m x = true ↔ ∃ p, m.right p = some x := by
    intro x
    constructor
    · intro e
      unfold isRight at e
      split at e
      · cases e
      · next p _ => exact ⟨p, by simpa using e⟩
    · rintro ⟨p, e⟩
      have := (h.cons x p).1 (Or.inr e)
      simp [isRight, this, e]
  have hlr : isLeftRelation m x (some y) = true ↔ m.left x = some y := by
    simp only [isLeftRelation, Bool.and_eq_true, hleft, decide_eq_true_eq]
    constructor
    · rintro ⟨⟨p, e⟩, hp⟩
      have := (h.cons y p).1 (Or.inl e)
      rw [hp] at this; injection this with this
      rw [this]; exact e
    · intro e
      exact ⟨⟨x, e⟩, (h.cons y x).1 (Or.inl e)⟩
  have hrr : isRightRelation m x (some y) = true ↔ m.right x = some y := by
    simp only [isRightRelation, Bool.and_eq_true, hright, decide_eq_true_eq]
    constructor
    · rintro ⟨⟨p, e⟩, hp⟩
      have := (h.cons y p).1 (Or.inr e)
      rw [hp] at this; injection this with this
      rw [this]; exact e
    · intro e
      exact ⟨⟨x, e⟩, (h.cons y x).1 (Or.inr e)⟩
  refine ⟨?_, ?_, hleft x, hright x, hlr, hrr, ?_, rfl, rfl⟩
  · simp only [isLeaf, hasChild, hasLeft, hasRight, Child]
    cases m.left x <;> cases m.right x <;> simp
    exact ⟨_, fun h => absurd rfl h⟩
  · constructor
    · intro e p hp
      have := (h.cons x p).1 hp
      simp [isRoot, hasParent, this] at e
    · intro hn
      cases e : m.parent x with
      | none => simp [isRoot, hasParent, e]
      | some p => exact absurd ((h.cons x p).2 e) (hn p)
  · simp only [isChildRelation, Bool.or_eq_true, hlr, hrr, Child]

/-- `HasLeft`, `HasRight`, `HasChild`, `HasBothChild`, `HasParent`. -/
theorem C72_has {m : Mem T} (h : Links m) (x : Nat) :
    (hasLeft m x = true ↔ ∃ z, m.left x = some z) ∧ (hasRight m x = true ↔ ∃ z, m.right x = some z) ∧
    (hasChild m x = true ↔ ∃ z, Child m x z) ∧
    (hasBothChild m x = true ↔ ∃ y z, m.left x = some y ∧ m.right x = some z) ∧
    (hasParent m x = true ↔ ∃ p, Child m p x) := by
  have hl : hasLeft m x = true ↔ ∃ z, m.left x = some z := by simp [hasLeft, Option.isSome_iff_exists]
  have hr : hasRight m x = true ↔ ∃ z, m.right x = some z := by simp [hasRight, Option.isSome_iff_exists]
  refine ⟨hl, hr, ?_, ?_, ?_⟩
  · simp only [hasChild, Bool.or_eq_true, hl, hr, Child, exists_or]
  · simp only [hasBothChild, Bool.and_eq_true, hl, hr]
    exact ⟨fun ⟨⟨y, h1⟩, z, h2⟩ => ⟨y, z, h1, h2⟩, fun ⟨y, z, h1, h2⟩ => ⟨⟨y, h1⟩, z, h2⟩⟩
  · simp only [hasParent, Option.isSome_iff_exists]
    exact exists_congr fun p => (h.cons x p).symm

/-! ## C73: `DrawTree` -/

/-- The lines of the text, as the values printed on them. -/
def lines : List (Tok T) → List (List T)
  | [] => [[]]
  | .nl :: r => [] :: lines r
  | .tab :: r => lines r
  | .val v :: r =>
    match lines r with
    | [] => [[v]]
    | l :: ls => (v :: l) :: ls

/-- The lines that are not empty. -/
def shown (out : List (Tok T)) : List (List T) := (lines out).filter (fun l => !l.isEmpty)

def rowToks (m : Mem T) (row : List Nat) : List (Tok T) := row.flatMap (fun x => [.val (m.val x), .tab])

theorem lines_row (m : Mem T) (row : List Nat) (rest : List (Tok T)) :
    lines (rowToks m row ++ .nl :: rest) = row.map m.val :: lines rest := by
  induction row with
  | nil => rfl
  | cons a row ih =>
    show lines (.val (m.val a) :: .tab :: (rowToks m row ++ .nl :: rest)) = _
    simp only [lines, ih, List.map_cons]

theorem lines_last (m : Mem T) (row : List Nat) : lines (rowToks m row) = [row.map m.val] := by
  induction row with
  | nil => rfl
  | cons a row ih =>
    show lines (.val (m.val a) :: .tab :: rowToks m row) = _
    simp only [lines, ih, List.map_cons]

theorem drawLoop_out (m : Mem T) (nodes : List Nat) : ∀ d c out,
    drawLoop m nodes d c out = out ++ drawLoop m nodes d c [] := by
  induction nodes with
  | nil => intro d c out; simp [drawLoop]
  | cons a nodes ih =>
    intro d c out
    simp only [drawLoop]
    by_cases h : d = 0
    · rw [if_pos h, if_pos h, ih, ih _ _ ([] ++ _)]; simp
    · rw [if_neg h, if_neg h]
      by_cases h2 : d * 2 = c + 1
      · rw [if_pos h2, if_pos h2, ih, ih _ _ ([] ++ _ ++ _)]; simp
      · rw [if_neg h2, if_neg h2, ih, ih _ _ ([] ++ _)]; simp

theorem drawLoop_full (m : Mem T) (rest : List Nat) : ∀ (row : List Nat) (d c : Nat), 1 ≤ d → row ≠ [] →
    c + row.length = d * 2 →
    drawLoop m (row ++ rest) d c [] = rowToks m row ++ .nl :: drawLoop m rest (d + 1) 0 [] := by
  intro row
  induction row with
  | nil => intro d c _ h _; exact absurd rfl h
  | cons a row ih =>
    intro d c hd _ hl
    rw [List.cons_append, drawLoop, if_neg (by omega)]
    simp only [List.length_cons] at hl
    cases row with
    | nil =>
      simp only [List.length_nil] at hl
      simp only
      rw [if_pos (by omega), drawLoop_out]; rfl
    | cons b row =>
      simp only [List.length_cons] at hl
      simp only
      rw [if_neg (by omega), drawLoop_out, ih d (c + 1) hd (by simp) (by simp; omega)]
      simp [rowToks]

theorem drawLoop_part (m : Mem T) : ∀ (row : List Nat) (d c : Nat), 1 ≤ d →
    c + row.length < d * 2 → drawLoop m row d c [] = rowToks m row := by
  intro row
  induction row with
  | nil => intro d c _ _; rfl
  | cons a row ih =>
    intro d c hd hl
    simp only [List.length_cons] at hl
    rw [drawLoop, if_neg (by omega)]
    simp only
    rw [if_neg (by omega), drawLoop_out, ih d (c + 1) hd (by omega)]
    simp [rowToks]

theorem drawLoop_rows (m : Mem T) : ∀ (rs : List (List Nat)) (d : Nat), 1 ≤ d → (∀ r ∈ rs, r ≠ []) →
    (∀ i r, rs[i]? = some r → i + 1 < rs.length → r.length = (d + i) * 2) →
    (∀ i r, rs[i]? = some r → r.length ≤ (d + i) * 2) →
    shown (drawLoop m rs.flatten d 0 []) = rs.map (List.map m.val) := by
  intro rs
  induction rs with
  | nil => intro d _ _ _ _; rfl
  | cons r rs ih =>
    intro d hd hne hfull hle
    have hr : r ≠ [] := hne r (by simp)
    have hr' : (r.map m.val).isEmpty = false := by cases r with
      | nil => exact absurd rfl hr
      | cons => rfl
    have h0 := hle 0 r rfl
    by_cases hlen : r.length = d * 2
    · rw [List.flatten_cons, drawLoop_full m _ r d 0 hd hr (by omega), shown, lines_row,
        List.filter_cons, hr']
      have := ih (d + 1) (by omega) (fun r h => hne r (by simp [h]))
        (fun i r h h2 => by
          rw [hfull (i + 1) r (by simpa using h) (by simpa using h2)]; congr 1; omega)
        (fun i r h => by
          have := hle (i + 1) r (by simpa using h)
          rw [show d + 1 + i = d + (i + 1) by omega]; exact this)
      rw [shown] at this
      simp [this]
    · have hnil : rs = [] := by
        cases rs with
        | nil => rfl
        | cons a rs => exact absurd (hfull 0 r rfl (by simp)) (by simpa using hlen)
      subst hnil
      rw [List.flatten_cons, List.flatten_nil, List.append_nil,
        drawLoop_part m r d 0 hd (by omega), shown, lines_last, List.filter_cons, hr']
      simp

/-- What C73 asks for: one line for each layer. -/
def DrawsLayers (m : Mem T) (t : Tr) (p : Option Nat) : Prop := ∃ out,
  Returns (fun fuel => drawTree m fuel p) out ∧
  shown out = (List.range t.height).map (fun d => (t.atDepth d).map m.val)

/-- C73 for trees whose layers `d ≥ 1` have exactly `2d` nodes (the last one at most `2d`): complete
trees with at most 7 nodes, and some others.  What is missing is every other shape, for which the
lines are not the layers. -/
theorem C73_draw_partial {m : Mem T} {t : Tr} {x : Nat} (h : Is m t (some x))
    (hfull : ∀ d, 1 ≤ d → d + 1 < t.height → (t.atDepth d).length = d * 2)
    (hlast : ∀ d, 1 ≤ d → (t.atDepth d).length ≤ d * 2) : DrawsLayers m t (some x) := by
  obtain ⟨F, hF⟩ := C67_bfs h
  refine ⟨drawLoop m ((List.range t.height).map t.atDepth).flatten 0 0 [],
    ⟨F, fun fuel hf => by have := hF fuel hf; simp only at this; simp [drawTree, this]⟩, ?_⟩
  cases t with
  | nil => cases h
  | node a l r =>
    generalize ht : Tr.node a l r = t at *
    obtain ⟨k, hk⟩ : ∃ k, t.height = k + 1 := ⟨max l.height r.height, by rw [← ht]; rfl⟩
    have h0 : t.atDepth 0 = [a] := by rw [← ht]; rfl
    rw [hk, List.range_succ_eq_map, List.map_cons, List.map_cons, List.flatten_cons, h0, List.map_map,
      List.map_map, List.singleton_append, drawLoop, if_pos rfl, drawLoop_out]
    have := drawLoop_rows m ((List.range k).map (t.atDepth ∘ Nat.succ)) 1 (Nat.le_refl _)
      (by
        intro r hr
        obtain ⟨d, hd, rfl⟩ := List.mem_map.1 hr
        rw [List.mem_range] at hd
        exact atDepth_ne t (d + 1) (by omega))
      (by
        intro i r hr hi
        simp only [List.length_map, List.length_range] at hi
        rw [List.getElem?_map, List.getElem?_range (by omega)] at hr
        injection hr with hr
        subst hr
        show (t.atDepth (i + 1)).length = _
        rw [hfull (i + 1) (by omega) (by omega)]; congr 1; omega)
      (by
        intro i r hr
        rcases Nat.lt_or_ge i k with hi | hi
        · rw [List.getElem?_map, List.getElem?_range hi] at hr
          injection hr with hr
          subst hr
          have := hlast (i + 1) (by omega)
          rw [show 1 + i = i + 1 by omega]; exact this
        · rw [List.getElem?_eq_none (by simpa using hi)] at hr; cases hr)
    show shown (.val (m.val a) :: .nl :: drawLoop m _ 1 0 []) = _
    rw [shown] at this ⊢
    simp only [lines, List.filter_cons, List.isEmpty_cons, Bool.not_false, if_true, this,
      List.map_map, List.map_cons, List.map_nil]
    rfl

/-- In every case `DrawTree` prints all values of the tree, in level order. -/
theorem C73_values {m : Mem T} {t : Tr} {p : Option Nat} (h : Is m t p) : ∃ out,
    Returns (fun fuel => drawTree m fuel p) out ∧ (lines out).flatten = t.levels.map m.val := by
  obtain ⟨F, hF⟩ := C67_bfs h
  refine ⟨drawLoop m ((List.range t.height).map t.atDepth).flatten 0 0 [],
    ⟨F, fun fuel hf => by have := hF fuel hf; simp only at this; simp [drawTree, this]⟩, ?_⟩
  have hl : ∀ (v : T) (r : List (Tok T)), (lines (.val v :: r)).flatten = v :: (lines r).flatten := by
    intro v r
    simp only [lines]
    cases lines r <;> rfl
  have key : ∀ (nodes : List Nat) d c,
      (lines (drawLoop m nodes d c [])).flatten = nodes.map m.val := by
    intro nodes
    induction nodes with
    | nil => intro d c; rfl
    | cons a nodes ih =>
      intro d c
      rw [drawLoop]
      split
      · rw [drawLoop_out]
        show (lines (.val (m.val a) :: .nl :: drawLoop m nodes (d + 1) c [])).flatten = _
        rw [hl, lines, List.flatten_cons, ih]; rfl
      · simp only
        split
        · rw [drawLoop_out]
          show (lines (.val (m.val a) :: .tab :: .nl :: drawLoop m nodes (d + 1) 0 [])).flatten = _
          rw [hl, lines, lines, List.flatten_cons, ih]; rfl
        · rw [drawLoop_out]
          show (lines (.val (m.val a) :: .tab :: drawLoop m nodes d (c + 1) [])).flatten = _
          rw [hl, lines, ih]; rfl
  exact key _ 0 0

/-! ## Examples -/

def exT : Mem Nat × Option Nat := (buildTree 20 (Mem.empty 0) [10, 11, 12, 13, 14, 15, 16]).getD (Mem.empty 0, none)

def exTr : Tr := .node 0 (.node 1 (.node 3 .nil .nil) (.node 4 .nil .nil))
  (.node 2 (.node 5 .nil .nil) (.node 6 .nil .nil))

theorem exT_is : Is exT.1 exTr (some 0) := by
  simp only [exTr, Is]; decide

/-- C66: six values. -/
example : ((buildTree 20 (Mem.empty 0) [10, 11, 12, 13, 14, 15]).bind fun r =>
    (traversalBFS r.1 20 r.2).map (List.map r.1.val)) = some [10, 11, 12, 13, 14, 15] := by decide

/-- C67. -/
example : traversalDFS exT.1 20 (some 0) = some [0, 1, 3, 4, 2, 5, 6] ∧
    traversalBFS exT.1 20 (some 0) = some [0, 1, 2, 3, 4, 5, 6] := by decide

/-- C68: a run the partial theorem covers, with a replaced child. -/
example : ∃ m : Mem Nat, PRun 0 [.new 10, .new 11, .new 12, .setLeft 0 (some 1), .setLeft 0 (some 2),
      .setRight 0 (some 1)] m ∧ m.left 0 = some 2 ∧ m.right 0 = some 1 ∧ m.parent 1 = some 0 := by
  refine ⟨_, .snoc (h := [_, _, _, _, _]) (.snoc (h := [_, _, _, _]) (.snoc (h := [_, _, _])
    (.snoc (h := [_, _]) (.snoc (h := [_]) (.snoc (h := []) .nil trivial trivial) trivial trivial)
      trivial trivial) ⟨by decide, ?_⟩ ?_) ⟨by decide, ?_⟩ ?_) ⟨by decide, ?_⟩ ?_, by decide, by decide, by decide⟩ <;>
  · intro x hx
    simp at hx; subst hx; decide

/-- C69. -/
example : layer exT.1 20 (some 6) = some 2 ∧ maxDepth exT.1 20 (some 0) = some 2 ∧ Up exT.1 6 2 :=
  ⟨by decide, by decide, .step (p := 2) (by decide) (.step (p := 0) (by decide) (.root (by decide)))⟩

/-- C70, C71. -/
example : isAncestorRelation exT.1 20 (some 0) (some 6) = some true ∧
    isAncestorRelation exT.1 20 (some 1) (some 6) = some false ∧
    isDescendantRelation exT.1 20 (some 6) (some 0) = some false ∧ Anc exT.1 0 6 :=
  ⟨by decide, by decide, by decide, .step (p := 2) (by decide) (.step (p := 0) (by decide) .refl)⟩

/-- C72. -/
example : sibling exT.1 3 = some (some 4) ∧ uncle exT.1 3 = some (some 2) ∧
    grandparent exT.1 3 = some (some 0) ∧ uncle exT.1 1 = some none := by decide

/-- C73: seven nodes are drawn as three lines. -/
example : DrawsLayers exT.1 exTr (some 0) :=
  C73_draw_partial exT_is
    (by
      intro d h1 h2
      have : d = 1 := by simp [exTr, Tr.height] at h2; omega
      subst this; decide)
    (by
      intro d h1
      rcases Nat.lt_or_ge d 3 with h | h
      · have : d = 1 ∨ d = 2 := by omega
        rcases this with rfl | rfl <;> decide
      · rw [atDepth_height exTr d (by simpa [exTr, Tr.height] using h)]; simp)

def exD : Mem Nat × Option Nat :=
  (buildTree 20 (Mem.empty 0) [0, 1, 2, 3, 4, 5, 6, 7, 8, 9, 10, 11, 12, 13, 14]).getD (Mem.empty 0, none)

def exDr : Tr :=
  let q (a b c : Nat) : Tr := .node a (.node b .nil .nil) (.node c .nil .nil)
  .node 0 (.node 1 (q 3 7 8) (q 4 9 10)) (.node 2 (q 5 11 12) (q 6 13 14))

/-- C73 fails for the full tree with 15 nodes: its last layer is printed on two lines. -/
theorem C73_draw_false : Is exD.1 exDr (some 0) ∧ ¬ DrawsLayers exD.1 exDr (some 0) := by
  refine ⟨by simp only [exDr, Is]; decide, ?_⟩
  rintro ⟨out, ⟨F, hF⟩, h⟩
  have h1 : Returns (fun fuel => drawTree exD.1 fuel (some 0))
      (drawLoop exD.1 exDr.levels 0 0 []) := by
    obtain ⟨G, hG⟩ := C67_bfs (m := exD.1) (t := exDr) (p := some 0) (by simp only [exDr, Is]; decide)
    exact ⟨G, fun fuel hf => by have := hG fuel hf; simp only at this; simp [drawTree, this, Tr.levels]⟩
  have e := Returns.det ⟨F, hF⟩ h1
  subst e
  have := congrArg List.length h
  exact absurd this (by decide)

end Verif.Tree
