import Verif.Tree.Props
/-!
# `tree`: which calls come to an end (C128)

`SetLeft` and `SetRight` take any node, also the receiver itself or a node above it.
-/
namespace Verif.Tree
variable {T : Type}

/-- The call does not come to an end (however much fuel it is given, it does not return; none of the calls below panics on a node). -/
def Diverges {β : Type} (f : Nat → Option β) : Prop := ∀ fuel, f fuel = none

/-- An endless way down from `x`. -/
def EndlessDown (m : Mem T) (x : Nat) : Prop := ∃ f : Nat → Nat, f 0 = x ∧ ∀ i, Child m (f i) (f (i + 1))

/-- An endless way up from `x`. -/
def EndlessUp (m : Mem T) (x : Nat) : Prop := ∃ f : Nat → Nat, f 0 = x ∧ ∀ i, m.parent (f i) = some (f (i + 1))

/-- `y` is `x` or below it. -/
inductive Below (m : Mem T) : Nat → Nat → Prop
  | refl {x} : Below m x x
  | step {x c y} : Child m x c → Below m c y → Below m x y

/-! ## Trees are what one can walk through -/

theorem Is.child {m : Mem T} {t : Tr} {x c : Nat} (h : Is m t (some x)) (hc : Child m x c) :
    ∃ t', Is m t' (some c) ∧ t'.size < t.size := by
  cases t with
  | nil => cases h
  | node a l r =>
    obtain ⟨e, hl, hr⟩ := h
    cases e
    rcases hc with hc | hc
    · rw [hc] at hl; exact ⟨l, hl, by simp only [Tr.size]; omega⟩
    · rw [hc] at hr; exact ⟨r, hr, by simp only [Tr.size]; omega⟩

theorem Is.below {m : Mem T} {x y : Nat} (hb : Below m x y) : ∀ {t : Tr}, Is m t (some x) → ∃ t', Is m t' (some y) ∧ t'.size ≤ t.size := by
  induction hb with
  | refl => exact fun h => ⟨_, h, Nat.le_refl _⟩
  | step hc _ ih =>
    intro t h
    obtain ⟨t1, h1, h2⟩ := h.child hc
    obtain ⟨t2, h3, h4⟩ := ih h1
    exact ⟨t2, h3, by omega⟩

theorem Is.det {m : Mem T} : ∀ {t t' : Tr} {p : Option Nat}, Is m t p → Is m t' p → t = t'
  | .nil, .nil, _, _, _ => rfl
  | .nil, .node _ _ _, p, h, h' => by have h : p = none := h; subst h; cases h'.1
  | .node _ _ _, .nil, p, h, h' => by have h' : p = none := h'; subst h'; cases h.1
  | .node a l r, .node b l' r', p, h, h' => by
    obtain ⟨e, hl, hr⟩ := h
    obtain ⟨e', hl', hr'⟩ := h'
    subst e; cases e'
    rw [Is.det hl hl', Is.det hr hr']

theorem Is.noLoop {m : Mem T} {t : Tr} {x c : Nat} (h : Is m t (some x)) (hc : Child m x c) (hb : Below m c x) : False := by
  obtain ⟨t1, h1, h2⟩ := h.child hc
  obtain ⟨t2, h3, h4⟩ := h1.below hb
  have := h.det h3
  subst this; omega

theorem Is.optional {m : Mem T} {p : Option Nat} (h : ∀ c, p = some c → ∃ t, Is m t (some c)) : ∃ t, Is m t p := by
  cases p with
  | none => exact ⟨.nil, rfl⟩
  | some c => exact h c rfl

theorem Is.ofChildren {m : Mem T} {x : Nat} (h : ∀ c, Child m x c → ∃ t, Is m t (some c)) : ∃ t, Is m t (some x) := by
  obtain ⟨l, hl⟩ := Is.optional (p := m.left x) fun c hc => h c (.inl hc)
  obtain ⟨r, hr⟩ := Is.optional (p := m.right x) fun c hc => h c (.inr hc)
  exact ⟨.node x l r, rfl, hl, hr⟩

/-- There is a finite tree below `x`, or an endless way down from it, and not both. -/
theorem tree_or_endless (m : Mem T) (x : Nat) : (∃ t, Is m t (some x)) ↔ ¬ EndlessDown m x := by
  constructor
  · rintro ⟨t, h⟩ ⟨f, rfl, hf⟩
    have key : ∀ (n : Nat) (t : Tr), t.size ≤ n → ∀ i, ¬ Is m t (some (f i)) := by
      intro n
      induction n with
      | zero => intro t ht i h; obtain ⟨t', _, h'⟩ := h.child (hf i); omega
      | succ n ih => intro t ht i h; obtain ⟨t', h1, h'⟩ := h.child (hf i); exact ih t' (by omega) _ h1
    exact key _ t (Nat.le_refl _) 0 h
  · intro hn
    refine Classical.byContradiction fun hx => hn ?_
    have next : ∀ y : { y : Nat // ¬ ∃ t, Is m t (some y) }, ∃ c : { y : Nat // ¬ ∃ t, Is m t (some y) }, Child m y.1 c.1 := by
      rintro ⟨y, hy⟩
      refine Classical.byContradiction fun h => hy (Is.ofChildren fun c hc => ?_)
      exact Classical.byContradiction fun h' => h ⟨⟨c, h'⟩, hc⟩
    let g : Nat → { y : Nat // ¬ ∃ t, Is m t (some y) } := fun n => Nat.rec ⟨x, hx⟩ (fun _ y => (next y).choose) n
    exact ⟨fun i => (g i).1, rfl, fun i => (next (g i)).choose_spec⟩

theorem is_of_maxDepth {m : Mem T} : ∀ (k : Nat) (p : Option Nat) (d : Nat), maxDepth m k p = some d → ∃ t, Is m t p
  | 0, p, d, h => by cases h
  | k + 1, none, d, h => ⟨.nil, rfl⟩
  | k + 1, some n, d, h => by
    simp only [maxDepth] at h
    split at h
    next hl =>
      simp only [isLeaf, hasChild, hasLeft, hasRight, Bool.not_eq_true', Bool.or_eq_false_iff,
        Option.isSome_eq_false_iff, Option.isNone_iff_eq_none] at hl
      exact ⟨.node n .nil .nil, rfl, hl.1, hl.2⟩
    next =>
      simp only [Option.bind_eq_bind, Option.bind_eq_some_iff] at h
      obtain ⟨a, ha, b, hb, _⟩ := h
      obtain ⟨l, hl⟩ := is_of_maxDepth k _ _ ha
      obtain ⟨r, hr⟩ := is_of_maxDepth k _ _ hb
      exact ⟨.node n l r, rfl, hl, hr⟩

theorem is_of_bfs {m : Mem T} : ∀ (k : Nat) (p : Option Nat) (val r : List (List Nat)) (level : Nat), bfsRec m k p val level = some r → ∃ t, Is m t p
  | 0, p, val, r, level, h => by cases h
  | k + 1, none, val, r, level, h => ⟨.nil, rfl⟩
  | k + 1, some n, val, r, level, h => by
    simp only [bfsRec, Option.bind_eq_bind, Option.bind_eq_some_iff] at h
    obtain ⟨v1, _, v2, ha, hb⟩ := h
    obtain ⟨l, hl⟩ := is_of_bfs k _ _ _ _ ha
    obtain ⟨r, hr⟩ := is_of_bfs k _ _ _ _ hb
    exact ⟨.node n l r, rfl, hl, hr⟩

theorem is_of_dfs {m : Mem T} : ∀ (k : Nat) (queue res r : List Nat), dfsLoop m k queue res = some r → ∀ q ∈ queue, ∃ t, Is m t (some q)
  | 0, queue, res, r, h => by cases h
  | k + 1, [], res, r, h => by simp
  | k + 1, node :: queue, res, r, h => by
    simp only [dfsLoop] at h
    have ih := is_of_dfs k _ _ _ h
    intro q hq
    rcases List.mem_cons.1 hq with rfl | hq
    · refine Is.ofChildren fun c hc => ih c ?_
      rcases hc with hc | hc
      · simp [hc]
      · cases h2 : m.left q <;> simp [hc]
    · refine ih q ?_
      cases h1 : m.right node <;> cases h2 : m.left node <;> simp [hq]

/-! ## The ways up -/

theorem up_or_endless (m : Mem T) (x : Nat) : (∃ k, Up m x k) ↔ ¬ EndlessUp m x := by
  constructor
  · rintro ⟨k, h⟩ ⟨f, rfl, hf⟩
    have key : ∀ (n i : Nat), ¬ Up m (f i) n := by
      intro n
      induction n with
      | zero => intro i h; cases h with | root h => rw [hf i] at h; cases h
      | succ n ih =>
        intro i h
        cases h with
        | step h h' => rw [hf i] at h; cases h; exact ih _ h'
    exact key k 0 h
  · intro hn
    refine Classical.byContradiction fun hx => hn ?_
    have next : ∀ y : { y : Nat // ¬ ∃ k, Up m y k }, ∃ c : { y : Nat // ¬ ∃ k, Up m y k }, m.parent y.1 = some c.1 := by
      rintro ⟨y, hy⟩
      cases hp : m.parent y with
      | none => exact absurd ⟨0, .root hp⟩ hy
      | some p => exact ⟨⟨p, fun ⟨k, h⟩ => hy ⟨k + 1, .step hp h⟩⟩, rfl⟩
    let g : Nat → { y : Nat // ¬ ∃ k, Up m y k } := fun n => Nat.rec ⟨x, hx⟩ (fun _ y => (next y).choose) n
    exact ⟨fun i => (g i).1, rfl, fun i => (next (g i)).choose_spec⟩

theorem up_of_layer {m : Mem T} : ∀ (k x : Nat) (d : Int), layer m k (some x) = some d → ∃ k, Up m x k
  | 0, x, d, h => by cases h
  | k + 1, x, d, h => by
    simp only [layer] at h
    split at h
    next hr =>
      simp only [isRoot, hasParent, Bool.not_eq_true', Option.isSome_eq_false_iff, Option.isNone_iff_eq_none] at hr
      exact ⟨0, .root hr⟩
    next hr =>
      simp only [Option.bind_eq_bind, Option.bind_eq_some_iff] at h
      obtain ⟨l, hl, _⟩ := h
      cases hp : m.parent x with
      | none => simp [isRoot, hasParent, hp] at hr
      | some p =>
        rw [hp] at hl
        obtain ⟨j, hj⟩ := up_of_layer k p l hl
        exact ⟨j + 1, .step hp hj⟩

theorem anc_loop {m : Mem T} {n : Nat} : ∀ (k x : Nat) (b : Bool), ancLoop m (some n) k (some x) = some b → Anc m n x ∨ ∃ k, Up m x k
  | 0, x, b, h => by cases h
  | k + 1, x, b, h => by
    simp only [ancLoop] at h
    split at h
    next e => cases e; exact .inl .refl
    next =>
      cases hp : m.parent x with
      | none => exact .inr ⟨0, .root hp⟩
      | some p =>
        rw [hp] at h
        rcases anc_loop k p b h with h | ⟨j, h⟩
        · exact .inl (.step hp h)
        · exact .inr ⟨j + 1, .step hp h⟩

theorem anc_returns {m : Mem T} {n x : Nat} (h : Anc m n x) : ∃ F, ∀ fuel, F ≤ fuel → ancLoop m (some n) fuel (some x) = some true := by
  induction h with
  | refl => exact ⟨1, fun fuel hf => by obtain ⟨k, rfl⟩ : ∃ k, fuel = k + 1 := ⟨fuel - 1, by omega⟩; simp [ancLoop]⟩
  | @step x p hp _ ih =>
    obtain ⟨F, ih⟩ := ih
    refine ⟨F + 1, fun fuel hf => ?_⟩
    obtain ⟨k, rfl⟩ : ∃ k, fuel = k + 1 := ⟨fuel - 1, by omega⟩
    simp only [ancLoop]
    split
    · rfl
    · rw [hp]; exact ih k (by omega)

/-! ## C128 -/

theorem Diverges.not_returns {β : Type} {f : Nat → Option β} (h : Diverges f) (r : β) : ¬ Returns f r := by
  rintro ⟨F, hF⟩; have := hF F (Nat.le_refl _); rw [h F] at this; cases this

open Classical in
/-- C128: `MaxDepth`, `TraversalDFS`, `TraversalBFS` (and so `DrawTree`) of a node return, if there is no endless way down from it; otherwise
they run forever.  `Layer` and `IsAncestorRelation` likewise with the ways up; the latter also returns when it meets the receiver. -/
theorem C128_exact (m : Mem T) (x n : Nat) :
    (if EndlessDown m x then
      Diverges (fun fuel => maxDepth m fuel (some x)) ∧ Diverges (fun fuel => traversalDFS m fuel (some x)) ∧
        Diverges (fun fuel => traversalBFS m fuel (some x)) ∧ Diverges (fun fuel => drawTree m fuel (some x))
    else
      (∃ r, Returns (fun fuel => maxDepth m fuel (some x)) r) ∧ (∃ r, Returns (fun fuel => traversalDFS m fuel (some x)) r) ∧
        (∃ r, Returns (fun fuel => traversalBFS m fuel (some x)) r) ∧ ∃ r, Returns (fun fuel => drawTree m fuel (some x)) r) ∧
    (if EndlessUp m x then Diverges (fun fuel => layer m fuel (some x)) else ∃ r, Returns (fun fuel => layer m fuel (some x)) r) ∧
    (if EndlessUp m x ∧ ¬ Anc m n x then Diverges (fun fuel => isAncestorRelation m fuel (some n) (some x))
      else ∃ r, Returns (fun fuel => isAncestorRelation m fuel (some n) (some x)) r) := by
  have no : ∀ {β : Type} {o : Option β}, (∀ r, o = some r → False) → o = none := by
    intro β o h; cases o with
    | none => rfl
    | some r => exact (h r rfl).elim
  refine ⟨?_, ?_, ?_⟩
  · split
    next h =>
      have ht : ¬ ∃ t, Is m t (some x) := fun ht => (tree_or_endless m x).1 ht h
      have hb : Diverges (fun fuel => traversalBFS m fuel (some x)) := fun fuel => no fun r hr => by
        simp only [traversalBFS, Option.bind_eq_bind, Option.bind_eq_some_iff] at hr
        obtain ⟨r', hr, _⟩ := hr
        exact ht (is_of_bfs _ _ _ _ _ hr)
      refine ⟨fun fuel => no fun r hr => ht (is_of_maxDepth _ _ _ hr), fun fuel => no fun r hr => ?_, hb, fun fuel => ?_⟩
      · simp only [traversalDFS, Option.bind_eq_bind, Option.bind_some] at hr
        split at hr
        next hl =>
          simp only [isLeaf, hasChild, hasLeft, hasRight, Bool.not_eq_true', Bool.or_eq_false_iff,
            Option.isSome_eq_false_iff, Option.isNone_iff_eq_none] at hl
          exact ht ⟨.node x .nil .nil, rfl, hl.1, hl.2⟩
        · exact ht (is_of_dfs _ _ _ _ hr x (by simp))
      · have := hb fuel
        simp only at this
        simp only [drawTree, this]; rfl
    next h =>
      obtain ⟨t, ht⟩ := (tree_or_endless m x).2 h
      obtain ⟨d, hd, _⟩ := C69_maxDepth ht
      obtain ⟨o, ho⟩ := C73_values ht
      exact ⟨⟨_, hd⟩, ⟨_, C67_dfs ht⟩, ⟨_, C67_bfs ht⟩, ⟨o, ho.1⟩⟩
  · split
    next h => exact fun fuel => no fun r hr => (up_or_endless m x).1 (up_of_layer _ _ _ hr) h
    next h => obtain ⟨k, hk⟩ := (up_or_endless m x).2 h; exact ⟨_, C69_layer hk⟩
  · split
    next h =>
      refine fun fuel => no fun r hr => ?_
      simp only [isAncestorRelation, reduceCtorEq, if_false] at hr
      rcases anc_loop _ _ _ hr with h' | h'
      · exact h.2 h'
      · exact (up_or_endless m x).1 h' h.1
    next h =>
      by_cases ha : Anc m n x
      · obtain ⟨F, hF⟩ := anc_returns ha
        exact ⟨true, F, fun fuel hf => by simpa [isAncestorRelation] using hF fuel hf⟩
      · have : ¬ EndlessUp m x := fun h' => h ⟨h', ha⟩
        obtain ⟨k, hk⟩ := (up_or_endless m x).2 this
        obtain ⟨b, hb, _⟩ := C70_ancestor hk n
        exact ⟨b, hb⟩

/-! ### Histories -/

/-- No endless way down or up anywhere. -/
def Ends (m : Mem T) : Prop := ∀ x, ¬ EndlessDown m x ∧ ¬ EndlessUp m x

/-- C128, as one would like it: whatever was linked, calls come to an end. -/
def C128_statement : Prop := ∀ (h : List (LOp Nat)) (m : Mem Nat), LRun 0 h m → ∀ x, ∃ r, Returns (fun fuel => maxDepth m fuel (some x)) r

/-- C128 is false: a node that is its own child. -/
theorem C128_false : ¬ C128_statement := by
  intro H
  have hr : LRun 0 [.new 10, .setLeft 0 (some 0)] (lexec (lexec (Mem.empty 0) (.new 10)) (.setLeft 0 (some 0))) := by
    refine .snoc (h := [_]) (.snoc (h := []) .nil trivial) ⟨by decide, ?_⟩
    intro x hx
    simp at hx; subst hx; decide
  obtain ⟨r, hr⟩ := H _ _ hr 0
  refine Diverges.not_returns ?_ r hr
  have := (C128_exact (lexec (lexec (Mem.empty 0) (.new 10)) (.setLeft 0 (some 0))) 0 0).1
  rw [if_pos ⟨fun _ => 0, rfl, fun _ => .inl rfl⟩] at this
  exact this.1

/-- The call closes no loop: the receiver is not the new child nor below it. -/
def LOp.Loopless (m : Mem T) : LOp T → Prop
  | .new _ => True
  | .setLeft n c | .setRight n c => ∀ x ∈ c, ¬ Below m x n

inductive ARun (d : T) : List (LOp T) → Mem T → Prop
  | nil : ARun d [] (Mem.empty d)
  | snoc {h m op} : ARun d h m → LOp.Ok m op → LOp.Loopless m op → ARun d (h ++ [op]) (lexec m op)

/-- A memory that differs in the children of `n` only. -/
theorem Is.other {m m' : Mem T} {n : Nat} (hl : ∀ y, y ≠ n → m'.left y = m.left y) (hr : ∀ y, y ≠ n → m'.right y = m.right y) :
    ∀ {t : Tr} {p : Option Nat}, (∀ x, p = some x → ¬ Below m x n) → Is m t p → Is m' t p
  | .nil, _, _, h => h
  | .node a l r, p, hb, h => by
    obtain ⟨rfl, h1, h2⟩ := h
    have ha : a ≠ n := fun e => hb a rfl (by rw [e]; exact .refl)
    refine ⟨rfl, ?_, ?_⟩
    · rw [hl a ha]; exact Is.other hl hr (fun x hx hx' => hb a rfl (.step (.inl hx) hx')) h1
    · rw [hr a ha]; exact Is.other hl hr (fun x hx hx' => hb a rfl (.step (.inr hx) hx')) h2

/-- All nodes have finite trees below them. -/
def Fin (m : Mem T) : Prop := ∀ x, ∃ t, Is m t (some x)

/-- New children for `n`, none of which has `n` below it. -/
theorem Fin.change {m m' : Mem T} {n : Nat} (hf : Fin m) (hl : ∀ y, y ≠ n → m'.left y = m.left y) (hr : ∀ y, y ≠ n → m'.right y = m.right y)
    (hc : ∀ c, Child m' n c → ¬ Below m c n) : Fin m' := by
  have hn : ∃ t, Is m' t (some n) := Is.ofChildren fun c h => by
    obtain ⟨t, ht⟩ := hf c
    exact ⟨t, ht.other hl hr (fun x hx => by cases hx; exact hc c h)⟩
  intro x
  obtain ⟨t, ht⟩ := hf x
  have key : ∀ (k : Nat) (t : Tr) (x : Nat), t.size ≤ k → Is m t (some x) → ∃ t', Is m' t' (some x) := by
    intro k
    induction k with
    | zero => intro t x hs h; cases t with
      | nil => cases h
      | node => simp [Tr.size] at hs
    | succ k ih =>
      intro t x hs h
      by_cases e : x = n
      · subst e; exact hn
      · refine Is.ofChildren fun c hcx => ?_
        have : Child m x c := by
          rcases hcx with hcx | hcx
          · exact .inl (by rw [← hl x e]; exact hcx)
          · exact .inr (by rw [← hr x e]; exact hcx)
        obtain ⟨t', h1, h2⟩ := h.child this
        exact ih t' c (by omega) h1
  exact key _ t x (Nat.le_refl _) ht

/-- The parent of a node has it as a child. -/
def UpDown (m : Mem T) : Prop := ∀ x p, m.parent x = some p → Child m p x ∧ p < m.fresh

theorem UpDown.lexec {m : Mem T} (h : UpDown m) {op : LOp T} (hok : LOp.Ok m op) (hfr : ∀ y, m.fresh ≤ y → m.left y = none ∧ m.right y = none) :
    UpDown (lexec m op) := by
  cases op with
  | new v =>
    intro x p hp
    simp only [Tree.lexec, newNode, upd] at hp ⊢
    split at hp
    · cases hp
    next hx =>
      obtain ⟨h1, h2⟩ := h x p hp
      refine ⟨?_, by omega⟩
      have : p ≠ m.fresh := by omega
      rcases h1 with h1 | h1
      · exact .inl (by simp [upd, this, h1])
      · exact .inr (by simp [upd, this, h1])
  | setLeft n c =>
    intro x p hp
    simp only [Tree.lexec] at hp ⊢
    rw [setLeft_fresh]
    rw [setLeft_parent] at hp
    simp only [Child, setLeft_left, setLeft_right]
    split at hp
    next hc => cases hp; exact ⟨.inl (by simp [hc]), hok.1⟩
    next hc =>
      split at hp
      · cases hp
      next ho =>
        obtain ⟨h1, h2⟩ := h x p hp
        refine ⟨?_, h2⟩
        rcases h1 with h1 | h1
        · refine .inl ?_
          rw [if_neg (fun e => ho (by rw [← e]; exact h1))]; exact h1
        · exact .inr h1
  | setRight n c =>
    intro x p hp
    simp only [Tree.lexec] at hp ⊢
    rw [setRight_fresh]
    rw [setRight_parent] at hp
    simp only [Child, setRight_left, setRight_right]
    split at hp
    next hc => cases hp; exact ⟨.inr (by simp [hc]), hok.1⟩
    next hc =>
      split at hp
      · cases hp
      next ho =>
        obtain ⟨h1, h2⟩ := h x p hp
        refine ⟨?_, h2⟩
        rcases h1 with h1 | h1
        · exact .inl h1
        · refine .inr ?_
          rw [if_neg (fun e => ho (by rw [← e]; exact h1))]; exact h1

theorem lexec_free {m : Mem T} {op : LOp T} (hok : LOp.Ok m op) (h : ∀ y, m.fresh ≤ y → m.left y = none ∧ m.right y = none) :
    ∀ y, (lexec m op).fresh ≤ y → (lexec m op).left y = none ∧ (lexec m op).right y = none := by
  cases op with
  | new v =>
    intro y hy
    simp only [lexec, newNode, upd] at hy ⊢
    rw [if_neg (by omega), if_neg (by omega)]
    exact h y (by omega)
  | setLeft n c =>
    intro y hy
    have := hok.1
    simp only [lexec, setLeft_fresh] at hy
    simp only [lexec, setLeft_left, setLeft_right]
    rw [if_neg (by omega)]; exact h y hy
  | setRight n c =>
    intro y hy
    have := hok.1
    simp only [lexec, setRight_fresh] at hy
    simp only [lexec, setRight_left, setRight_right]
    rw [if_neg (by omega)]; exact h y hy

theorem Fin.lexec {m : Mem T} (hf : Fin m) {op : LOp T} (hok : LOp.Ok m op) (hl : LOp.Loopless m op)
    (hfr : ∀ y, m.fresh ≤ y → m.left y = none ∧ m.right y = none) : Fin (lexec m op) := by
  cases op with
  | new v =>
    refine hf.change (n := m.fresh) (fun y hy => ?_) (fun y hy => ?_) (fun c hc => ?_)
    · simp [Tree.lexec, newNode, upd, hy]
    · simp [Tree.lexec, newNode, upd, hy]
    · simp [Tree.lexec, newNode, upd, Child] at hc
  | setLeft n c =>
    refine hf.change (n := n) (fun y hy => ?_) (fun y hy => ?_) (fun x hx => ?_)
    · simp [Tree.lexec, setLeft_left, hy]
    · simp [Tree.lexec, setLeft_right]
    · simp only [Tree.lexec, Child, setLeft_left, setLeft_right, if_true] at hx
      rcases hx with hx | hx
      · exact hl x hx
      · obtain ⟨t, ht⟩ := hf n
        exact fun hb => ht.noLoop (.inr hx) hb
  | setRight n c =>
    refine hf.change (n := n) (fun y hy => ?_) (fun y hy => ?_) (fun x hx => ?_)
    · simp [Tree.lexec, setRight_left]
    · simp [Tree.lexec, setRight_right, hy]
    · simp only [Tree.lexec, Child, setRight_left, setRight_right, if_true] at hx
      rcases hx with hx | hx
      · obtain ⟨t, ht⟩ := hf n
        exact fun hb => ht.noLoop (.inl hx) hb
      · exact hl x hx

/-- Without endless ways down there are none up: the trees get larger, and there are finitely many nodes. -/
theorem Fin.ends {m : Mem T} (hf : Fin m) (hu : UpDown m) : Ends m := by
  refine fun x => ⟨(tree_or_endless m x).1 (hf x), ?_⟩
  rintro ⟨f, rfl, hp⟩
  have hb : ∀ i, f (i + 1) < m.fresh := fun i => (hu _ _ (hp i)).2
  have hs : ∀ (i : Nat) (t : Tr), Is m t (some (f (i + 1))) → i < t.size := by
    intro i
    induction i with
    | zero => intro t ht; cases t with
      | nil => cases ht
      | node => simp [Tr.size]
    | succ i ih =>
      intro t ht
      obtain ⟨t', h1, h2⟩ := ht.child (hu _ _ (hp (i + 1))).1
      have := ih t' h1
      omega
  have hmax : ∀ k : Nat, ∃ S, ∀ x, x < k → ∀ t, Is m t (some x) → t.size ≤ S := by
    intro k
    induction k with
    | zero => exact ⟨0, fun x hx => absurd hx (Nat.not_lt_zero _)⟩
    | succ k ih =>
      obtain ⟨S, hS⟩ := ih
      obtain ⟨t, ht⟩ := hf k
      refine ⟨max S t.size, fun x hx t' ht' => ?_⟩
      rcases Nat.lt_succ_iff_lt_or_eq.1 hx with hx | rfl
      · have := hS x hx t' ht'; omega
      · rw [ht.det ht']; omega
  obtain ⟨S, hS⟩ := hmax m.fresh
  obtain ⟨t, ht⟩ := hf (f (S + 1))
  have := hS _ (hb S) t ht
  have := hs S t ht
  omega

/-- C128, what holds: after any calls of `SetLeft` and `SetRight` that close no loop (a node may still get several parents) all calls on
all nodes come to an end. -/
theorem C128_partial {d : T} {h : List (LOp T)} {m : Mem T} (hr : ARun d h m) (x n : Nat) :
    (∃ r, Returns (fun fuel => maxDepth m fuel (some x)) r) ∧ (∃ r, Returns (fun fuel => traversalDFS m fuel (some x)) r) ∧
    (∃ r, Returns (fun fuel => traversalBFS m fuel (some x)) r) ∧ (∃ r, Returns (fun fuel => drawTree m fuel (some x)) r) ∧
    (∃ r, Returns (fun fuel => layer m fuel (some x)) r) ∧ ∃ r, Returns (fun fuel => isAncestorRelation m fuel (some n) (some x)) r := by
  have inv : Fin m ∧ UpDown m ∧ ∀ y, m.fresh ≤ y → m.left y = none ∧ m.right y = none := by
    clear x n
    induction hr with
    | nil =>
      refine ⟨fun x => ⟨.node x .nil .nil, rfl, rfl, rfl⟩, ?_, fun _ _ => ⟨rfl, rfl⟩⟩
      intro x p h; simp [Mem.empty] at h
    | snoc _ hok hl ih =>
      obtain ⟨h1, h2, h3⟩ := ih
      exact ⟨h1.lexec hok hl h3, h2.lexec hok h3, lexec_free hok h3⟩
  obtain ⟨hd, hu⟩ := inv.1.ends inv.2.1 x
  obtain ⟨h1, h2, h3⟩ := C128_exact m x n
  rw [if_neg hd] at h1
  rw [if_neg hu] at h2
  rw [if_neg (fun h => hu h.1)] at h3
  exact ⟨h1.1, h1.2.1, h1.2.2.1, h1.2.2.2, h2, h3⟩

theorem Below.first {m m' : Mem T} {n : Nat} (hl : ∀ y, y ≠ n → m'.left y = m.left y) (hr : ∀ y, y ≠ n → m'.right y = m.right y)
    {x : Nat} (h : Below m x n) : Below m' x n := by
  induction h with
  | refl => exact .refl
  | @step x c y hc _ ih =>
    by_cases e : x = y
    · subst e; exact .refl
    · refine .step ?_ (ih hl hr)
      rcases hc with hc | hc
      · exact .inl (by rw [hl x e]; exact hc)
      · exact .inr (by rw [hr x e]; exact hc)

/-- C128: and one call that closes a loop is enough to make calls run forever: from a state without endless ways, `SetLeft` and `SetRight`
lead to one without endless ways down exactly if the receiver is not the new child nor below it. -/
theorem C128_call {m : Mem T} (hf : ∀ x, ¬ EndlessDown m x) (n c : Nat) :
    ((∀ x, ¬ EndlessDown (setLeft m n (some c)).1 x) ↔ ¬ Below m c n) ∧
    ((∀ x, ¬ EndlessDown (setRight m n (some c)).1 x) ↔ ¬ Below m c n) := by
  have hfin : Fin m := fun x => (tree_or_endless m x).2 (hf x)
  constructor
  · have e1 : ∀ y, y ≠ n → (setLeft m n (some c)).1.left y = m.left y := fun y hy => by simp [setLeft_left, hy]
    have e2 : ∀ y, y ≠ n → (setLeft m n (some c)).1.right y = m.right y := fun y hy => by simp [setLeft_right]
    constructor
    · intro h hb
      obtain ⟨t, ht⟩ := (tree_or_endless _ n).2 (h n)
      exact ht.noLoop (c := c) (.inl (by simp [setLeft_left])) (hb.first e1 e2)
    · intro hb x
      refine (tree_or_endless _ x).1 (hfin.change e1 e2 (fun y hy => ?_) x)
      simp only [Child, setLeft_left, setLeft_right, if_true] at hy
      rcases hy with hy | hy
      · cases hy; exact hb
      · obtain ⟨t, ht⟩ := hfin n
        exact fun hb => ht.noLoop (.inr hy) hb
  · have e1 : ∀ y, y ≠ n → (setRight m n (some c)).1.left y = m.left y := fun y hy => by simp [setRight_left]
    have e2 : ∀ y, y ≠ n → (setRight m n (some c)).1.right y = m.right y := fun y hy => by simp [setRight_right, hy]
    constructor
    · intro h hb
      obtain ⟨t, ht⟩ := (tree_or_endless _ n).2 (h n)
      exact ht.noLoop (c := c) (.inr (by simp [setRight_right])) (hb.first e1 e2)
    · intro hb x
      refine (tree_or_endless _ x).1 (hfin.change e1 e2 (fun y hy => ?_) x)
      simp only [Child, setRight_left, setRight_right, if_true] at hy
      rcases hy with hy | hy
      · obtain ⟨t, ht⟩ := hfin n
        exact fun hb => ht.noLoop (.inl hy) hb
      · cases hy; exact hb

/-! ### Examples -/

/-- Node 2 is below both 0 and 1, node 1 below 0: no tree, but no loop. -/
def exShared : Mem Nat := [LOp.new 10, .new 11, .new 12, .setLeft 0 (some 1), .setRight 0 (some 2), .setLeft 1 (some 2)].foldl lexec (Mem.empty 0)
example : Is exShared (.node 0 (.node 1 (.node 2 .nil .nil) .nil) (.node 2 .nil .nil)) (some 0) := by
  simp [Is, exShared, lexec, newNode, setLeft, setRight, setParent, upd, Mem.empty]
example : traversalDFS exShared 10 (some 0) = some [0, 1, 2, 2] ∧ layer exShared 10 (some 2) = some 2 := by decide +kernel
/-- The grandchild becomes the parent. -/
def exLoop : Mem Nat := [LOp.new 10, .new 11, .new 12, .setLeft 0 (some 1), .setRight 1 (some 2), .setLeft 2 (some 0)].foldl lexec (Mem.empty 0)
example : EndlessDown exLoop 0 ∧ maxDepth exLoop 50 (some 0) = none ∧ isAncestorRelation exLoop 50 (some 1) (some 0) = some true := by
  refine ⟨⟨fun i => i % 3, rfl, fun i => ?_⟩, by decide +kernel, by decide +kernel⟩
  have : i % 3 = 0 ∨ i % 3 = 1 ∨ i % 3 = 2 := by omega
  rcases this with h | h | h
  · have h' : (i + 1) % 3 = 1 := by omega
    simp only [h, h']; exact .inl (by decide +kernel)
  · have h' : (i + 1) % 3 = 2 := by omega
    simp only [h, h']; exact .inr (by decide +kernel)
  · have h' : (i + 1) % 3 = 0 := by omega
    simp only [h, h']; exact .inl (by decide +kernel)
end Verif.Tree
