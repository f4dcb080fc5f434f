import Mathlib.Logic.Relation
import Verif.Tree.Ends
/-!
# What tree nodes keep from being collected (C182)
-/
namespace Verif.Tree
variable {T : Type} {m m' : Mem T}

/-- Node `x` has a reference to `y`: tree.go:10-13. -/
def Refers (m : Mem T) (x y : Nat) : Prop := m.parent x = some y ∨ m.left x = some y ∨ m.right x = some y

/-- Who has a pointer to `x` keeps `y` from being collected. -/
def Keeps (m : Mem T) : Nat → Nat → Prop := Relation.ReflTransGen (Refers m)

theorem Below.tail {x y z : Nat} (h : Below m x y) (hc : Child m y z) : Below m x z := by
  induction h with
  | refl => exact .step hc .refl
  | step h1 _ ih => exact .step h1 (ih hc)

theorem Below.last {x y : Nat} (h : Below m x y) : y = x ∨ ∃ z, Below m x z ∧ Child m z y := by
  induction h with
  | refl => exact .inl rfl
  | @step a c b h1 _ ih =>
    rcases ih with rfl | ⟨z, h2, h3⟩
    · exact .inr ⟨a, .refl, h1⟩
    · exact .inr ⟨z, .step h1 h2, h3⟩

/-- Above a node below `x`, other than `x`, is a node below `x`. -/
theorem Below.up (h : Links m) {x y z : Nat} (hb : Below m x y) (hne : y ≠ x) (hp : m.parent y = some z) : Below m x z := by
  rcases hb.last with e | ⟨w, h1, h2⟩
  · exact absurd e hne
  · have := (h.cons y w).1 h2
    rw [this] at hp; cases hp; exact h1

/-- `x` was a child of `n`; `m'` is `m` after it was replaced by a node from elsewhere. -/
theorem cut_keeps (h : Links m) {n x : Nat} (hx : m.parent x = some n) (hnb : ¬ Below m x n) (hch : ∀ y z, y ≠ n → (Child m' y z ↔ Child m y z))
    (hn : ∀ z, Child m' n z → ¬ Below m x z) (hpx : m'.parent x = none) (hp : ∀ y, y ≠ x → Below m x y → m'.parent y = m.parent y)
    (hp' : ∀ y, ¬ Below m x y → m'.parent y = m.parent y ∨ m'.parent y = some n) :
    (∀ y, Keeps m' x y ↔ Below m x y) ∧ (∀ y z, ¬ Below m x y → Keeps m' y z → ¬ Below m x z) := by
  refine ⟨fun y => ⟨fun hk => ?_, fun hb => ?_⟩, fun y z hy hk => ?_⟩
  · induction hk with
    | refl => exact .refl
    | @tail b c _ hr ih =>
      rcases hr with hr | hr
      · by_cases e : b = x
        · subst e; rw [hpx] at hr; cases hr
        · rw [hp b e ih] at hr; exact ih.up h e hr
      · exact ih.tail ((hch b c (by rintro rfl; exact hnb ih)).1 hr)
  · have key : ∀ {a b : Nat}, Below m a b → Below m x a → Keeps m' a b := by
      intro a b hab
      induction hab with
      | refl => intro _; exact .refl
      | @step a c b h1 _ ih =>
        intro ha
        refine .head (.inr ((hch a c ?_).2 h1)) (ih (ha.tail h1))
        rintro rfl; exact hnb ha
    exact key hb .refl
  · induction hk with
    | refl => exact hy
    | @tail b c _ hr ih =>
      intro hc
      rcases hr with hr | hr
      · rcases hp' b ih with e | e
        · rw [e] at hr
          exact ih (hc.tail ((h.cons b c).2 hr))
        · rw [e] at hr; cases hr; exact hnb hc
      · by_cases e : b = n
        · subst e; exact hn c hr hc
        · have h1 := (hch b c e).1 hr
          rcases hc.last with rfl | ⟨w, h2, h3⟩
          · have e2 := (h.cons c b).1 h1
            rw [hx] at e2; cases e2; exact e rfl
          · have e1 := (h.cons c w).1 h3
            have e2 := (h.cons c b).1 h1
            rw [e1] at e2; cases e2; exact ih h2

/-- **C182**: a node keeps its tree: all nodes that have an ancestor (or themselves) in common with it, and no others. -/
theorem C182_tree {d : T} {h : List (LOp T)} (hr : PRun d h m) (x y : Nat) :
    Keeps m x y ↔ ∃ r, Below m r x ∧ Below m r y := by
  have hl := hr.links
  constructor
  · intro hk
    induction hk with
    | refl => exact ⟨x, .refl, .refl⟩
    | @tail b c _ hr ih =>
      obtain ⟨r, h1, h2⟩ := ih
      rcases hr with hr | hr
      · by_cases e : b = r
        · subst e
          exact ⟨c, .step ((hl.cons b c).2 hr) h1, .refl⟩
        · exact ⟨r, h1, h2.up hl e hr⟩
      · exact ⟨r, h1, h2.tail hr⟩
  · rintro ⟨r, h1, h2⟩
    have up : ∀ {a b : Nat}, Below m a b → Keeps m b a := by
      intro a b hb
      induction hb with
      | refl => exact .refl
      | @step a c b hc _ ih => exact ih.tail (.inl ((hl.cons c a).1 hc))
    have down : ∀ {a b : Nat}, Below m a b → Keeps m a b := by
      intro a b hb
      induction hb with
      | refl => exact .refl
      | @step a c b hc _ ih => exact .head (.inr hc) ih
    exact (up h1).trans (down h2)

theorem ARun.finite {d : T} {h : List (LOp T)} (ha : ARun d h m) :
    Fin m ∧ ∀ y, m.fresh ≤ y → m.left y = none ∧ m.right y = none := by
  induction ha with
  | nil => exact ⟨fun x => ⟨.node x .nil .nil, rfl, rfl, rfl⟩, fun _ _ => ⟨rfl, rfl⟩⟩
  | snoc _ hok hl ih => exact ⟨ih.1.lexec hok hl ih.2, lexec_free hok ih.2⟩

theorem ARun.noLoop {d : T} {h : List (LOp T)} (ha : ARun d h m) {n x : Nat} (hc : Child m n x) : ¬ Below m x n := by
  intro hb
  obtain ⟨t, ht⟩ := ha.finite.1 n
  exact ht.noLoop hc hb

/-- **C182**: after `SetLeft` has put another node (or nil) in the place of `x`, `x` keeps just the nodes that were below it (or
itself), and these are kept by no other node. -/
theorem C182_setLeft {d : T} {h : List (LOp T)} (hr : PRun d h m) (ha : ARun d h m) {n x : Nat} (hx : m.left n = some x)
    {c : Option Nat} (hc : LOp.Proper m (.setLeft n c)) (hne : c ≠ some x) :
    (∀ y, Keeps (setLeft m n c).1 x y ↔ Below m x y) ∧
    (∀ y z, ¬ Below m x y → Keeps (setLeft m n c).1 y z → ¬ Below m x z) := by
  have hl := hr.links
  have hpx := (hl.cons x n).1 (.inl hx)
  have hnb := ha.noLoop (.inl hx)
  have hc' : ∀ y, c = some y → m.parent y = none ∧ ¬ Below m x y := by
    intro y e
    rcases hc y e with h1 | h1
    · refine ⟨h1, fun hb => ?_⟩
      rcases hb.last with rfl | ⟨w, _, h3⟩
      · exact hne e
      · rw [(hl.cons y w).1 h3] at h1; cases h1
    · rw [hx] at h1; cases h1; exact absurd e hne
  refine cut_keeps hl hpx hnb ?_ ?_ ?_ ?_ ?_
  · intro y z hy
    simp only [Child, setLeft_left, if_neg hy, setLeft_right]
  · rintro z (hz | hz)
    · rw [setLeft_left, if_pos rfl] at hz; exact (hc' z hz).2
    · rw [setLeft_right] at hz
      intro hb
      rcases hb.last with rfl | ⟨w, h2, h3⟩
      · exact hl.diff z n hx hz
      · have e1 := (hl.cons z w).1 h3
        have e2 := (hl.cons z n).1 (.inr hz)
        rw [e1] at e2; cases e2; exact hnb h2
  · rw [setLeft_parent, if_neg hne, if_pos hx]
  · intro y hy hb
    rw [setLeft_parent, if_neg (fun e => (hc' y e).2 hb), if_neg (by rw [hx]; rintro ⟨⟩; exact hy rfl)]
  · intro y hy
    rw [setLeft_parent]
    by_cases e : c = some y
    · rw [if_pos e]; exact .inr rfl
    · rw [if_neg e, if_neg (by rw [hx]; rintro ⟨⟩; exact hy .refl)]; exact .inl rfl

/-- **C182** for `SetRight`. -/
theorem C182_setRight {d : T} {h : List (LOp T)} (hr : PRun d h m) (ha : ARun d h m) {n x : Nat} (hx : m.right n = some x)
    {c : Option Nat} (hc : LOp.Proper m (.setRight n c)) (hne : c ≠ some x) :
    (∀ y, Keeps (setRight m n c).1 x y ↔ Below m x y) ∧
    (∀ y z, ¬ Below m x y → Keeps (setRight m n c).1 y z → ¬ Below m x z) := by
  have hl := hr.links
  have hpx := (hl.cons x n).1 (.inr hx)
  have hnb := ha.noLoop (.inr hx)
  have hc' : ∀ y, c = some y → m.parent y = none ∧ ¬ Below m x y := by
    intro y e
    rcases hc y e with h1 | h1
    · refine ⟨h1, fun hb => ?_⟩
      rcases hb.last with rfl | ⟨w, _, h3⟩
      · exact hne e
      · rw [(hl.cons y w).1 h3] at h1; cases h1
    · rw [hx] at h1; cases h1; exact absurd e hne
  refine cut_keeps hl hpx hnb ?_ ?_ ?_ ?_ ?_
  · intro y z hy
    simp only [Child, setRight_right, if_neg hy, setRight_left]
  · rintro z (hz | hz)
    · rw [setRight_left] at hz
      intro hb
      rcases hb.last with rfl | ⟨w, h2, h3⟩
      · exact hl.diff z n hz hx
      · have e1 := (hl.cons z w).1 h3
        have e2 := (hl.cons z n).1 (.inl hz)
        rw [e1] at e2; cases e2; exact hnb h2
    · rw [setRight_right, if_pos rfl] at hz; exact (hc' z hz).2
  · rw [setRight_parent, if_neg hne, if_pos hx]
  · intro y hy hb
    rw [setRight_parent, if_neg (fun e => (hc' y e).2 hb), if_neg (by rw [hx]; rintro ⟨⟩; exact hy rfl)]
  · intro y hy
    rw [setRight_parent]
    by_cases e : c = some y
    · rw [if_pos e]; exact .inr rfl
    · rw [if_neg e, if_neg (by rw [hx]; rintro ⟨⟩; exact hy .refl)]; exact .inl rfl

/-- A tree: 0 with children 1 and 2, 1 with child 3; then node 4 in the place of 1. -/
def retainDemo : Mem Nat :=
  [.new 10, .new 11, .new 12, .new 13, .new 14, .setLeft 0 (some 1), .setRight 0 (some 2), .setLeft 1 (some 3),
    (.setLeft 0 (some 4) : LOp Nat)].foldl lexec (Mem.empty 0)

/-- Neither 1 nor 3 refers to the tree any more, nor the other way round. -/
example : [0, 1, 2, 3, 4].map (fun x => (retainDemo.parent x, retainDemo.left x, retainDemo.right x)) =
    [(none, some 4, some 2), (none, some 3, none), (some 0, none, none), (some 1, none, none), (some 0, none, none)] := rfl

/-- Without the conditions it fails: node 2, a left child of both 0 and 1, when removed from 0, has lost its parent, but is kept
by 1 all the same. -/
theorem C182_shared_false : ¬ ∀ (h : List (LOp Nat)) (m : Mem Nat) (n x : Nat), LRun 0 h m → m.left n = some x →
    ∀ y z, ¬ Below m x y → Keeps (setLeft m n none).1 y z → ¬ Below m x z := by
  intro H
  have hr : LRun 0 [.new 10, .new 11, .new 12, .setLeft 0 (some 2), .setLeft 1 (some 2)]
      (lexec (lexec (lexec (lexec (lexec (Mem.empty 0) (.new 10)) (.new 11)) (.new 12))
        (.setLeft 0 (some 2))) (.setLeft 1 (some 2))) := by
    refine .snoc (h := [_, _, _, _]) (.snoc (h := [_, _, _]) (.snoc (h := [_, _]) (.snoc (h := [_])
      (.snoc (h := []) .nil trivial) trivial) trivial) ⟨by decide, ?_⟩) ⟨by decide, ?_⟩ <;>
    · intro x hx
      simp at hx; subst hx; decide
  refine H _ _ 0 2 hr rfl 1 2 ?_ (.single (.inr (.inl rfl))) .refl
  intro hb
  cases hb with
  | step hc _ => rcases hc with hc | hc <;> cases hc
end Verif.Tree
