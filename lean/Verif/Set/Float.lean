import Verif.Set.Props
/-!
# Sets of floats

The element type of a `Set` is any ordered type (set.go:9), floats included.  There `==` is no equality: NaN is not equal to itself, and
0 equals -0.  Go maps compare keys with `==`; a NaN key is a new entry at every assignment, found by no lookup and by no `delete`.
The model of `Verif.Set.Model` assumes a lawful equality and has all the aliasing between sets; here the sets are values and `==` is only
symmetric and transitive.
-/
namespace Verif.GoSet.Float
variable {F : Type}

/-- `==` on the elements. -/
structure EqOp (F : Type) where
  eq : F → F → Bool
  symm : ∀ {a b}, eq a b = true → eq b a = true
  trans : ∀ {a b c}, eq a b = true → eq b c = true → eq a c = true

variable (Q : EqOp F)

/-! ### The code, on the contents of the maps -/

/-- `_, ok := s[x]`: `Contain`, set.go:50-53. -/
def contain (l : List F) (x : F) : Bool := l.any fun a => Q.eq a x

/-- `s[x] = struct{}{}`.  For types with unequal-looking equal values (0 and -0) the assignment also replaces the key. -/
def store (l : List F) (x : F) : List F :=
  if contain Q l x then l.map fun a => if Q.eq a x then x else a else l ++ [x]

/-- `delete(s, x)`. -/
def delete (l : List F) (x : F) : List F := l.filter fun a => !Q.eq a x

/-- `Len`: set.go:17-19. -/
def len (l : List F) : Nat := l.length

/-- `Push`: set.go:30-35. -/
def push (l vs : List F) : List F := vs.foldl (store Q) l

/-- `Insert`: set.go:40-46. -/
def insert (l : List F) (x : F) : List F × Bool := if contain Q l x then (l, false) else (store Q l x, true)

/-- `Remove`, `ContainAndRemove`: set.go:58-64, 81-83. -/
def remove (l : List F) (x : F) : List F × Bool := if contain Q l x then (delete Q l x, true) else (l, false)

/-- A visiting order for each map. -/
structure Order (F : Type) where
  f : List F → List F
  perm : ∀ l, (f l).Perm l

variable (ω : Order F)

/-- `Slice`: set.go:21-23; `Clone` (26-28) has the same entries. -/
def slice (l : List F) : List F := ω.f l

/-- `Clear` (set.go:70-73) by the statement `clear(m)`, which removes every entry. -/
def clearAll (_ : List F) : List F := []
/-- `Clear` by a loop that deletes the keys it meets, as `maps.Clear` did before the language had `clear`. -/
def clearLoop (l : List F) : List F := (ω.f l).foldl (delete Q) l

/-- `CopyFrom`: set.go:75-78 (`maps.Copy`: assigns every entry). -/
def copyFrom (l t : List F) : List F := (ω.f t).foldl (store Q) l

/-- `Equal`: set.go:93-95 (`maps.Equal`: the lengths, then a lookup of every entry). -/
def equal (l t : List F) : Bool := if len l = len t then (ω.f l).all fun x => contain Q t x else false

/-- `IsSubSet`: set.go:98-111. -/
def isSubSet (l t : List F) : Bool := if len l > len t then false else (ω.f l).all fun x => contain Q t x

/-- `Difference`: set.go:119-128. -/
def difference (l t : List F) : List F := (ω.f l).foldl (fun d x => if !contain Q t x then (insert Q d x).1 else d) []

/-- `SymmetricDifference`: set.go:131-146. -/
def symmetricDifference (l t : List F) : List F :=
  (ω.f t).foldl (fun d x => if !contain Q l x then (insert Q d x).1 else d)
    ((ω.f l).foldl (fun d x => if !contain Q t x then (insert Q d x).1 else d) [])

/-- `Intersection`: set.go:149-158. -/
def intersection (l t : List F) : List F := (ω.f l).foldl (fun d x => if contain Q t x then (insert Q d x).1 else d) []

/-- `Union`: set.go:161-174. -/
def union (l : List F) (ts : List (List F)) : List F :=
  ts.foldl (fun d t => (ω.f t).foldl (fun d x => (insert Q d x).1) d) ((ω.f l).foldl (fun d x => (insert Q d x).1) [])

/-! ### What it means -/

/-- No two entries have equal keys. -/
def WF (l : List F) : Prop := l.Pairwise fun a b => Q.eq a b = false

/-- The elements not equal to themselves. -/
def nans (l : List F) : List F := l.filter fun a => !Q.eq a a

/-- The set `l` contains, as far as `Contain` can tell, exactly what `P` says, and besides the NaNs `N`, each as often as there. -/
structure Has (l : List F) (P : F → Prop) (N : List F) : Prop where
  wf : WF Q l
  mem : ∀ x, contain Q l x = true ↔ P x
  nan : (nans Q l).Perm N

variable {Q ω} {l t : List F} {P R : F → Prop} {N M : List F}

theorem contain_iff {x : F} : contain Q l x = true ↔ ∃ a ∈ l, Q.eq a x = true := by simp [contain]

theorem contain_self {x : F} (h : contain Q l x = true) : Q.eq x x = true := by
  obtain ⟨a, _, h⟩ := contain_iff.1 h
  exact Q.trans (Q.symm h) h

theorem contain_congr {x y : F} (h : Q.eq x y = true) : contain Q l x = contain Q l y := by
  rw [Bool.eq_iff_iff, contain_iff, contain_iff]
  exact ⟨fun ⟨a, h1, h2⟩ => ⟨a, h1, Q.trans h2 h⟩, fun ⟨a, h1, h2⟩ => ⟨a, h1, Q.trans h2 (Q.symm h)⟩⟩

theorem contain_perm {l l' : List F} (h : l.Perm l') (x : F) : contain Q l x = contain Q l' x := by
  rw [Bool.eq_iff_iff, contain_iff, contain_iff]
  exact ⟨fun ⟨a, h1, h2⟩ => ⟨a, h.mem_iff.1 h1, h2⟩, fun ⟨a, h1, h2⟩ => ⟨a, h.mem_iff.2 h1, h2⟩⟩

theorem eq_comm (a b : F) : Q.eq a b = Q.eq b a := by
  rw [Bool.eq_iff_iff]; exact ⟨Q.symm, Q.symm⟩

theorem WF.perm {l l' : List F} (h : WF Q l) (hp : l.Perm l') : WF Q l' :=
  List.Pairwise.perm h hp (fun {a b} h => by rw [eq_comm]; exact h)

/-- A new element. -/
theorem Has.add (h : Has Q l P N) {x : F} (hx : contain Q l x = false) :
    Has Q (l ++ [x]) (fun y => P y ∨ Q.eq x y = true) (N ++ (if Q.eq x x = true then [] else [x])) := by
  refine ⟨?_, ?_, ?_⟩
  · refine List.pairwise_append.2 ⟨h.wf, List.pairwise_singleton _ _, ?_⟩
    intro a ha b hb
    rw [List.mem_singleton.1 hb]
    have := List.any_eq_false.1 hx a ha
    simpa using this
  · intro y
    rw [← h.mem y]
    simp [contain]
  · unfold nans
    rw [List.filter_append]
    refine List.Perm.append h.nan ?_
    by_cases e : Q.eq x x = true <;> simp [e]

theorem store_mem {x y : F} (hc : contain Q l x = true) (h : WF Q l) :
    contain Q (l.map fun a => if Q.eq a x then x else a) y = contain Q l y := by
  rw [Bool.eq_iff_iff, contain_iff, contain_iff]
  constructor
  · rintro ⟨b, hb, hy⟩
    obtain ⟨a, ha, rfl⟩ := List.mem_map.1 hb
    by_cases e : Q.eq a x = true
    · rw [if_pos e] at hy; exact ⟨a, ha, Q.trans e hy⟩
    · rw [if_neg e] at hy; exact ⟨a, ha, hy⟩
  · rintro ⟨a, ha, hy⟩
    refine ⟨_, List.mem_map_of_mem ha, ?_⟩
    by_cases e : Q.eq a x = true
    · rw [if_pos e]; exact Q.trans (Q.symm e) hy
    · rw [if_neg e]; exact hy

theorem store_wf {x : F} (h : WF Q l) : WF Q (l.map fun a => if Q.eq a x then x else a) := by
  refine List.pairwise_map.2 (List.Pairwise.imp ?_ h)
  intro a b hab
  by_cases e1 : Q.eq a x = true
  · by_cases e2 : Q.eq b x = true
    · exact absurd (Q.trans e1 (Q.symm e2)) (by rw [hab]; simp)
    · rw [if_pos e1, if_neg e2, eq_comm]; simpa using e2
  · by_cases e2 : Q.eq b x = true
    · rw [if_neg e1, if_pos e2]; simpa using e1
    · rw [if_neg e1, if_neg e2]; exact hab

theorem store_nans {x : F} (hx : Q.eq x x = true) : nans Q (l.map fun a => if Q.eq a x then x else a) = nans Q l := by
  induction l with
  | nil => rfl
  | cons a l ih =>
    simp only [nans, List.map_cons, List.filter_cons] at ih ⊢
    rw [ih]
    by_cases e : Q.eq a x = true
    · simp [e, hx, Q.trans e (Q.symm e)]
    · simp [e]

/-- Assignment. -/
theorem Has.store (h : Has Q l P N) (x : F) :
    Has Q (store Q l x) (fun y => P y ∨ Q.eq x y = true) (N ++ (if Q.eq x x = true then [] else [x])) := by
  unfold Float.store
  by_cases hc : contain Q l x = true
  · have hx := contain_self hc
    rw [if_pos hc, if_pos hx, List.append_nil]
    refine ⟨store_wf h.wf, ?_, by rw [store_nans hx]; exact h.nan⟩
    intro y
    rw [store_mem hc h.wf, h.mem]
    exact ⟨Or.inl, fun e => e.elim id fun e => (h.mem y).1 (by rw [← contain_congr e]; exact hc)⟩
  · rw [if_neg hc]
    exact h.add (by simpa using hc)

theorem Has.insert (h : Has Q l P N) (x : F) :
    Has Q (insert Q l x).1 (fun y => P y ∨ Q.eq x y = true) (N ++ (if Q.eq x x = true then [] else [x])) := by
  unfold Float.insert
  by_cases hc : contain Q l x = true
  · have hx := contain_self hc
    rw [if_pos hc, if_pos hx, List.append_nil]
    refine ⟨h.wf, fun y => ?_, h.nan⟩
    rw [h.mem]
    exact ⟨Or.inl, fun e => e.elim id fun e => (h.mem y).1 (by rw [← contain_congr e]; exact hc)⟩
  · rw [if_neg hc]; exact h.store x

theorem Has.congr (h : Has Q l P N) (hP : ∀ x, P x ↔ R x) (hN : N.Perm M) : Has Q l R M :=
  ⟨h.wf, fun x => (h.mem x).trans (hP x), h.nan.trans hN⟩

/-- A loop that adds the elements of `xs` that satisfy `p`. -/
theorem Has.fold (g : List F → F → List F) (p : F → Bool)
    (hg : ∀ (l : List F) P N x, Has Q l P N →
      if p x = true then Has Q (g l x) (fun y => P y ∨ Q.eq x y = true) (N ++ (if Q.eq x x = true then [] else [x])) else g l x = l) :
    ∀ (xs : List F) {l : List F} {P : F → Prop} {N : List F}, Has Q l P N →
      Has Q (xs.foldl g l) (fun y => P y ∨ contain Q (xs.filter p) y = true) (N ++ nans Q (xs.filter p)) := by
  intro xs
  induction xs with
  | nil => intro l P N h; exact h.congr (fun x => by simp [contain]) (by simp [nans])
  | cons x xs ih =>
    intro l P N h
    have h1 := hg l P N x h
    rw [List.foldl_cons]
    by_cases e : p x = true
    · rw [if_pos e] at h1
      refine (ih h1).congr (fun y => ?_) ?_
      · simp [contain, e, or_assoc]
      · rw [List.filter_cons_of_pos e, List.append_assoc]
        refine List.Perm.append_left _ ?_
        unfold nans
        by_cases e' : Q.eq x x = true <;> simp [e']
    · rw [if_neg e] at h1
      rw [h1, List.filter_cons_of_neg e]
      exact ih h

theorem filter_true (xs : List F) : xs.filter (fun _ => true) = xs := by simp

theorem nans_perm {l l' : List F} (h : l.Perm l') : (nans Q l).Perm (nans Q l') := h.filter _

theorem contain_filter {p : F → Bool} (hp : ∀ {a b}, Q.eq a b = true → p a = p b) {y : F} :
    contain Q (l.filter p) y = true ↔ contain Q l y = true ∧ p y = true := by
  rw [contain_iff, contain_iff]
  constructor
  · rintro ⟨a, ha, hy⟩
    rw [List.mem_filter] at ha
    exact ⟨⟨a, ha.1, hy⟩, by rw [← hp hy]; exact ha.2⟩
  · rintro ⟨⟨a, ha, hy⟩, h⟩
    exact ⟨a, List.mem_filter.2 ⟨ha, by rw [hp hy]; exact h⟩, hy⟩

theorem nans_not_contained {x : F} (h : x ∈ nans Q l) : contain Q t x = false := by
  rw [Bool.eq_false_iff]
  intro hc
  have := (List.mem_filter.1 h).2
  simp [contain_self hc] at this

theorem nil_has : Has Q ([] : List F) (fun _ => False) [] := ⟨.nil, by simp [contain], by simp [nans]⟩

/-- What every operation does, whatever `==` is. -/
structure Works (Q : EqOp F) (ω : Order F) (l : List F) (P : F → Prop) (N : List F) : Prop where
  contain : ∀ x, contain Q l x = true ↔ P x
  len : ∀ l', Has Q l' P N → len l' = len l
  slice : (slice ω l).Perm l
  push : ∀ vs, Has Q (push Q l vs) (fun y => P y ∨ ∃ v ∈ vs, Q.eq v y = true) (N ++ nans Q vs)
  insert : ∀ x, Has Q (insert Q l x).1 (fun y => P y ∨ Q.eq x y = true) (N ++ nans Q [x]) ∧ ((insert Q l x).2 = true ↔ ¬ P x)
  remove : ∀ x, Has Q (remove Q l x).1 (fun y => P y ∧ ¬ Q.eq x y = true) N ∧ ((remove Q l x).2 = true ↔ P x)
  clear : Has Q (clearAll l) (fun _ => False) []
  clearLoop : Has Q (clearLoop Q ω l) (fun _ => False) N
  copyFrom : ∀ t R M, Has Q t R M → Has Q (copyFrom Q ω l t) (fun y => P y ∨ R y) (N ++ M)
  equal : ∀ t R M, Has Q t R M → (equal Q ω l t = true ↔ N = [] ∧ M = [] ∧ ∀ x, P x ↔ R x)
  isSubSet : ∀ t R M, Has Q t R M → (isSubSet Q ω l t = true ↔ N = [] ∧ ∀ x, P x → R x)
  difference : ∀ t R M, Has Q t R M → Has Q (difference Q ω l t) (fun y => P y ∧ ¬ R y) N
  symmetricDifference : ∀ t R M, Has Q t R M → Has Q (symmetricDifference Q ω l t) (fun y => (P y ∧ ¬ R y) ∨ (R y ∧ ¬ P y)) (N ++ M)
  intersection : ∀ t R M, Has Q t R M → Has Q (intersection Q ω l t) (fun y => P y ∧ R y) []
  union : ∀ ts : List (List F), (∀ t ∈ ts, WF Q t) →
    Has Q (union Q ω l ts) (fun y => P y ∨ ∃ t ∈ ts, Float.contain Q t y = true) (N ++ ts.flatMap (nans Q))

theorem Has.delete (h : Has Q l P N) (x : F) : Has Q (delete Q l x) (fun y => P y ∧ ¬ Q.eq x y = true) N := by
  refine ⟨h.wf.filter _, fun y => ?_, ?_⟩
  · unfold Float.delete
    rw [contain_filter (p := fun a => !Q.eq a x), h.mem]
    · rw [eq_comm x y]; simp
    · intro a b hab
      have : Q.eq a x = Q.eq b x := by
        rw [Bool.eq_iff_iff]; exact ⟨fun h => Q.trans (Q.symm hab) h, fun h => Q.trans hab h⟩
      simp [this]
  · have : nans Q (Float.delete Q l x) = nans Q l := by
      unfold nans Float.delete
      rw [List.filter_filter]
      apply List.filter_congr
      intro a _
      by_cases e : Q.eq a x = true
      · simp [e, Q.trans e (Q.symm e)]
      · simp [e]
    rw [this]; exact h.nan

/-- The elements that equal themselves. -/
def regs (Q : EqOp F) (l : List F) : List F := l.filter fun a => Q.eq a a

theorem len_split : l.length = (nans Q l).length + (regs Q l).length := by
  unfold nans regs
  induction l with
  | nil => rfl
  | cons a l ih =>
    by_cases e : Q.eq a a = true <;> simp [e] <;> omega

/-- Regular elements of `l` are found in `t`: then there are not more of them. -/
theorem regs_le (hl : WF Q l) : ∀ {t : List F}, (∀ x, contain Q l x = true → contain Q t x = true) → (regs Q l).length ≤ (regs Q t).length := by
  induction l with
  | nil => intro t _; simp [regs]
  | cons a l ih =>
    intro t h
    have hw := List.pairwise_cons.1 hl
    by_cases e : Q.eq a a = true
    · have ha := h a (by simp [contain, e])
      obtain ⟨b, hb, hba⟩ := contain_iff.1 ha
      obtain ⟨t1, t2, rfl⟩ := List.append_of_mem hb
      have h1 : (regs Q l).length ≤ (regs Q (t1 ++ t2)).length := by
        apply ih hw.2
        intro x hx
        have h2 := h x (by simp [contain] at hx ⊢; exact Or.inr hx)
        have hne : ¬ Q.eq b x = true := by
          intro hbx
          obtain ⟨c, hc, hcx⟩ := contain_iff.1 hx
          have := hw.1 c hc
          rw [Q.trans (Q.trans (Q.symm hba) hbx) (Q.symm hcx)] at this
          cases this
        simp [contain] at h2 ⊢
        rcases h2 with h2 | h2 | h2
        · exact Or.inl h2
        · exact absurd h2 hne
        · exact Or.inr h2
      have hb2 : Q.eq b b = true := Q.trans hba (Q.symm hba)
      simp only [regs, List.filter_append, List.length_append, List.filter_cons, e, hb2, if_true, List.length_cons] at h1 ⊢
      omega
    · have : regs Q (a :: l) = regs Q l := by simp [regs, e]
      rw [this]
      exact ih hw.2 (fun x hx => h x (by simp [contain] at hx ⊢; exact Or.inr hx))

theorem all_contained : (ω.f l).all (fun x => contain Q t x) = true ↔ nans Q l = [] ∧ ∀ x, contain Q l x = true → contain Q t x = true := by
  rw [List.all_eq_true]
  constructor
  · intro h
    refine ⟨?_, ?_⟩
    · rw [List.eq_nil_iff_forall_not_mem]
      intro x hx
      have := h x ((ω.perm l).mem_iff.2 (List.mem_filter.1 hx).1)
      rw [nans_not_contained hx] at this
      cases this
    · intro x hx
      obtain ⟨a, ha, hax⟩ := contain_iff.1 hx
      rw [← contain_congr hax]
      exact h a ((ω.perm l).mem_iff.2 ha)
  · rintro ⟨h1, h2⟩ x hx
    apply h2
    refine contain_iff.2 ⟨x, (ω.perm l).mem_iff.1 hx, ?_⟩
    by_contra hne
    have : x ∈ nans Q l := List.mem_filter.2 ⟨(ω.perm l).mem_iff.1 hx, by simpa using hne⟩
    rw [h1] at this; cases this

theorem perm_nil_iff {A B : List F} (h : A.Perm B) : A = [] ↔ B = [] :=
  ⟨fun e => by subst e; exact h.symm.eq_nil, fun e => by subst e; exact h.eq_nil⟩

theorem ins_step (p : F → Bool) (l : List F) (P : F → Prop) (N : List F) (x : F) (h : Has Q l P N) :
    if p x = true then Has Q ((fun d x => if p x = true then (Float.insert Q d x).1 else d) l x) (fun y => P y ∨ Q.eq x y = true)
      (N ++ (if Q.eq x x = true then [] else [x])) else (fun d x => if p x = true then (Float.insert Q d x).1 else d) l x = l := by
  by_cases e : p x = true
  · simp only [if_pos e]; exact h.insert x
  · simp only [if_neg e]

theorem Has.addAll (h : Has Q l P N) (t : List F) :
    Has Q ((ω.f t).foldl (fun d x => (Float.insert Q d x).1) l) (fun y => P y ∨ Float.contain Q t y = true) (N ++ nans Q t) := by
  have := Has.fold (Q := Q) (fun d x => (Float.insert Q d x).1) (fun _ => true) (fun l P N x h => by rw [if_pos rfl]; exact h.insert x) (ω.f t) h
  rw [filter_true] at this
  refine this.congr (fun y => by rw [contain_perm (ω.perm t)]) ((nans_perm (ω.perm t)).append_left _)

/-- C121: what sets do for every element type, floats included. `Contain` sees the elements up to `==`, every NaN put into a set is one more
element, counted by `Len`, found by no lookup and removed by no `Remove`. -/
theorem C121_float (h : Has Q l P N) : Works Q ω l P N := by
  have hd : ∀ (t t' : List F) (p : F → Bool) {l0 : List F} {P0 : F → Prop} {N0 : List F}, Has Q l0 P0 N0 → t'.Perm t →
      (∀ {a b}, Q.eq a b = true → p a = p b) →
      Has Q (t'.foldl (fun d x => if p x = true then (Float.insert Q d x).1 else d) l0)
        (fun y => P0 y ∨ (Float.contain Q t y = true ∧ p y = true)) (N0 ++ nans Q (t.filter p)) := by
    intro t t' p l0 P0 N0 h0 ht hp
    have := Has.fold (Q := Q) _ p (fun l P N x h => ins_step p l P N x h) t' h0
    refine this.congr (fun y => ?_) ((nans_perm (ht.filter p)).append_left _)
    rw [contain_perm (ht.filter p), contain_filter hp]
  have hcongr : ∀ (t : List F) {a b : F}, Q.eq a b = true → (!Float.contain Q t a) = !Float.contain Q t b :=
    fun t a b e => by rw [contain_congr e]
  have hnn : ∀ (l t : List F), nans Q (l.filter fun x => !Float.contain Q t x) = nans Q l := by
    intro l t
    unfold nans
    rw [List.filter_filter]
    apply List.filter_congr
    intro a ha
    by_cases e : Q.eq a a = true
    · simp [e]
    · have : Float.contain Q t a = false := nans_not_contained (l := l) (List.mem_filter.2 ⟨ha, by simp [e]⟩)
      simp [this]
  refine ⟨h.mem, ?_, ω.perm l, ?_, ?_, ?_, ?_, ?_, ?_, ?_, ?_, ?_, ?_, ?_, ?_⟩
  · intro l' h'
    have h1 := regs_le h.wf (t := l') (fun x hx => (h'.mem x).2 ((h.mem x).1 hx))
    have h2 := regs_le h'.wf (t := l) (fun x hx => (h.mem x).2 ((h'.mem x).1 hx))
    have h3 := (h.nan.trans h'.nan.symm).length_eq
    have h4 := len_split (Q := Q) (l := l)
    have h5 := len_split (Q := Q) (l := l')
    show l'.length = l.length
    omega
  · intro vs
    have := Has.fold (Q := Q) (Float.store Q) (fun _ => true) (fun l P N x h => by rw [if_pos rfl]; exact h.store x) vs h
    rw [filter_true] at this
    exact this.congr (fun y => by rw [contain_iff]) (List.Perm.refl _)
  · intro x
    refine ⟨(h.insert x).congr (fun _ => Iff.rfl) ?_, ?_⟩
    · by_cases e : Q.eq x x = true <;> simp [nans, e]
    · rw [← h.mem x]
      unfold Float.insert
      split <;> simp_all
  · intro x
    rw [← h.mem x]
    unfold Float.remove
    by_cases hc : Float.contain Q l x = true
    · rw [if_pos hc]; exact ⟨h.delete x, by simp [hc]⟩
    · rw [if_neg hc]
      refine ⟨h.congr (fun y => ?_) (List.Perm.refl _), by simp [hc]⟩
      refine ⟨fun hy => ⟨hy, fun e => ?_⟩, fun hy => hy.1⟩
      rw [← h.mem, ← contain_congr e] at hy
      exact hc hy
  · exact nil_has
  · have key : ∀ (xs l : List F) (P : F → Prop), Has Q l P N →
        Has Q (xs.foldl (Float.delete Q) l) (fun y => P y ∧ ¬ ∃ x ∈ xs, Q.eq x y = true) N := by
      intro xs
      induction xs with
      | nil => intro l P h; exact h.congr (fun y => by simp) (List.Perm.refl _)
      | cons x xs ih =>
        intro l P h
        exact (ih _ _ (h.delete x)).congr (fun y => by simp [and_assoc]) (List.Perm.refl _)
    refine (key (ω.f l) l P h).congr (fun y => ?_) (List.Perm.refl _)
    refine ⟨fun ⟨h1, h2⟩ => h2 ?_, False.elim⟩
    obtain ⟨a, h3, h4⟩ := contain_iff.1 ((h.mem y).2 h1)
    exact ⟨a, (ω.perm l).mem_iff.2 h3, h4⟩
  · intro t R M ht
    have := Has.fold (Q := Q) (Float.store Q) (fun _ => true) (fun l P N x h => by rw [if_pos rfl]; exact h.store x) (ω.f t) h
    rw [filter_true] at this
    refine this.congr (fun y => ?_) ?_
    · rw [contain_perm (ω.perm t), ht.mem]
    · exact ((nans_perm (ω.perm t)).trans ht.nan).append_left _
  · intro t R M ht
    unfold Float.equal
    have h4 := len_split (Q := Q) (l := l)
    have h5 := len_split (Q := Q) (l := t)
    rw [← perm_nil_iff h.nan, ← perm_nil_iff ht.nan]
    constructor
    · intro he
      split at he
      · next hlen =>
        obtain ⟨h1, h2⟩ := all_contained.1 he
        have h3 := regs_le h.wf h2
        simp only [Float.len] at hlen
        rw [h1] at h4
        simp only [List.length_nil] at h4
        have h6 : nans Q t = [] := List.length_eq_zero_iff.1 (by omega)
        refine ⟨h1, h6, fun x => ⟨fun hx => (ht.mem x).1 (h2 x ((h.mem x).2 hx)), fun hx => ?_⟩⟩
        by_contra hne
        -- one more element would be in `t` only
        have hx' := (ht.mem x).2 hx
        have hadd := h.add (x := x) (by rw [Bool.eq_false_iff]; exact fun e => hne ((h.mem x).1 e))
        have h7 := regs_le hadd.wf (t := t) (fun y hy => by
          simp only [contain, List.any_append, List.any_cons, List.any_nil, Bool.or_false, Bool.or_eq_true] at hy
          rcases hy with hy | hy
          · exact h2 y hy
          · rw [← contain_congr hy]; exact hx')
        have h8 : (regs Q (l ++ [x])).length = (regs Q l).length + 1 := by
          simp [regs, contain_self hx']
        rw [h6] at h5
        simp only [List.length_nil] at h5
        omega
      · cases he
    · rintro ⟨h1, h2, h3⟩
      have h6 := regs_le h.wf (t := t) (fun x hx => (ht.mem x).2 ((h3 x).1 ((h.mem x).1 hx)))
      have h7 := regs_le ht.wf (t := l) (fun x hx => (h.mem x).2 ((h3 x).2 ((ht.mem x).1 hx)))
      rw [h1] at h4; rw [h2] at h5
      simp only [List.length_nil] at h4 h5
      rw [if_pos (show Float.len l = Float.len t by simp only [Float.len]; omega)]
      exact all_contained.2 ⟨h1, fun x hx => (ht.mem x).2 ((h3 x).1 ((h.mem x).1 hx))⟩
  · intro t R M ht
    unfold Float.isSubSet
    have h4 := len_split (Q := Q) (l := l)
    have h5 := len_split (Q := Q) (l := t)
    rw [← perm_nil_iff h.nan]
    constructor
    · intro he
      split at he
      · cases he
      · obtain ⟨h1, h2⟩ := all_contained.1 he
        exact ⟨h1, fun x hx => (ht.mem x).1 (h2 x ((h.mem x).2 hx))⟩
    · rintro ⟨h1, h2⟩
      have h3 : ∀ x, Float.contain Q l x = true → Float.contain Q t x = true := fun x hx => (ht.mem x).2 (h2 x ((h.mem x).1 hx))
      have h6 := regs_le h.wf h3
      rw [h1] at h4
      simp only [List.length_nil] at h4
      rw [if_neg (show ¬ Float.len l > Float.len t by simp only [Float.len]; omega)]
      exact all_contained.2 ⟨h1, h3⟩
  · intro t R M ht
    refine (hd l (ω.f l) (fun x => !Float.contain Q t x) nil_has (ω.perm l) (hcongr t)).congr (fun y => ?_) ?_
    · rw [h.mem, ← ht.mem]; simp
    · rw [hnn]; simpa using h.nan
  · intro t R M ht
    have h1 := hd l (ω.f l) (fun x => !Float.contain Q t x) nil_has (ω.perm l) (hcongr t)
    refine (hd t (ω.f t) (fun x => !Float.contain Q l x) h1 (ω.perm t) (hcongr l)).congr (fun y => ?_) ?_
    · rw [← h.mem, ← ht.mem]; simp
    · rw [hnn, hnn]; simpa using h.nan.append ht.nan
  · intro t R M ht
    refine (hd l (ω.f l) (fun x => Float.contain Q t x) nil_has (ω.perm l) (fun e => contain_congr e)).congr (fun y => ?_) ?_
    · rw [h.mem, ← ht.mem]; simp
    · have : nans Q (l.filter fun x => Float.contain Q t x) = [] := by
        rw [List.eq_nil_iff_forall_not_mem]
        intro x hx
        have h1 := (List.mem_filter.1 (List.mem_filter.1 hx).1).2
        rw [nans_not_contained hx] at h1
        cases h1
      rw [this]; simp
  · intro ts hts
    have key : ∀ (ts : List (List F)) {l : List F} {P : F → Prop} {N : List F}, Has Q l P N →
        Has Q (ts.foldl (fun d t => (ω.f t).foldl (fun d x => (Float.insert Q d x).1) d) l)
          (fun y => P y ∨ ∃ t ∈ ts, Float.contain Q t y = true) (N ++ ts.flatMap (nans Q)) := by
      intro ts
      induction ts with
      | nil => intro l P N h; exact h.congr (fun y => by simp) (by simp)
      | cons t ts ih =>
        intro l P N h
        exact (ih (h.addAll (ω := ω) t)).congr (fun y => by simp [or_assoc]) (by simp)
    have h1 := (nil_has (Q := Q)).addAll (ω := ω) l
    refine (key ts h1).congr (fun y => by rw [h.mem]; simp) ?_
    simpa using h.nan.append_right _

/-! ### Laws of sets -/

/-- What one expects of sets. -/
structure Laws (Q : EqOp F) (ω : Order F) (l : List F) : Prop where
  found : ∀ x ∈ l, contain Q l x = true
  inserted : ∀ x, Q.eq x x = true → contain Q (insert Q l x).1 x = true
  again : ∀ x, Q.eq x x = true → (insert Q (insert Q l x).1 x).2 = false
  undone : ∀ x, Q.eq x x = true → contain Q l x = false → len (remove Q (insert Q l x).1 x).1 = len l
  clone : ∀ l', l'.Perm l → equal Q ω l l' = true
  sub : isSubSet Q ω l l = true
  diff : difference Q ω l l = []
  union : len (union Q ω l [l]) = len l
  inter : len (intersection Q ω l l) = len l
  cleared : clearLoop Q ω l = []

theorem Has.nil_of (h : Has Q l (fun _ => False) []) : l = [] := by
  have h1 := h.nan.eq_nil
  rw [List.eq_nil_iff_forall_not_mem]
  intro x hx
  by_cases e : Q.eq x x = true
  · exact (h.mem x).1 (contain_iff.2 ⟨x, hx, e⟩)
  · have : x ∈ nans Q l := List.mem_filter.2 ⟨hx, by simpa using e⟩
    rw [h1] at this; cases this

/-- C122 for sets all whose elements equal themselves, so for every element type but floats, and for floats that are numbers.
Missing: sets with a NaN (`C122_laws_false`). -/
theorem C122_laws_partial (h : WF Q l) (hn : nans Q l = []) : Laws Q ω l := by
  have hh : Has Q l (fun x => contain Q l x = true) [] := ⟨h, fun _ => Iff.rfl, by rw [hn]⟩
  have w := C121_float (ω := ω) hh
  have hself : ∀ x ∈ l, Q.eq x x = true := by
    intro x hx
    by_contra e
    have : x ∈ nans Q l := List.mem_filter.2 ⟨hx, by simpa using e⟩
    rw [hn] at this; cases this
  refine ⟨fun x hx => contain_iff.2 ⟨x, hx, hself x hx⟩, fun x hx => ((w.insert x).1.mem x).2 (Or.inr hx), ?_, ?_, ?_, ?_, ?_, ?_, ?_, ?_⟩
  · intro x hx
    rw [Bool.eq_false_iff]
    intro e
    exact ((C121_float (ω := ω) (w.insert x).1).insert x).2.1 e (Or.inr hx)
  · intro x hx hc
    have h1 := ((C121_float (ω := ω) (w.insert x).1).remove x).1
    refine w.len _ (h1.congr (fun y => ?_) (by simp [nans, hx]))
    refine ⟨fun ⟨h2, h3⟩ => h2.elim id fun e => absurd e h3, fun h2 => ⟨Or.inl h2, fun e => ?_⟩⟩
    rw [← contain_congr e, hc] at h2; cases h2
  · intro l' hp
    exact (w.equal l' _ [] ⟨h.perm hp.symm, fun _ => Iff.rfl, by rw [(perm_nil_iff (nans_perm hp)).2 hn]⟩).2 ⟨rfl, rfl, fun x => by rw [contain_perm hp]⟩
  · exact (w.isSubSet l _ [] hh).2 ⟨rfl, fun _ h => h⟩
  · exact ((w.difference l _ [] hh).congr (fun y => by simp) (List.Perm.refl _)).nil_of
  · refine w.len _ ((w.union [l] (by simpa using h)).congr (fun y => by simp) (by simp [hn]))
  · exact w.len _ ((w.intersection l _ [] hh).congr (fun y => by simp) (List.Perm.refl _))
  · exact w.clearLoop.nil_of

/-- With a NaN every law but those about other elements fails. -/
theorem C122_laws_false {x : F} (h : WF Q l) (hx : x ∈ l) (hn : Q.eq x x = false) :
    contain Q l x = false ∧ (insert Q l x).2 = true ∧ len (insert Q l x).1 = len l + 1 ∧ (remove Q l x).2 = false ∧
    equal Q ω l l = false ∧ isSubSet Q ω l l = false ∧ difference Q ω l l ≠ [] ∧ len l < len (union Q ω l [l]) ∧
    len (intersection Q ω l l) < len l ∧ clearLoop Q ω l ≠ [] := by
  have hh : Has Q l (fun x => contain Q l x = true) (nans Q l) := ⟨h, fun _ => Iff.rfl, List.Perm.refl _⟩
  have w := C121_float (ω := ω) hh
  have hxn : x ∈ nans Q l := List.mem_filter.2 ⟨hx, by simp [hn]⟩
  have hc : contain Q l x = false := nans_not_contained hxn
  have hne : nans Q l ≠ [] := List.ne_nil_of_mem hxn
  have hpos := List.length_pos_iff.2 hne
  have hlen : ∀ {A : List F} {N}, Has Q A (fun x => contain Q l x = true) N → len A + (nans Q l).length = len l + N.length := by
    intro A N hA
    have h1 := regs_le h (t := A) (fun x hx => (hA.mem x).2 hx)
    have h2 := regs_le hA.wf (t := l) (fun x hx => (hA.mem x).1 hx)
    have h3 := hA.nan.length_eq
    have h4 := len_split (Q := Q) (l := l)
    have h5 := len_split (Q := Q) (l := A)
    simp only [Float.len]
    omega
  have hnil : ∀ {A : List F} {R : F → Prop}, Has Q A R (nans Q l) → A ≠ [] := by
    intro A R hA e
    subst e
    exact hne (hA.nan.symm.eq_nil)
  refine ⟨hc, by simp [Float.insert, hc], by simp [Float.insert, hc, Float.store, Float.len], by simp [Float.remove, hc], ?_, ?_, ?_, ?_, ?_, ?_⟩
  · rw [Bool.eq_false_iff]; intro e; exact hne ((w.equal l _ _ hh).1 e).1
  · rw [Bool.eq_false_iff]; intro e; exact hne ((w.isSubSet l _ _ hh).1 e).1
  · exact hnil (w.difference l _ _ hh)
  · have := hlen ((w.union [l] (by simpa using h)).congr (R := fun x => contain Q l x = true) (fun y => by simp) (List.Perm.refl _))
    simp at this
    omega
  · have := hlen ((w.intersection l _ _ hh).congr (R := fun x => contain Q l x = true) (fun y => by simp) (List.Perm.refl _))
    simp at this
    omega
  · exact hnil w.clearLoop

/-! ### Examples -/

/-- Some floats. -/
inductive Fl where
  | num (n : Nat) | negZero | nan
deriving DecidableEq

/-- `==`: NaN equals nothing, and 0 equals -0. -/
def Fl.eq : Fl → Fl → Bool
  | .nan, _ | _, .nan => false
  | .num m, .num n => m == n
  | .negZero, .num n | .num n, .negZero => n == 0
  | .negZero, .negZero => true

def flEq : EqOp Fl where
  eq := Fl.eq
  symm := by intro a b; cases a <;> cases b <;> simp [Fl.eq]; exact fun h => h.symm
  trans := by intro a b c; cases a <;> cases b <;> cases c <;> simp [Fl.eq] <;> omega

def inOrder : Order Fl := ⟨List.reverse, List.reverse_perm⟩

example : push flEq [] [.num 0, .nan, .negZero, .nan, .num 3] = [.negZero, .nan, .nan, .num 3] := rfl
example : (insert flEq [.num 0] .negZero) = ([.num 0], false) := rfl
example : contain flEq [.negZero, .nan] (.num 0) = true ∧ contain flEq [.negZero, .nan] .nan = false := ⟨rfl, rfl⟩
example : union flEq inOrder [.nan, .num 1] [[.nan, .num 1]] = [.num 1, .nan, .nan] := rfl
example : equal flEq inOrder [.nan] [.nan] = false ∧ isSubSet flEq inOrder [.nan] [.nan, .num 2] = false := ⟨rfl, rfl⟩
example : clearLoop flEq inOrder [.nan, .num 1, .nan] = [.nan, .nan] := rfl
example : Laws flEq inOrder [.negZero, .num 4] := C122_laws_partial (by simp [WF, flEq, Fl.eq]) rfl
example : Has flEq [.nan, .num 1] (fun x => x = .num 1) [.nan] :=
  ⟨by simp [WF, flEq, Fl.eq], by intro x; cases x <;> simp [contain, flEq, Fl.eq]; exact ⟨Eq.symm, Eq.symm⟩, .refl _⟩

end Verif.GoSet.Float
