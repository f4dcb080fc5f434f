/-!
# Doubly linked chains

`Lnk nx pv [a, b, c]` says that `a`, `b`, `c` are linked consecutively: `nx a = b`, `pv b = a`,
`nx b = c`, `pv c = b`.  Shared by the `dllist` and `ring` proofs.
-/
namespace Verif
variable {P : Type}

def Lnk (nx pv : P → Option P) : List P → Prop
  | [] => True
  | [_] => True
  | a :: b :: l => nx a = some b ∧ pv b = some a ∧ Lnk nx pv (b :: l)

@[simp] theorem Lnk_nil (nx pv : P → Option P) : Lnk nx pv [] := trivial
@[simp] theorem Lnk_single (nx pv : P → Option P) (a : P) : Lnk nx pv [a] := trivial
@[simp] theorem Lnk_cons_cons (nx pv : P → Option P) (a b : P) (l : List P) :
    Lnk nx pv (a :: b :: l) ↔ nx a = some b ∧ pv b = some a ∧ Lnk nx pv (b :: l) := Iff.rfl

/-- Splitting a chain at a link. -/
theorem Lnk_split (nx pv : P → Option P) (xs : List P) (a b : P) (ys : List P) :
    Lnk nx pv (xs ++ a :: b :: ys) ↔
      Lnk nx pv (xs ++ [a]) ∧ nx a = some b ∧ pv b = some a ∧ Lnk nx pv (b :: ys) := by
  induction xs with
  | nil => simp
  | cons x xs ih =>
    cases xs with
    | nil => simp [and_assoc]
    | cons y xs => simp only [List.cons_append, Lnk_cons_cons] at *; rw [ih]; simp [and_assoc]

/-- Splitting a chain at an element. -/
theorem Lnk_mid (nx pv : P → Option P) (xs : List P) (a : P) (ys : List P) :
    Lnk nx pv (xs ++ a :: ys) ↔ Lnk nx pv (xs ++ [a]) ∧ Lnk nx pv (a :: ys) := by
  cases ys with
  | nil => simp
  | cons b ys => rw [Lnk_split]; simp

theorem Lnk_congr {nx pv nx' pv' : P → Option P} (l : List P)
    (h1 : ∀ x ∈ l.dropLast, nx' x = nx x) (h2 : ∀ x ∈ l.tail, pv' x = pv x)
    (h : Lnk nx pv l) : Lnk nx' pv' l := by
  induction l with
  | nil => trivial
  | cons a l ih =>
    cases l with
    | nil => trivial
    | cons b l =>
      simp only [Lnk_cons_cons] at *
      refine ⟨by rw [h1 a (by simp)]; exact h.1, by rw [h2 b (by simp)]; exact h.2.1,
        ih (fun x hx => h1 x ?_) (fun x hx => h2 x ?_) h.2.2⟩
      · simp only [List.dropLast_cons_cons]; exact List.mem_cons_of_mem _ hx
      · simp at hx ⊢; exact Or.inr hx

/-- Frame rule for a chain that ends in `a`. -/
theorem Lnk_congr_left {nx pv nx' pv' : P → Option P} (xs : List P) (a : P)
    (h1 : ∀ x ∈ xs, nx' x = nx x) (h2 : ∀ x ∈ (xs ++ [a]).tail, pv' x = pv x)
    (h : Lnk nx pv (xs ++ [a])) : Lnk nx' pv' (xs ++ [a]) :=
  Lnk_congr _ (by simpa using h1) h2 h

/-- The chain is free of repetitions, except that the first and last element may coincide. -/
def Loop (C : List P) : Prop := C.dropLast.Nodup ∧ C.tail.Nodup

/-- Inserting `e` between `p` and `q`. -/
theorem Lnk_insert {nx pv nx' pv' : P → Option P} (A : List P) (p q : P) (B : List P) (e : P)
    (hC : Loop (A ++ p :: q :: B)) (he : e ∉ A ++ p :: q :: B)
    (h : Lnk nx pv (A ++ p :: q :: B))
    (hn : ∀ x, x ≠ p → x ≠ e → nx' x = nx x) (hnp : nx' p = some e) (hne : nx' e = some q)
    (hv : ∀ x, x ≠ q → x ≠ e → pv' x = pv x) (hvq : pv' q = some e) (hve : pv' e = some p) :
    Lnk nx' pv' (A ++ p :: e :: q :: B) := by
  obtain ⟨hd, ht⟩ := hC
  rw [Lnk_split] at h ⊢
  obtain ⟨h1, _, _, h4⟩ := h
  rw [Lnk_cons_cons]
  have e1 : A ++ p :: q :: B = (A ++ [p]) ++ (q :: B) := by simp
  rw [e1, List.dropLast_append_of_ne_nil (by simp)] at hd
  rw [e1, List.tail_append_of_ne_nil (by simp)] at ht
  rw [List.nodup_append] at hd ht
  refine ⟨Lnk_congr_left _ _ ?_ ?_ h1, hnp, hve, hne, hvq, Lnk_congr _ ?_ ?_ h4⟩
  · intro x hx
    refine hn x ?_ ?_
    · rintro rfl; have := hd.1; rw [List.nodup_append] at this; simp at this; exact this.2 x hx rfl
    · rintro rfl; exact he (by simp [hx])
  · intro x hx
    refine hv x ?_ ?_
    · rintro rfl; exact ht.2.2 _ hx _ (by simp) rfl
    · rintro rfl
      have := List.mem_of_mem_tail hx
      simp at this; exact he (by simp; rcases this with h | h <;> simp [h])
  · intro x hx
    refine hn x ?_ ?_
    · rintro rfl; exact hd.2.2 _ (by simp) _ hx rfl
    · rintro rfl; have := List.dropLast_subset _ hx; simp at this
      exact he (by simp; rcases this with h | h <;> simp [h])
  · intro x hx
    simp only [List.tail_cons] at hx
    refine hv x ?_ ?_
    · rintro rfl; have := ht.2.1; simp at this; exact this.1 hx
    · rintro rfl; exact he (by simp [hx])

/-- Removing `e` from between `p` and `q`. -/
theorem Lnk_remove {nx pv nx' pv' : P → Option P} (A : List P) (p e q : P) (B : List P)
    (hC : Loop (A ++ p :: e :: q :: B))
    (h : Lnk nx pv (A ++ p :: e :: q :: B))
    (hn : ∀ x, x ≠ p → x ≠ e → nx' x = nx x) (hnp : nx' p = some q)
    (hv : ∀ x, x ≠ q → x ≠ e → pv' x = pv x) (hvq : pv' q = some p) :
    Lnk nx' pv' (A ++ p :: q :: B) := by
  obtain ⟨hd, ht⟩ := hC
  rw [Lnk_split] at h ⊢
  obtain ⟨h1, _, _, h4⟩ := h
  rw [Lnk_cons_cons] at h4
  have e1 : A ++ p :: e :: q :: B = (A ++ [p]) ++ (e :: q :: B) := by simp
  rw [e1, List.dropLast_append_of_ne_nil (by simp)] at hd
  rw [e1, List.tail_append_of_ne_nil (by simp)] at ht
  rw [List.nodup_append] at hd ht
  refine ⟨Lnk_congr_left _ _ ?_ ?_ h1, hnp, hvq, Lnk_congr _ ?_ ?_ h4.2.2⟩
  · intro x hx
    refine hn x ?_ ?_
    · rintro rfl; have := hd.1; rw [List.nodup_append] at this; simp at this; exact this.2 x hx rfl
    · rintro rfl; exact hd.2.2 x (by simp [hx]) x (by simp) rfl
  · intro x hx
    refine hv x ?_ ?_
    · rintro rfl; exact ht.2.2 x hx x (by simp) rfl
    · rintro rfl; exact ht.2.2 x hx x (by simp) rfl
  · intro x hx
    refine hn x ?_ ?_
    · rintro rfl; exact hd.2.2 x (by simp) x (by simp [hx]) rfl
    · rintro rfl; have := hd.2.1; simp at this; exact this.1 hx
  · intro x hx
    simp only [List.tail_cons] at hx
    have := ht.2.1; simp at this
    refine hv x ?_ ?_
    · rintro rfl; exact this.2.1 hx
    · rintro rfl; exact this.1.2 hx

/-- A cyclic chain keeps its `Loop` property when an inner element is dropped. -/
theorem Loop_remove {A : List P} {p e q : P} {B : List P} (h : Loop (A ++ p :: e :: q :: B)) :
    Loop (A ++ p :: q :: B) := by
  obtain ⟨hd, ht⟩ := h
  constructor
  · refine List.Nodup.sublist ?_ hd
    rw [List.dropLast_append_of_ne_nil (by simp), List.dropLast_append_of_ne_nil (by simp)]
    simp
  · refine List.Nodup.sublist ?_ ht
    cases A <;> simp

/-- Relabelling a chain by a map. -/
theorem Lnk_map {nx pv nx' pv' : P → Option P} (f : P → P) (C : List P)
    (h : Lnk nx pv C)
    (hn : ∀ x ∈ C.dropLast, nx' (f x) = (nx x).map f)
    (hv : ∀ x ∈ C.tail, pv' (f x) = (pv x).map f) :
    Lnk nx' pv' (C.map f) := by
  induction C with
  | nil => trivial
  | cons a l ih =>
    cases l with
    | nil => trivial
    | cons b l =>
      simp only [Lnk_cons_cons, List.map_cons] at *
      refine ⟨by rw [hn a (by simp), h.1]; rfl, by rw [hv b (by simp), h.2.1]; rfl,
        ih h.2.2 (fun x hx => hn x ?_) (fun x hx => hv x ?_)⟩
      · simp only [List.dropLast_cons_cons]; exact List.mem_cons_of_mem _ hx
      · simp at hx ⊢; exact Or.inr hx

/-- Every element but the last has a successor in the chain, which points back. -/
theorem Lnk_succ {nx pv : P → Option P} {C : List P} (h : Lnk nx pv C) {x : P}
    (hx : x ∈ C.dropLast) : ∃ y ∈ C.tail, nx x = some y ∧ pv y = some x := by
  induction C with
  | nil => simp at hx
  | cons a l ih =>
    cases l with
    | nil => simp at hx
    | cons b l =>
      simp only [Lnk_cons_cons, List.dropLast_cons_cons, List.mem_cons] at *
      rcases hx with rfl | hx
      · exact ⟨b, by simp, h.1, h.2.1⟩
      · obtain ⟨y, hy, h'⟩ := ih h.2.2 hx
        exact ⟨y, by simp at hy ⊢; exact Or.inr hy, h'⟩

/-- Every element but the first has a predecessor in the chain, which points forward. -/
theorem Lnk_pred {nx pv : P → Option P} {C : List P} (h : Lnk nx pv C) {x : P}
    (hx : x ∈ C.tail) : ∃ y ∈ C.dropLast, pv x = some y ∧ nx y = some x := by
  induction C with
  | nil => simp at hx
  | cons a l ih =>
    cases l with
    | nil => simp at hx
    | cons b l =>
      simp only [Lnk_cons_cons, List.dropLast_cons_cons, List.tail_cons, List.mem_cons] at *
      rcases hx with rfl | hx
      · exact ⟨a, by simp, h.2.1, h.1⟩
      · obtain ⟨y, hy, h'⟩ := ih h.2.2 hx
        exact ⟨y, Or.inr hy, h'⟩

end Verif
