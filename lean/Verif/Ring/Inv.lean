import Verif.Lib.Lnk
import Verif.Ring.Model
import Mathlib.Tactic.Tauto
/-!
# `ring`: closed chains of pointers
-/
namespace Verif.Ring
open Verif.Ring.Spec
variable {T : Type}

/-- The elements of `C` point to each other in a circle. -/
def Cyc (nx pv : Nat → Option Nat) : List Nat → Prop
  | [] => False
  | a :: t => Lnk nx pv (a :: (t ++ [a]))

theorem Cyc.rot {nx pv : Nat → Option Nat} {A B : List Nat} {y : Nat}
    (h : Cyc nx pv (A ++ y :: B)) : Cyc nx pv (y :: (B ++ A)) := by
  cases A with
  | nil => simpa using h
  | cons a A =>
    have h : Lnk nx pv (a :: A ++ y :: (B ++ [a])) := by simpa [Cyc] using h
    rw [Lnk_mid] at h
    show Lnk nx pv (y :: (B ++ a :: A ++ [y]))
    have e : y :: (B ++ a :: A ++ [y]) = (y :: B) ++ a :: (A ++ [y]) := by simp
    rw [e, Lnk_mid]
    exact ⟨by simpa using h.2, by simpa using h.1⟩

theorem Lnk_get {nx pv : Nat → Option Nat} {l : List Nat} (h : Lnk nx pv l) {i : Nat}
    (hi : i + 1 < l.length) : nx l[i] = some l[i + 1] ∧ pv l[i + 1] = some l[i] := by
  induction l generalizing i with
  | nil => simp at hi
  | cons a l ih =>
    cases l with
    | nil => simp at hi
    | cons b l =>
      cases i with
      | zero => exact ⟨h.1, h.2.1⟩
      | succ i => exact ih h.2.2 (by simp at hi ⊢; omega)

theorem Cyc.get {nx pv : Nat → Option Nat} {C : List Nat} (h : Cyc nx pv C) {i : Nat}
    (hi : i < C.length) : nx C[i] = C[(i + 1) % C.length]? ∧
      ∀ x, C[(i + 1) % C.length]? = some x → pv x = some C[i] := by
  cases C with
  | nil => exact h.elim
  | cons a t =>
    have hl : Lnk nx pv ((a :: t) ++ [a]) := by simpa [Cyc] using h
    have hlen : ((a :: t) ++ [a]).length = (a :: t).length + 1 := by simp
    obtain ⟨h1, h2⟩ := Lnk_get hl (i := i) (by rw [hlen]; omega)
    have e1 : ((a :: t) ++ [a])[i]'(by rw [hlen]; omega) = (a :: t)[i] := by
      rw [List.getElem_append_left hi]
    have e2 : (a :: t)[(i + 1) % (a :: t).length]? =
        some (((a :: t) ++ [a])[i + 1]'(by rw [hlen]; omega)) := by
      rcases Nat.lt_or_ge (i + 1) (a :: t).length with hlt | hge
      · rw [Nat.mod_eq_of_lt hlt, List.getElem_append_left hlt, List.getElem?_eq_getElem hlt]
      · have : i + 1 = (a :: t).length := by omega
        rw [List.getElem_append_right hge]
        simp [this]
    rw [e1] at h1 h2
    rw [e2]
    exact ⟨h1, fun x hx => by injection hx with hx; rw [← hx]; exact h2⟩

theorem at_some {C : List Nat} (hC : C ≠ []) (i : Int) :
    ∃ j, ∃ h : j < C.length, (j : Int) = i % C.length ∧ at_ C i = some C[j] := by
  have hp : 0 < C.length := List.length_pos_iff.2 hC
  have h1 : 0 ≤ i % (C.length : Int) := Int.emod_nonneg _ (by omega)
  have h2 : i % (C.length : Int) < C.length := Int.emod_lt_of_pos _ (by omega)
  refine ⟨(i % C.length).toNat, by omega, by omega, ?_⟩
  unfold at_
  rw [List.getElem?_eq_getElem]

theorem Cyc.ne_nil {nx pv : Nat → Option Nat} {C : List Nat} (h : Cyc nx pv C) : C ≠ [] := by
  rintro rfl; exact h

theorem Cyc.next_at {nx pv : Nat → Option Nat} {C : List Nat} (h : Cyc nx pv C) (i : Int) {x : Nat}
    (hx : at_ C i = some x) : nx x = at_ C (i + 1) := by
  obtain ⟨j, hj, h1, h2⟩ := at_some h.ne_nil i
  rw [h2] at hx
  injection hx with hx
  subst hx
  rw [(h.get hj).1]
  unfold at_
  congr 1
  have : ((i + 1) % (C.length : Int)) = (((j + 1) % C.length : Nat) : Int) := by
    rw [← Int.emod_add_emod, ← h1]; norm_cast
  omega

theorem Cyc.prev_at {nx pv : Nat → Option Nat} {C : List Nat} (h : Cyc nx pv C) (i : Int) {x : Nat}
    (hx : at_ C i = some x) : pv x = at_ C (i - 1) := by
  obtain ⟨j, hj, h1, h2⟩ := at_some h.ne_nil (i - 1)
  rw [h2]
  refine (h.get hj).2 x ?_
  rw [← hx]
  unfold at_
  congr 1
  have : (i % (C.length : Int)) = (((j + 1) % C.length : Nat) : Int) := by
    have : i = (i - 1) + 1 := by omega
    rw [this, ← Int.emod_add_emod, ← h1]; norm_cast
  omega

theorem at_zero {x : Nat} {t : List Nat} : at_ (x :: t) 0 = some x := by simp [at_]

theorem Cyc.walk_next {nx pv : Nat → Option Nat} {C : List Nat} (h : Cyc nx pv C) (k : Nat)
    (i : Int) : walk nx k (at_ C i) = some (at_ C (i + k)) := by
  induction k generalizing i with
  | zero => simp [walk]
  | succ k ih =>
    obtain ⟨j, hj, _, h2⟩ := at_some h.ne_nil i
    have := h.next_at i h2
    rw [h2]
    simp only [walk, Option.bind_eq_bind, Option.bind_some, this, ih]
    congr 2
    push_cast
    omega

theorem Cyc.walk_prev {nx pv : Nat → Option Nat} {C : List Nat} (h : Cyc nx pv C) (k : Nat)
    (i : Int) : walk pv k (at_ C i) = some (at_ C (i - k)) := by
  induction k generalizing i with
  | zero => simp [walk]
  | succ k ih =>
    obtain ⟨j, hj, _, h2⟩ := at_some h.ne_nil i
    have := h.prev_at i h2
    rw [h2]
    simp only [walk, Option.bind_eq_bind, Option.bind_some, this, ih]
    congr 2
    push_cast
    omega

/-- Going around from `r`. -/
theorem Cyc.loop {A : Type} {m : Mem T} {r : Nat} {t : List Nat} (h : Cyc m.next m.prev (r :: t))
    (hn : (r :: t).Nodup) (body : A → Nat → A) : ∀ (a : A) (fuel : Nat), t.length < fuel →
      loop m r body fuel a (at_ (r :: t) 1) = some (t.foldl body a) := by
  have key : ∀ (t2 t1 : List Nat), t = t1 ++ t2 → ∀ (a : A) (fuel : Nat), t2.length < fuel →
      Ring.loop m r body fuel a (at_ (r :: t) (t1.length + 1)) = some (t2.foldl body a) := by
    intro t2
    induction t2 with
    | nil =>
      intro t1 ht a fuel hf
      cases fuel with
      | zero => simp at hf
      | succ k =>
        have : at_ (r :: t) (t1.length + 1) = some r := by
          simp [at_, ht]
        simp [Ring.loop, this]
    | cons x t2 ih =>
      intro t1 ht a fuel hf
      cases fuel with
      | zero => simp at hf
      | succ k =>
        have hat : at_ (r :: t) (t1.length + 1) = some x := by
          unfold at_
          have : (((t1.length : Int) + 1) % ((r :: t).length : Int)).toNat = t1.length + 1 := by
            rw [Int.emod_eq_of_lt (by omega) (by simp [ht]; omega)]; omega
          rw [this]
          simp [ht]
        have hne : x ≠ r := by
          rintro rfl
          rw [List.nodup_cons, ht] at hn
          simp at hn
        have hnx := h.next_at _ hat
        have := ih (t1 ++ [x]) (by simp [ht]) (body a x) k (by simp at hf; omega)
        rw [hat]
        simp only [Ring.loop, Option.some.injEq, hne, if_false, Option.bind_eq_bind, Option.bind_some,
          List.foldl_cons]
        rw [hnx, ← this]
        congr 1
        simp
  intro a fuel hf
  exact key t [] rfl a fuel hf

/-! ## The invariant -/

/-- `C` is a ring in memory: a circle, or an element that has not been initialised. -/
def OkRing (m : Mem T) (C : List Nat) : Prop :=
  (∃ x, C = [x] ∧ m.next x = none) ∨ Cyc m.next m.prev C

structure Rep (m : Mem T) (ring : Nat → List Nat) : Prop where
  head : ∀ x, x < m.fresh → ∃ t, ring x = x :: t
  un : ∀ x, m.fresh ≤ x → ring x = []
  nodup : ∀ x, (ring x).Nodup
  alloc : ∀ x, ∀ y ∈ ring x, y < m.fresh
  rot : ∀ x A y B, ring x = A ++ y :: B → ring y = y :: (B ++ A)
  ok : ∀ x, x < m.fresh → OkRing m (ring x)

theorem Rep.lt {m : Mem T} {ring : Nat → List Nat} (h : Rep m ring) {x : Nat} (hx : ring x ≠ []) :
    x < m.fresh := by
  rcases Nat.lt_or_ge x m.fresh with h1 | h1
  · exact h1
  · exact absurd (h.un x h1) hx

/-- Elements of the same ring have the same elements in their ring. -/
theorem Rep.mem_iff {m : Mem T} {ring : Nat → List Nat} (h : Rep m ring) {x y : Nat}
    (hy : y ∈ ring x) (z : Nat) : z ∈ ring y ↔ z ∈ ring x := by
  obtain ⟨A, B, e⟩ := List.append_of_mem hy
  rw [h.rot x A y B e, e]
  simp only [List.mem_cons, List.mem_append]
  tauto

theorem Rep.self_mem {m : Mem T} {ring : Nat → List Nat} (h : Rep m ring) {x : Nat}
    (hx : x < m.fresh) : x ∈ ring x := by
  obtain ⟨t, e⟩ := h.head x hx
  rw [e]; simp

theorem takeWhile_ne {A B : List Nat} {x : Nat} (h : x ∉ A) :
    (A ++ x :: B).takeWhile (· ≠ x) = A ∧ (A ++ x :: B).dropWhile (· ≠ x) = x :: B := by
  induction A with
  | nil => simp
  | cons a A ih =>
    simp only [List.mem_cons, not_or] at h
    have ha : a ≠ x := fun e => h.1 e.symm
    have := ih h.2
    simp only [List.cons_append, List.takeWhile_cons, List.dropWhile_cons, ha, ne_eq,
      not_false_eq_true, decide_true, if_true]
    simpa using this

theorem takeWhile_not_mem {A : List Nat} {x : Nat} (h : x ∉ A) :
    A.takeWhile (· ≠ x) = A ∧ A.dropWhile (· ≠ x) = [] := by
  induction A with
  | nil => simp
  | cons a A ih =>
    simp only [List.mem_cons, not_or] at h
    have ha : a ≠ x := fun e => h.1 e.symm
    have := ih h.2
    simp only [List.takeWhile_cons, List.dropWhile_cons, ha, ne_eq,
      not_false_eq_true, decide_true, if_true]
    simpa using this

theorem rotTo_split {A B : List Nat} {x : Nat} (h : x ∉ A) : rotTo x (A ++ x :: B) = x :: (B ++ A) := by
  obtain ⟨h1, h2⟩ := takeWhile_ne (B := B) h
  unfold rotTo
  rw [h1, h2]; simp

theorem split_of_mem {C : List Nat} (hn : C.Nodup) {x : Nat} (hx : x ∈ C) :
    ∃ A B, C = A ++ x :: B ∧ x ∉ A ∧ rotTo x C = x :: (B ++ A) := by
  obtain ⟨A, B, rfl⟩ := List.append_of_mem hx
  have : x ∉ A := by
    intro hA
    rw [List.nodup_append] at hn
    exact hn.2.2 x hA x (by simp) rfl
  exact ⟨A, B, rfl, this, rotTo_split this⟩

theorem mem_rotTo {C : List Nat} (hn : C.Nodup) {x : Nat} (hx : x ∈ C) (y : Nat) :
    y ∈ rotTo x C ↔ y ∈ C := by
  obtain ⟨A, B, rfl, _, e⟩ := split_of_mem hn hx
  rw [e]; simp only [List.mem_cons, List.mem_append]; tauto

theorem nodup_rotTo {C : List Nat} (hn : C.Nodup) {x : Nat} (hx : x ∈ C) : (rotTo x C).Nodup := by
  obtain ⟨A, B, rfl, _, e⟩ := split_of_mem hn hx
  rw [e]
  have : (x :: (B ++ A)).Perm (A ++ x :: B) :=
    ((List.perm_append_comm (l₁ := B) (l₂ := A)).cons x).trans List.perm_middle.symm
  exact this.nodup_iff.2 hn

/-- Rotating twice. -/
theorem rotTo_rot {C : List Nat} (hn : C.Nodup) {x : Nat} (hx : x ∈ C) {A B : List Nat} {y : Nat}
    (h : rotTo x C = A ++ y :: B) : rotTo y C = y :: (B ++ A) := by
  obtain ⟨A', B', rfl, hxA, e⟩ := split_of_mem hn hx
  rw [e] at h
  have hy : y ∈ A' ++ x :: B' := by
    have : y ∈ x :: (B' ++ A') := by rw [h]; simp
    simp only [List.mem_cons, List.mem_append] at this ⊢
    tauto
  cases A with
  | nil =>
    simp only [List.nil_append, List.cons.injEq] at h
    obtain ⟨rfl, rfl⟩ := h
    rw [e]; simp
  | cons a A =>
    simp only [List.cons_append, List.cons.injEq] at h
    obtain ⟨rfl, h⟩ := h
    rcases List.append_eq_append_iff.1 h with ⟨l, rfl, h2⟩ | ⟨l, rfl, h2⟩
    · -- y in A'
      subst h2
      have hyl : y ∉ l := by
        intro hl
        rw [List.nodup_append] at hn
        have := hn.1
        rw [List.nodup_append] at this
        exact this.2.2 y hl y (by simp) rfl
      have := rotTo_split (A := l) (B := B ++ x :: B') (x := y) hyl
      simpa using this
    · -- y in B'
      cases l with
      | nil =>
        simp only [List.nil_append] at h2
        subst h2
        have := rotTo_split (A := []) (B := B ++ x :: A) (x := y) (by simp)
        simpa using this
      | cons c l =>
        simp only [List.cons_append, List.cons.injEq] at h2
        obtain ⟨rfl, rfl⟩ := h2
        have hyl : y ∉ A' ++ x :: A := by
          intro hl
          have e2 : A' ++ x :: (A ++ y :: l) = (A' ++ x :: A) ++ y :: l := by simp
          rw [e2, List.nodup_append] at hn
          exact hn.2.2 y hl y (by simp) rfl
        have := rotTo_split (A := A' ++ x :: A) (B := l) (x := y) hyl
        simpa using this

theorem OkRing.rotTo {m : Mem T} {C : List Nat} (h : OkRing m C) (hn : C.Nodup) {x : Nat}
    (hx : x ∈ C) : OkRing m (rotTo x C) := by
  obtain ⟨A, B, rfl, _, e⟩ := split_of_mem hn hx
  rw [e]
  rcases h with ⟨y, h1, h2⟩ | h
  · have : A = [] := by cases A <;> simp_all
    subst this
    simp only [List.nil_append, List.cons.injEq] at h1
    obtain ⟨rfl, rfl⟩ := h1
    exact Or.inl ⟨x, rfl, h2⟩
  · exact Or.inr h.rot

theorem Cyc.congr {nx pv nx' pv' : Nat → Option Nat} {C : List Nat} (h : Cyc nx pv C)
    (h1 : ∀ x ∈ C, nx' x = nx x ∧ pv' x = pv x) : Cyc nx' pv' C := by
  cases C with
  | nil => exact h
  | cons a t =>
    refine Lnk_congr _ (fun x hx => (h1 x ?_).1) (fun x hx => (h1 x ?_).2) h
    · have := List.dropLast_subset _ hx
      simp only [List.mem_cons, List.mem_append, List.not_mem_nil, or_false] at this ⊢; tauto
    · have := List.mem_of_mem_tail hx
      simp only [List.mem_cons, List.mem_append, List.not_mem_nil, or_false] at this ⊢; tauto

theorem OkRing.congr {m m' : Mem T} {C : List Nat} (h : OkRing m C)
    (h1 : ∀ x ∈ C, m'.next x = m.next x ∧ m'.prev x = m.prev x) : OkRing m' C := by
  rcases h with ⟨x, rfl, h2⟩ | h
  · exact Or.inl ⟨x, rfl, by rw [(h1 x (by simp)).1, h2]⟩
  · exact Or.inr (h.congr h1)

/-- The elements of `C1` and `C2` are now in these rings. -/
def ring2 (ring : Nat → List Nat) (C1 C2 : List Nat) (x : Nat) : List Nat :=
  if x ∈ C1 then rotTo x C1 else if x ∈ C2 then rotTo x C2 else ring x

theorem Rep.update {m m' : Mem T} {ring : Nat → List Nat} (h : Rep m ring) {C1 C2 : List Nat}
    (hf : m.fresh ≤ m'.fresh) (hn : (C1 ++ C2).Nodup)
    (ho1 : C1 = [] ∨ OkRing m' C1) (ho2 : C2 = [] ∨ OkRing m' C2)
    (hlt : ∀ x ∈ C1 ++ C2, x < m'.fresh)
    (hcl : ∀ x ∈ C1 ++ C2, ∀ y ∈ ring x, y ∈ C1 ++ C2)
    (hcov : ∀ x, m.fresh ≤ x → x < m'.fresh → x ∈ C1 ++ C2)
    (hfr : ∀ x, x ∉ C1 ++ C2 → m'.next x = m.next x ∧ m'.prev x = m.prev x) :
    Rep m' (ring2 ring C1 C2) := by
  have hn1 : C1.Nodup := (List.nodup_append.1 hn).1
  have hn2 : C2.Nodup := (List.nodup_append.1 hn).2.1
  have hd : ∀ x ∈ C1, x ∉ C2 := fun x h1 h2 => (List.nodup_append.1 hn).2.2 x h1 x h2 rfl
  have cases3 : ∀ x, (x ∈ C1 ∧ ring2 ring C1 C2 x = rotTo x C1) ∨
      (x ∈ C2 ∧ ring2 ring C1 C2 x = rotTo x C2) ∨
      (x ∉ C1 ++ C2 ∧ ring2 ring C1 C2 x = ring x) := by
    intro x
    by_cases h1 : x ∈ C1
    · exact Or.inl ⟨h1, by simp [ring2, h1]⟩
    · by_cases h2 : x ∈ C2
      · exact Or.inr (Or.inl ⟨h2, by simp [ring2, h1, h2]⟩)
      · exact Or.inr (Or.inr ⟨by simp [h1, h2], by simp [ring2, h1, h2]⟩)
  -- an element outside has no element of C1, C2 in its ring
  have hout : ∀ x, x ∉ C1 ++ C2 → ∀ y ∈ ring x, y ∉ C1 ++ C2 := by
    intro x hx y hy hyC
    have hxf : x < m.fresh := h.lt (List.ne_nil_of_mem hy)
    exact hx (hcl y hyC x ((h.mem_iff hy x).2 (h.self_mem hxf)))
  refine ⟨?_, ?_, ?_, ?_, ?_, ?_⟩
  · intro x hx
    rcases cases3 x with ⟨h1, e⟩ | ⟨h1, e⟩ | ⟨h1, e⟩ <;> rw [e]
    · obtain ⟨A, B, _, _, e⟩ := split_of_mem hn1 h1; exact ⟨_, e⟩
    · obtain ⟨A, B, _, _, e⟩ := split_of_mem hn2 h1; exact ⟨_, e⟩
    · rcases Nat.lt_or_ge x m.fresh with h2 | h2
      · exact h.head x h2
      · exact absurd (hcov x h2 hx) h1
  · intro x hx
    rcases cases3 x with ⟨h1, e⟩ | ⟨h1, e⟩ | ⟨h1, e⟩
    · have := hlt x (by simp [h1]); omega
    · have := hlt x (by simp [h1]); omega
    · rw [e]; exact h.un x (by omega)
  · intro x
    rcases cases3 x with ⟨h1, e⟩ | ⟨h1, e⟩ | ⟨h1, e⟩ <;> rw [e]
    · exact nodup_rotTo hn1 h1
    · exact nodup_rotTo hn2 h1
    · exact h.nodup x
  · intro x y hy
    rcases cases3 x with ⟨h1, e⟩ | ⟨h1, e⟩ | ⟨h1, e⟩ <;> rw [e] at hy
    · exact hlt y (by rw [mem_rotTo hn1 h1] at hy; simp [hy])
    · exact hlt y (by rw [mem_rotTo hn2 h1] at hy; simp [hy])
    · exact Nat.lt_of_lt_of_le (h.alloc x y hy) hf
  · intro x A y B he
    have hy : y ∈ ring2 ring C1 C2 x := by rw [he]; simp
    rcases cases3 x with ⟨h1, e⟩ | ⟨h1, e⟩ | ⟨h1, e⟩ <;> rw [e] at hy he
    · rw [mem_rotTo hn1 h1] at hy
      rw [show ring2 ring C1 C2 y = rotTo y C1 by simp [ring2, hy]]
      exact rotTo_rot hn1 h1 he
    · rw [mem_rotTo hn2 h1] at hy
      have hy1 : y ∉ C1 := fun hc => hd y hc hy
      rw [show ring2 ring C1 C2 y = rotTo y C2 by simp [ring2, hy, hy1]]
      exact rotTo_rot hn2 h1 he
    · have := hout x h1 y hy
      rw [List.mem_append, not_or] at this
      rw [show ring2 ring C1 C2 y = ring y by simp [ring2, this.1, this.2]]
      exact h.rot x A y B he
  · intro x hx
    rcases cases3 x with ⟨h1, e⟩ | ⟨h1, e⟩ | ⟨h1, e⟩ <;> rw [e]
    · exact (ho1.resolve_left (List.ne_nil_of_mem h1)).rotTo hn1 h1
    · exact (ho2.resolve_left (List.ne_nil_of_mem h1)).rotTo hn2 h1
    · rcases Nat.lt_or_ge x m.fresh with h2 | h2
      · exact (h.ok x h2).congr fun y hy => hfr y (hout x h1 y hy)
      · exact absurd (hcov x h2 hx) h1

/-- `Next` and `Prev` initialise an element. -/
def norm (m : Mem T) (r : Nat) : Mem T := if m.next r = none then init m r else m

theorem Rep.norm {m : Mem T} {ring : Nat → List Nat} (h : Rep m ring) {r : Nat} (hr : r < m.fresh) :
    Rep (norm m r) ring ∧ Cyc (Ring.norm m r).next (Ring.norm m r).prev (ring r) ∧
      (Ring.norm m r).fresh = m.fresh ∧ (Ring.norm m r).val = m.val ∧
      (Ring.norm m r).next r ≠ none := by
  unfold Ring.norm
  split
  · next hz =>
    have hring : ring r = [r] := by
      rcases h.ok r hr with ⟨x, h1, h2⟩ | hc
      · obtain ⟨t, e⟩ := h.head r hr
        rw [e] at h1
        simp only [List.cons.injEq] at h1
        rw [e, h1.2]
      · obtain ⟨t, e⟩ := h.head r hr
        rw [e] at hc
        have := hc.next_at 0 at_zero
        rw [hz] at this
        obtain ⟨_, _, _, h2⟩ := at_some (C := r :: t) (by simp) (0 + 1)
        rw [h2] at this; cases this
    have hc : Cyc (init m r).next (init m r).prev [r] := by
      simp [Cyc, init, Mem.setNext, Mem.setPrev, upd]
    have := h.update (m' := init m r) (C1 := [r]) (C2 := []) (Nat.le_refl _) (by simp)
      (Or.inr (Or.inr hc)) (Or.inl rfl) (by simp; exact hr)
      (by simp [hring])
      (fun x h1 h2 => by
        have : (init m r).fresh = m.fresh := rfl
        omega)
      (fun x hx => by simp at hx; simp [init, Mem.setNext, Mem.setPrev, upd, hx])
    have e : ring2 ring [r] [] = ring := by
      funext x
      by_cases hx : x = r
      · subst hx; simp [ring2, hring, rotTo]
      · simp [ring2, hx]
    rw [e] at this
    exact ⟨this, by rw [hring]; exact hc, rfl, rfl, by simp [init, Mem.setNext, Mem.setPrev, upd]⟩
  · next hz =>
    refine ⟨h, ?_, rfl, rfl, hz⟩
    rcases h.ok r hr with ⟨x, h1, h2⟩ | hc
    · obtain ⟨t, e⟩ := h.head r hr
      rw [e] at h1
      simp only [List.cons.injEq] at h1
      rw [h1.1] at hz
      exact absurd h2 hz
    · exact hc

theorem next_eq (m : Mem T) (r : Nat) : next m r = (norm m r, (norm m r).next r) := by
  unfold next norm
  split <;> simp [init, Mem.setNext, Mem.setPrev, upd]

theorem prev_eq (m : Mem T) (r : Nat) : prev m r = (norm m r, (norm m r).prev r) := by
  unfold prev norm
  split <;> simp [init, Mem.setNext, Mem.setPrev, upd]

end Verif.Ring
