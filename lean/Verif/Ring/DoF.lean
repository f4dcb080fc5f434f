import Verif.Lib.Pan
import Verif.Ring.Retain
/-!
# `Ring.Do` with a function that changes rings, or panics (C185)

The function given to `Do` is any function of the value on the memory of the rings and a state `A` of its own, which may
panic; `Pan` keeps what a panic leaves.
-/
namespace Verif.Ring.DoF
open Verif.Ring Verif.Ring.Spec
variable {T A : Type}

/-- The rings, and what else the function uses. -/
structure World (T A : Type) where
  m : Mem T
  a : A

/-- How `Do` ends: it returns, its function panics, or it panics because of a nil pointer. -/
inductive End
  | returns
  | panics
  | nil
  deriving DecidableEq

/-- The loop of `Do`: ring.go:94-96; `p` is the loop variable. -/
def doLoop (f : T → Pan (World T A) Unit) (r : Nat) : Nat → World T A → Option Nat → Option (World T A × End)
  | 0, _, _ => none
  | k + 1, w, p =>
    if p = some r then some (w, .returns)
    else match p with
      | none => some (w, .nil)
      | some q => match (f (w.m.val q)).run w with
        | (w, none) => some (w, .panics)
        | (w, some _) => doLoop f r k w (w.m.next q)

/-- `Do(f)`: ring.go:91-98. -/
def doF (f : T → Pan (World T A) Unit) (fuel : Nat) (w : World T A) : Option Nat → Option (World T A × End)
  | none => some (w, .returns)
  | some r => match (f (w.m.val r)).run w with
    | (w, none) => some (w, .panics)
    | (w, some _) =>
      let (m, p) := next w.m r
      doLoop f r fuel { w with m } p

/-! ## Specification -/

/-- What `x.Next()` returns and does to the memory, for the first element; the loop reads the field of the others. -/
def goOn (r x : Nat) (w : World T A) : World T A × Option Nat :=
  if x = r then ({ w with m := (next w.m r).1 }, (next w.m r).2) else (w, w.m.next x)

/-- `Do` of `r` has come to element `x`, calls its function with the elements `vs`, the first of them `x`, and ends with `o`. -/
inductive Does (f : T → Pan (World T A) Unit) (r : Nat) : Nat → World T A → List Nat → World T A → End → Prop
  | panics {x w w'} : (f (w.m.val x)).run w = (w', none) → Does f r x w [x] w' .panics
  | nil {x w w' w''} : (f (w.m.val x)).run w = (w', some ()) → goOn r x w' = (w'', none) → Does f r x w [x] w'' .nil
  | returns {x w w' w''} : (f (w.m.val x)).run w = (w', some ()) → goOn r x w' = (w'', some r) → Does f r x w [x] w'' .returns
  | goes {x y w w' w'' v vs o} : (f (w.m.val x)).run w = (w', some ()) → goOn r x w' = (w'', some y) → y ≠ r →
      Does f r y w'' vs v o → Does f r x w (x :: vs) v o

/-- From `x` one comes over the elements `B` to `r`. -/
def Path (m : Mem T) (r : Nat) : Nat → List Nat → Prop
  | x, [] => m.next x = some r
  | x, y :: B => m.next x = some y ∧ y ≠ r ∧ Path m r y B

/-! ## What `Do` does, for every function -/

variable {f : T → Pan (World T A) Unit} {r : Nat}

theorem loop_does {k : Nat} {w v : World T A} {y : Nat} {o : End} (hy : y ≠ r) (h : doLoop f r k w (some y) = some (v, o)) :
    ∃ vs, Does f r y w vs v o := by
  induction k generalizing w y with
  | zero => cases h
  | succ k ih =>
    rw [doLoop, if_neg (by simpa using hy)] at h
    cases hf : (f (w.m.val y)).run w with
    | mk w1 c =>
      rw [hf] at h
      cases c with
      | none => simp only [Option.some.injEq, Prod.mk.injEq] at h; obtain ⟨rfl, rfl⟩ := h; exact ⟨_, .panics hf⟩
      | some u =>
        simp only at h
        have hg : goOn r y w1 = (w1, w1.m.next y) := by rw [goOn, if_neg hy]
        cases hn : w1.m.next y with
        | none =>
          rw [hn] at h hg
          cases k with
          | zero => cases h
          | succ k => simp [doLoop] at h; obtain ⟨rfl, rfl⟩ := h; exact ⟨_, .nil hf hg⟩
        | some z =>
          rw [hn] at h hg
          by_cases hz : z = r
          · subst hz
            cases k with
            | zero => cases h
            | succ k => simp [doLoop] at h; obtain ⟨rfl, rfl⟩ := h; exact ⟨_, .returns hf hg⟩
          · obtain ⟨vs, hd⟩ := ih hz h
            exact ⟨_, .goes hf hg hz hd⟩

theorem does_loop {w v : World T A} {y : Nat} {o : End} {vs : List Nat} (hd : Does f r y w vs v o) (hy : y ≠ r) :
    ∀ k, vs.length < k → doLoop f r k w (some y) = some (v, o) := by
  induction hd with
  | panics hf =>
    intro k hk
    obtain ⟨k, rfl⟩ : ∃ j, k = j + 1 := ⟨k - 1, by omega⟩
    rw [doLoop, if_neg (by simpa using hy)]; simp only [hf]
  | nil hf hg =>
    intro k hk
    simp only [List.length_singleton] at hk
    obtain ⟨k, rfl⟩ : ∃ j, k = j + 2 := ⟨k - 2, by omega⟩
    rw [goOn, if_neg hy] at hg
    injection hg with h1 h2
    subst h1
    rw [doLoop, if_neg (by simpa using hy)]; simp only [hf, h2, doLoop]; simp
  | returns hf hg =>
    intro k hk
    simp only [List.length_singleton] at hk
    obtain ⟨k, rfl⟩ : ∃ j, k = j + 2 := ⟨k - 2, by omega⟩
    rw [goOn, if_neg hy] at hg
    injection hg with h1 h2
    subst h1
    rw [doLoop, if_neg (by simpa using hy)]; simp only [hf, h2, doLoop]; simp
  | goes hf hg hz _ ih =>
    intro k hk
    simp only [List.length_cons] at hk
    obtain ⟨k, rfl⟩ : ∃ j, k = j + 1 := ⟨k - 1, by omega⟩
    rw [goOn, if_neg hy] at hg
    injection hg with h1 h2
    subst h1
    rw [doLoop, if_neg (by simpa using hy)]; simp only [hf, h2]
    exact ih hz k (by omega)

theorem goOn_self (w' : World T A) : goOn r r w' = ({ w' with m := (next w'.m r).1 }, (next w'.m r).2) := if_pos rfl

theorem doF_does {F : Nat} {w v : World T A} {o : End} (h : doF f F w (some r) = some (v, o)) : ∃ vs, Does f r r w vs v o := by
  simp only [doF] at h
  cases hf : (f (w.m.val r)).run w with
  | mk w1 c =>
    rw [hf] at h
    cases c with
    | none => simp only [Option.some.injEq, Prod.mk.injEq] at h; obtain ⟨rfl, rfl⟩ := h; exact ⟨_, .panics hf⟩
    | some u =>
      simp only at h
      cases hn : (next w1.m r).2 with
      | none =>
        rw [hn] at h
        cases F with
        | zero => cases h
        | succ k => simp [doLoop] at h; obtain ⟨rfl, rfl⟩ := h; exact ⟨_, .nil hf (by rw [goOn_self, hn])⟩
      | some z =>
        rw [hn] at h
        by_cases hz : z = r
        · subst hz
          cases F with
          | zero => cases h
          | succ k => simp [doLoop] at h; obtain ⟨rfl, rfl⟩ := h; exact ⟨_, .returns hf (by rw [goOn_self, hn])⟩
        · obtain ⟨vs, hd⟩ := loop_does hz h
          exact ⟨_, .goes hf (by rw [goOn_self, hn]) hz hd⟩

/-- **C185**: `Do` calls its function with `r` first, and after each call goes on with the element that follows the last one in that
moment, until that is `r`. It comes to an end just if this does. -/
theorem C185_do (w v : World T A) (o : End) :
    (∃ F, ∀ fuel, F ≤ fuel → doF f fuel w (some r) = some (v, o)) ↔ ∃ vs, Does f r r w vs v o := by
  constructor
  · rintro ⟨F, hF⟩
    exact doF_does (hF F (Nat.le_refl _))
  · rintro ⟨vs, hd⟩
    refine ⟨vs.length + 1, fun fuel hk => ?_⟩
    obtain ⟨fuel, rfl⟩ : ∃ j, fuel = j + 1 := ⟨fuel - 1, by omega⟩
    cases hd with
    | panics hf => simp only [doF, hf]
    | nil hf hg => rw [goOn_self] at hg; injection hg with h1 h2; subst h1; simp only [doF, hf, h2, doLoop]; simp
    | returns hf hg => rw [goOn_self] at hg; injection hg with h1 h2; subst h1; simp only [doF, hf, h2, doLoop]; simp
    | goes hf hg hz hd =>
      rw [goOn_self] at hg; injection hg with h1 h2; subst h1
      simp only [doF, hf, h2]
      exact does_loop hd hz _ (by simp only [List.length_cons] at hk; omega)

theorem goOn_path {w : World T A} {x : Nat} {B : List Nat} (h : Path w.m r x B) : goOn r x w = (w, some (B.head?.getD r)) := by
  have hn : w.m.next x = some (B.head?.getD r) := by
    cases B with
    | nil => exact h
    | cons y B => exact h.1
  by_cases hx : x = r
  · subst hx
    rw [goOn, if_pos rfl, next_eq, Ring.norm, if_neg (by rw [hn]; simp), hn]
  · rw [goOn, if_neg hx, hn]

/-- **C185**: if a call for `x` that returns leaves a way from `x` to `r`, and no longer than before, `Do` ends after at most `Len` calls, without a nil
pointer. -/
theorem C185_ends (hf : ∀ w x B w', Path w.m r x B → (f (w.m.val x)).run w = (w', some ()) → ∃ B', Path w'.m r x B' ∧ B'.length ≤ B.length)
    (w : World T A) (C : List Nat) (h : Path w.m r r C) : ∃ vs v o, Does f r r w vs v o ∧ vs.length ≤ C.length + 1 ∧ o ≠ .nil := by
  have key : ∀ (n : Nat) (C : List Nat) (x : Nat) (w : World T A), C.length = n → Path w.m r x C →
      ∃ vs v o, Does f r x w vs v o ∧ vs.length ≤ C.length + 1 ∧ o ≠ .nil := by
    intro n
    induction n using Nat.strongRecOn with
    | ind n ih =>
      intro C x w hn h
      cases e : (f (w.m.val x)).run w with
      | mk w' c =>
        cases c with
        | none => exact ⟨_, _, _, .panics e, by simp, by simp⟩
        | some u =>
          obtain ⟨B', h1, h2⟩ := hf w x C w' h e
          have hg := goOn_path h1
          cases B' with
          | nil => exact ⟨_, _, _, .returns e hg, by simp, by simp⟩
          | cons y B' =>
            simp only [List.length_cons] at h2
            obtain ⟨vs, v, o, d1, d2, d3⟩ := ih B'.length (by omega) B' y w' rfl h1.2.2
            exact ⟨_, _, _, .goes e hg h1.2.1 d1, by simp only [List.length_cons]; omega, d3⟩
  exact key _ C r w rfl h

/-- **C185**: `Do` of a nil ring calls nothing. -/
theorem C185_nil (f : T → Pan (World T A) Unit) (fuel : Nat) (w : World T A) : doF f fuel w none = some (w, .returns) := rfl

/-- **C185**: if the function only takes elements out behind the one it was called for, and leaves `r` in the ring, `Do` calls it for each element at most
once and in the order of the ring, and, if it returns, for all elements that the function leaves in the ring. -/
theorem C185_once {K : Nat → Prop}
    (hf : ∀ w x B w', Path w.m r x B → (f (w.m.val x)).run w = (w', some ()) → ∃ B', Path w'.m r x B' ∧ B'.Sublist B ∧ ∀ y ∈ B, K y → y ∈ B')
    (w : World T A) (C : List Nat) (h : Path w.m r r C) :
    ∃ vs v o, Does f r r w (r :: vs) v o ∧ vs.Sublist C ∧ o ≠ .nil ∧ (o = .returns → ∀ y ∈ C, K y → y ∈ vs) := by
  have key : ∀ (n : Nat) (C : List Nat) (x : Nat) (w : World T A), C.length = n → Path w.m r x C →
      ∃ vs v o, Does f r x w (x :: vs) v o ∧ vs.Sublist C ∧ o ≠ .nil ∧ (o = .returns → ∀ y ∈ C, K y → y ∈ vs) := by
    intro n
    induction n using Nat.strongRecOn with
    | ind n ih =>
      intro C x w hn h
      cases e : (f (w.m.val x)).run w with
      | mk w' c =>
        cases c with
        | none => exact ⟨[], _, _, .panics e, by simp, by simp, by simp⟩
        | some u =>
          obtain ⟨B', h1, h2, h3⟩ := hf w x C w' h e
          have hg := goOn_path h1
          cases B' with
          | nil =>
            refine ⟨[], _, _, .returns e hg, by simp, by simp, fun _ y hy hk => ?_⟩
            exact absurd (h3 y hy hk) (by simp)
          | cons y B' =>
            have := h2.length_le
            simp only [List.length_cons] at this
            obtain ⟨vs, v, o, d1, d2, d3, d4⟩ := ih B'.length (by omega) B' y w' rfl h1.2.2
            refine ⟨_, _, _, .goes e hg h1.2.1 d1, (d2.cons_cons y).trans h2, d3, fun ho z hz hk => ?_⟩
            rcases List.mem_cons.1 (h3 z hz hk) with rfl | hz'
            · simp
            · exact List.mem_cons_of_mem _ (d4 ho z hz' hk)
  exact key _ C r w rfl h

/-- **C185**: once `Do` has come to elements `Q` from which the function does not let it back to `r`, it never ends. -/
theorem C185_forever {I : World T A → Prop} {Q : Nat → Prop} (hr : ¬ Q r)
    (hf : ∀ w x, I w → Q x → ∃ w', (f (w.m.val x)).run w = (w', some ()) ∧ I w' ∧ ∃ y, w'.m.next x = some y ∧ Q y)
    {w : World T A} {x : Nat} (hi : I w) (hx : Q x) : ∀ vs v o, ¬ Does f r x w vs v o := by
  intro vs v o hd
  induction hd with
  | panics e => obtain ⟨w', h1, _⟩ := hf _ _ hi hx; rw [h1] at e; cases e
  | nil e hg =>
    next x w w' w'' =>
    obtain ⟨w1, h1, h2, y, h3, h4⟩ := hf _ _ hi hx
    rw [h1] at e; injection e with e; subst e
    rw [goOn, if_neg (by rintro rfl; exact hr hx), h3] at hg; cases hg
  | returns e hg =>
    obtain ⟨w1, h1, h2, y, h3, h4⟩ := hf _ _ hi hx
    rw [h1] at e; injection e with e; subst e
    rw [goOn, if_neg (by rintro rfl; exact hr hx), h3] at hg
    injection hg with _ hg; injection hg with hg; subst hg; exact hr h4
  | goes e hg _ _ ih =>
    obtain ⟨w1, h1, h2, y, h3, h4⟩ := hf _ _ hi hx
    rw [h1] at e; injection e with e; subst e
    rw [goOn, if_neg (by rintro rfl; exact hr hx), h3] at hg
    injection hg with g1 g2; injection g2 with g2; subst g1; subst g2
    exact ih h2 h4

/-! ## Functions that only make calls of the package -/

/-- By calls of the package. -/
inductive Calls (dflt : T) (m : Mem T) : Mem T → Prop
  | refl : Calls dflt m m
  | step {m' op r m''} : Calls dflt m m' → m'.Args op → MStep dflt m' op r m'' → Calls dflt m m''

/-- Reachable. -/
def Reach (dflt : T) (m : Mem T) : Prop := ∃ h, MRun dflt h m

/-- The function changes the rings by calls only. -/
def ByCalls (dflt : T) (f : T → Pan (World T A) Unit) : Prop := ∀ w t, Reach dflt w.m → Calls dflt w.m ((f t).run w).1.m

theorem Calls.reach {dflt : T} {m m' : Mem T} (h : Calls dflt m m') (hr : Reach dflt m) : Reach dflt m' := by
  induction h with
  | refl => exact hr
  | step _ ha hs ih => obtain ⟨h, ih⟩ := ih; exact ⟨_, .snoc ih ha hs⟩

/-- The element is in use. -/
def Used (m : Mem T) (y : Nat) : Prop := m.next y ≠ none ∧ y < m.fresh

theorem Used.norm {m : Mem T} {y : Nat} (h : Used m y) (x : Nat) : Used (Ring.norm m x) y :=
  ⟨norm_mono h.1 x, by unfold Ring.norm; split <;> exact h.2⟩

theorem Used.link {m : Mem T} {y r : Nat} (h : Used m y) {t : Option Nat} {m' : Mem T} {q : Option Nat} (he : link m r t = some (m', q)) : Used m' y := by
  simp only [Ring.link, next_eq] at he
  cases t with
  | none => cases he; exact h.norm r
  | some t =>
    simp only [prev_eq] at he
    cases e1 : (Ring.norm m r).next r with
    | none => exact absurd e1 (norm_next m r)
    | some n =>
      cases e2 : (Ring.norm (Ring.norm m r) t).prev t with
      | none => simp [e1, e2] at he
      | some p =>
        simp only [e1, e2, Option.bind_eq_bind, Option.bind_some, Option.some.injEq, Prod.mk.injEq] at he
        obtain ⟨rfl, _⟩ := he
        have hh := (h.norm r).norm t
        refine ⟨?_, hh.2⟩
        simp only [Mem.setNext, Mem.setPrev, upd]
        split
        · simp
        · split
          · simp
          · exact hh.1

theorem Used.alloc {m : Mem T} {y : Nat} (h : Used m y) (dflt : T) (p : Option Nat) : Used (alloc dflt m p).1 y := by
  refine ⟨?_, Nat.lt_succ_of_lt h.2⟩
  simp only [Ring.alloc, upd]
  rw [if_neg (Nat.ne_of_lt h.2)]; exact h.1

theorem Used.setNext {m : Mem T} {y : Nat} (h : Used m y) (p q : Nat) : Used (m.setNext p (some q)) y := by
  refine ⟨?_, h.2⟩
  simp only [Mem.setNext, upd]
  split
  · simp
  · exact h.1

theorem Used.newLoop {y : Nat} (dflt : T) : ∀ (k : Nat) (m : Mem T) (p : Nat), Used m y → Used (newLoop dflt k m p).1 y := by
  intro k
  induction k with
  | zero => intro m p h; exact h
  | succ k ih => intro m p h; exact ih _ _ ((h.alloc dflt _).setNext _ _)

theorem Used.step {m m' : Mem T} {y : Nat} (hu : Used m y) {dflt : T} (hr : Reach dflt m) {op : Op T} (ha : m.Args op) {r : Res T}
    (hs : MStep dflt m op r m') : Used m' y := by
  obtain ⟨h0, hr⟩ := hr
  obtain ⟨s, _, h⟩ := hr.sim
  obtain ⟨fuel, hF⟩ := hs
  have he := hF fuel (Nat.le_refl _)
  cases op with
  | new n =>
    simp only [exec] at he; cases he
    unfold Ring.new; split
    · exact hu
    · exact ((Used.newLoop dflt _ _ _ (hu.alloc dflt none)).setNext _ _)
  | zero => simp only [exec] at he; cases he; exact hu.alloc dflt none
  | next x => simp only [exec, next_eq] at he; cases he; exact hu.norm x
  | prev x => simp only [exec, prev_eq] at he; cases he; exact hu.norm x
  | move x n =>
    simp only [exec, h.move (x := x) ha n] at he; cases he; exact hu.norm x
  | link x t =>
    simp only [exec] at he
    cases e : Ring.link m x t with
    | none => simp [e] at he
    | some q =>
      obtain ⟨m1, q⟩ := q
      simp only [e] at he; cases he
      exact hu.link e
  | unlink x n =>
    simp only [exec, Ring.unlink] at he
    split at he
    · cases he; exact hu
    · simp only [h.move (x := x) ha (n + 1)] at he
      cases e : Ring.link (Ring.norm m x) x (at_ (s.ring x) (n + 1)) with
      | none => simp [e] at he
      | some q =>
        obtain ⟨m1, q⟩ := q
        simp [e] at he
        obtain ⟨rfl, _⟩ := he
        exact (hu.norm x).link e
  | len x =>
    cases x with
    | none => simp [exec, Ring.len] at he; exact he.1 ▸ hu
    | some x =>
      simp only [exec, Ring.len, next_eq] at he
      cases e : loop (Ring.norm m x) x (fun n _ => n + 1) fuel 1 ((Ring.norm m x).next x) with
      | none => simp [e] at he
      | some q => simp [e] at he; exact he.1 ▸ hu.norm x
  | do_ x =>
    cases x with
    | none => simp [exec, Ring.do_] at he; exact he.1 ▸ hu
    | some x =>
      simp only [exec, Ring.do_, next_eq] at he
      cases e : loop (Ring.norm m x) x (fun acc q => acc ++ [(Ring.norm m x).val q]) fuel [m.val x] ((Ring.norm m x).next x) with
      | none => simp [e] at he
      | some q => simp [e] at he; exact he.1 ▸ hu.norm x
  | getValue x => cases he; exact hu
  | setValue x v => cases he; exact hu

theorem Calls.used {dflt : T} {m m' : Mem T} {y : Nat} (h : Calls dflt m m') (hr : Reach dflt m) (hu : Used m y) : Used m' y := by
  induction h with
  | refl => exact hu
  | step hc ha hs ih => exact ih.step (hc.reach hr) ha hs

theorem norm_fresh (m : Mem T) (x : Nat) : (Ring.norm m x).fresh = m.fresh := by unfold Ring.norm; split <;> rfl

theorem link_fresh {m : Mem T} {r : Nat} {t : Option Nat} {m' : Mem T} {q : Option Nat} (he : link m r t = some (m', q)) : m'.fresh = m.fresh := by
  simp only [Ring.link, next_eq] at he
  cases t with
  | none => cases he; exact norm_fresh m r
  | some t =>
    simp only [prev_eq] at he
    cases e1 : (Ring.norm m r).next r with
    | none => exact absurd e1 (norm_next m r)
    | some n =>
      cases e2 : (Ring.norm (Ring.norm m r) t).prev t with
      | none => simp [e1, e2] at he
      | some p =>
        simp only [e1, e2, Option.bind_eq_bind, Option.bind_some, Option.some.injEq, Prod.mk.injEq] at he
        obtain ⟨rfl, _⟩ := he
        simp only [Mem.setNext, Mem.setPrev, norm_fresh]

theorem newLoop_fresh (dflt : T) : ∀ (k : Nat) (m : Mem T) (p : Nat), m.fresh ≤ (newLoop dflt k m p).1.fresh := by
  intro k
  induction k with
  | zero => intro m p; exact Nat.le_refl _
  | succ k ih =>
    intro m p
    rw [newLoop]
    refine Nat.le_trans ?_ (ih _ _)
    exact Nat.le_succ _

theorem step_fresh {m m' : Mem T} {dflt : T} (hr : Reach dflt m) {op : Op T} (ha : m.Args op) {r : Res T} (hs : MStep dflt m op r m') : m.fresh ≤ m'.fresh := by
  obtain ⟨h0, hr⟩ := hr
  obtain ⟨s, _, h⟩ := hr.sim
  obtain ⟨fuel, hF⟩ := hs
  have he := hF fuel (Nat.le_refl _)
  cases op with
  | new n =>
    simp only [exec] at he; cases he
    unfold Ring.new; split
    · exact Nat.le_refl _
    · exact Nat.le_trans (Nat.le_succ _) (newLoop_fresh dflt (n.toNat - 1) (Ring.alloc dflt m none).1 m.fresh)
  | zero => simp only [exec] at he; cases he; exact Nat.le_succ _
  | next x => simp only [exec, next_eq] at he; cases he; exact Nat.le_of_eq (norm_fresh m x).symm
  | prev x => simp only [exec, prev_eq] at he; cases he; exact Nat.le_of_eq (norm_fresh m x).symm
  | move x n =>
    simp only [exec, h.move (x := x) ha n] at he; cases he; exact Nat.le_of_eq (norm_fresh m x).symm
  | link x t =>
    simp only [exec] at he
    cases e : Ring.link m x t with
    | none => simp [e] at he
    | some q =>
      obtain ⟨m1, q⟩ := q
      simp only [e] at he; cases he
      exact Nat.le_of_eq (link_fresh e).symm
  | unlink x n =>
    simp only [exec, Ring.unlink] at he
    split at he
    · cases he; exact Nat.le_refl _
    · simp only [h.move (x := x) ha (n + 1)] at he
      cases e : Ring.link (Ring.norm m x) x (at_ (s.ring x) (n + 1)) with
      | none => simp [e] at he
      | some q =>
        obtain ⟨m1, q⟩ := q
        simp [e] at he
        obtain ⟨rfl, _⟩ := he
        rw [link_fresh e, norm_fresh]; exact Nat.le_refl _
  | len x =>
    cases x with
    | none => simp [exec, Ring.len] at he; exact he.1 ▸ Nat.le_refl _
    | some x =>
      simp only [exec, Ring.len, next_eq] at he
      cases e : loop (Ring.norm m x) x (fun n _ => n + 1) fuel 1 ((Ring.norm m x).next x) with
      | none => simp [e] at he
      | some q => simp [e] at he; rw [← he.1, norm_fresh]; exact Nat.le_refl _
  | do_ x =>
    cases x with
    | none => simp [exec, Ring.do_] at he; exact he.1 ▸ Nat.le_refl _
    | some x =>
      simp only [exec, Ring.do_, next_eq] at he
      cases e : loop (Ring.norm m x) x (fun acc q => acc ++ [(Ring.norm m x).val q]) fuel [m.val x] ((Ring.norm m x).next x) with
      | none => simp [e] at he
      | some q => simp [e] at he; rw [← he.1, norm_fresh]; exact Nat.le_refl _
  | getValue x => cases he; exact Nat.le_refl _
  | setValue x v => cases he; exact Nat.le_refl _

theorem Calls.fresh {dflt : T} {m m' : Mem T} (h : Calls dflt m m') (hr : Reach dflt m) : m.fresh ≤ m'.fresh := by
  induction h with
  | refl => exact Nat.le_refl _
  | step hc ha hs ih => exact Nat.le_trans ih (step_fresh (hc.reach hr) ha hs)

/-- The element after one in use is in use. -/
theorem Used.next {dflt : T} {m : Mem T} (hr : Reach dflt m) {x y : Nat} (hx : Used m x) (h : m.next x = some y) : Used m y := by
  obtain ⟨h0, hr⟩ := hr
  obtain ⟨s, _, hs⟩ := hr.sim
  obtain ⟨h1, h2⟩ := hs.refers hr.clean (hs.rep.self_mem hx.2) (.inl h)
  exact ⟨h2, hs.rep.alloc x y h1⟩

theorem next_used {dflt : T} {m : Mem T} (hr : Reach dflt m) {x : Nat} (hx : x < m.fresh) : Reach dflt (next m x).1 ∧ Used (next m x).1 x := by
  obtain ⟨h0, hr⟩ := hr
  refine ⟨⟨_, .snoc hr (op := .next x) hx (r := .elem (Ring.next m x).2) ⟨0, fun _ _ => rfl⟩⟩, ?_⟩
  rw [next_eq]
  exact ⟨norm_next m x, by unfold Ring.norm; split <;> exact hx⟩

/-- **C185**: `Do` of an element that is there, with a function that only makes calls of the package: no nil pointer, and the rings it leaves could have been made by calls. -/
theorem C185_noNil {dflt : T} (hf : ByCalls dflt f) {w v : World T A} {vs : List Nat} {o : End} (hr : Reach dflt w.m) (hl : r < w.m.fresh)
    (hd : Does f r r w vs v o) : o ≠ .nil ∧ Reach dflt v.m := by
  have go : ∀ (x : Nat) (w' w'' : World T A) (p : Option Nat), Reach dflt w'.m → (x = r ∧ x < w'.m.fresh ∨ Used w'.m x) → goOn r x w' = (w'', p) →
      Reach dflt w''.m ∧ ∃ y, p = some y ∧ Used w''.m y := by
    intro x w' w'' p h1 h2 h3
    by_cases hx : x = r
    · subst hx
      have hlt : x < w'.m.fresh := h2.elim (·.2) (·.2)
      obtain ⟨a1, a2⟩ := next_used h1 hlt
      rw [goOn_self] at h3
      injection h3 with e1 e2
      subst e1
      rw [next_eq] at e2 a1 a2 ⊢
      refine ⟨a1, ?_⟩
      cases hn : (Ring.norm w'.m x).next x with
      | none => exact absurd hn a2.1
      | some y => exact ⟨y, by rw [← e2]; exact hn, a2.next a1 hn⟩
    · have hu : Used w'.m x := h2.elim (fun h => absurd h.1 hx) id
      rw [goOn, if_neg hx] at h3
      injection h3 with e1 e2
      subst e1
      refine ⟨h1, ?_⟩
      cases hn : w'.m.next x with
      | none => exact absurd hn hu.1
      | some y => exact ⟨y, by rw [← e2, hn], hu.next h1 hn⟩
  have key : ∀ {x : Nat} {w v : World T A} {vs : List Nat} {o : End}, Does f r x w vs v o → Reach dflt w.m →
      (x = r ∧ x < w.m.fresh ∨ Used w.m x) → o ≠ .nil ∧ Reach dflt v.m := by
    intro x w v vs o hd
    have after : ∀ {x : Nat} {w w' : World T A} {c : Option Unit}, (f (w.m.val x)).run w = (w', c) → Reach dflt w.m → (x = r ∧ x < w.m.fresh ∨ Used w.m x) →
        Reach dflt w'.m ∧ (x = r ∧ x < w'.m.fresh ∨ Used w'.m x) := by
      intro x w w' c e h1 h2
      have hc := hf w (w.m.val x) h1
      rw [e] at hc
      exact ⟨hc.reach h1, h2.imp (fun h => ⟨h.1, Nat.lt_of_lt_of_le h.2 (hc.fresh h1)⟩) (hc.used h1)⟩
    induction hd with
    | panics e => intro h1 h2; exact ⟨by simp, (after e h1 h2).1⟩
    | nil e hg =>
      intro h1 h2
      obtain ⟨a1, a2⟩ := after e h1 h2
      obtain ⟨_, y, hy, _⟩ := go _ _ _ _ a1 a2 hg
      cases hy
    | returns e hg =>
      intro h1 h2
      obtain ⟨a1, a2⟩ := after e h1 h2
      exact ⟨by simp, (go _ _ _ _ a1 a2 hg).1⟩
    | goes e hg _ _ ih =>
      intro h1 h2
      obtain ⟨a1, a2⟩ := after e h1 h2
      obtain ⟨b1, y, hy, b2⟩ := go _ _ _ _ a1 a2 hg
      cases hy
      exact ih b1 (.inr b2)
  exact key hd hr (.inl ⟨rfl, hl⟩)

/-- In a ring there is a way from each element over the others back to it. -/
theorem IsRing.path {m : Mem T} {C : List Nat} (h : IsRing m (r :: C)) (hn : m.next r ≠ none) (hC : ∀ y ∈ C, m.next y ≠ none) : Path m r r C := by
  have hx : ∀ y ∈ r :: C, nxt m y = m.next y := by
    intro y hy
    have : m.next y ≠ none := by
      rcases List.mem_cons.1 hy with rfl | hy
      · exact hn
      · exact hC y hy
    simp [nxt, Ring.next, this]
  have key : ∀ (D P : List Nat) (x : Nat), r :: C = P ++ x :: D → Path m r x D := by
    intro D
    induction D with
    | nil =>
      intro P x e
      have hg := h.next P.length x (by rw [e]; simp)
      rw [hx x (by rw [e]; simp)] at hg
      have hl : (r :: C).length = P.length + 1 := by rw [e]; simp
      rw [hl, Nat.mod_self] at hg
      simpa [Path] using hg
    | cons y D ih =>
      intro P x e
      have hg := h.next P.length x (by rw [e]; simp)
      rw [hx x (by rw [e]; simp)] at hg
      have hl : (r :: C).length = P.length + (D.length + 2) := by rw [e]; simp
      rw [Nat.mod_eq_of_lt (by omega), e] at hg
      refine ⟨by rw [hg]; simp, ?_, ih (P ++ [x]) y (by rw [e]; simp)⟩
      rintro rfl
      have hnd := h.nodup
      cases P with
      | nil =>
        injection e with e1 e2; subst e1
        rw [e2] at hnd; simp at hnd
      | cons p P =>
        injection e with e1 e2; subst e1
        rw [e2] at hnd; simp at hnd
  exact key C [] r rfl

/-! ## `Do` need not end -/

/-- What one would like: `Do` returns, if its function only makes calls of the package and always returns. -/
def C185_statement : Prop := ∀ (f : Nat → Pan (World Nat Nat) Unit) (w : World Nat Nat) (r : Nat), ByCalls 0 f →
  (∀ w t, Reach 0 w.m → ∃ w', (f t).run w = (w', some ())) → Reach 0 w.m → r < w.m.fresh → ∃ fuel v, doF f fuel w (some r) = some (v, .returns)

/-- At its second call it takes the element after the third one out of the ring. -/
def cutOut (_ : Nat) : Pan (World Nat Nat) Unit := ⟨fun w =>
  if w.a = 1 ∧ 2 < w.m.fresh then match unlink w.m 2 1 with
    | some (m, _) => (⟨m, 2⟩, some ())
    | none => (w, some ())
  else (⟨w.m, w.a + 1⟩, some ())⟩

/-- `New(3)`. -/
def three : Mem Nat := (new 0 (Mem.empty 0) 3).1

theorem three_reach : Reach 0 three := ⟨_, .snoc .nil (op := .new 3) trivial (r := .elem (new 0 (Mem.empty 0) 3).2) ⟨0, fun _ _ => rfl⟩⟩

theorem cutOut_calls : ByCalls 0 cutOut := by
  intro w t hr
  simp only [cutOut]
  split
  · next hc =>
    cases e : unlink w.m 2 1 with
    | none => exact .refl
    | some q =>
      obtain ⟨m, q⟩ := q
      exact .step .refl (op := .unlink 2 1) hc.2 (r := .elem q) ⟨0, fun _ _ => by simp [exec, e]⟩
  · exact .refl

theorem cutOut_returns (w : World Nat Nat) (t : Nat) : ∃ w', (cutOut t).run w = (w', some ()) := by
  simp only [cutOut]
  split
  · cases e : unlink w.m 2 1 with
    | none => exact ⟨_, rfl⟩
    | some q => exact ⟨_, rfl⟩
  · exact ⟨_, rfl⟩

theorem C185_false : ¬ C185_statement := by
  intro h
  obtain ⟨fuel, v, hd⟩ := h cutOut ⟨three, 0⟩ 0 cutOut_calls (fun w t _ => cutOut_returns w t) three_reach (by decide)
  obtain ⟨vs, hd⟩ := doF_does hd
  have e0 : (cutOut (three.val 0)).run ⟨three, 0⟩ = (⟨three, 1⟩, some ()) := rfl
  have g0 : goOn 0 0 (⟨three, 1⟩ : World Nat Nat) = (⟨three, 1⟩, some 1) := rfl
  have I : ∀ vs v o, ¬ Does cutOut 0 1 ⟨three, 1⟩ vs v o := by
    intro vs v o hd
    obtain ⟨q, hq⟩ : ∃ q, unlink three 2 1 = some q := ⟨_, rfl⟩
    have e1 : (cutOut (three.val 1)).run ⟨three, 1⟩ = (⟨q.1, 2⟩, some ()) := by
      simp only [cutOut]; rw [if_pos (by decide)]; simp only [hq]
    have n1 : q.1.next 1 = some 2 := by
      have : (unlink three 2 1).map (fun q => q.1.next 1) = some (some 2) := by decide +kernel
      rw [hq] at this; simpa using this
    have n2 : q.1.next 2 = some 1 := by
      have : (unlink three 2 1).map (fun q => q.1.next 2) = some (some 1) := by decide +kernel
      rw [hq] at this; simpa using this
    have g1 : goOn 0 1 (⟨q.1, 2⟩ : World Nat Nat) = (⟨q.1, 2⟩, some 2) := by rw [goOn, if_neg (by decide)]; simp only [n1]
    have J := C185_forever (f := cutOut) (r := 0) (I := fun w => 2 ≤ w.a ∧ w.m.next 1 = some 2 ∧ w.m.next 2 = some 1) (Q := fun x => x = 1 ∨ x = 2)
      (by simp) (by
        rintro w x ⟨h1, h2, h3⟩ hx
        refine ⟨⟨w.m, w.a + 1⟩, by simp only [cutOut]; rw [if_neg (by omega)], ⟨by simp only; omega, h2, h3⟩, ?_⟩
        rcases hx with rfl | rfl
        · exact ⟨2, h2, .inr rfl⟩
        · exact ⟨1, h3, .inl rfl⟩) (w := ⟨q.1, 2⟩) (x := 2) ⟨Nat.le_refl _, n1, n2⟩ (.inr rfl)
    cases hd with
    | nil e hg => rw [e1] at e; injection e with e; subst e; rw [g1] at hg; cases hg
    | returns e hg => rw [e1] at e; injection e with e; subst e; rw [g1] at hg; cases hg
    | panics e => rw [e1] at e; cases e
    | goes e hg _ hd =>
      rw [e1] at e; injection e with e; subst e; rw [g1] at hg
      injection hg with g2 g3; subst g2; injection g3 with g3; subst g3
      exact J _ _ _ hd
  cases hd with
  | returns e hg => rw [e0] at e; injection e with e; subst e; rw [g0] at hg; cases hg
  | goes e hg _ hd =>
    rw [e0] at e; injection e with e; subst e; rw [g0] at hg
    injection hg with g2 g3; subst g2; injection g3 with g3; subst g3
    exact I _ _ _ hd

/-! ## Examples -/

/-- Notes the values; takes `n` elements out behind `x` when it comes to the value `t`; panics at 9. -/
def note (t x n : Nat) (v : Nat) : Pan (World Nat (List Nat)) Unit := ⟨fun w =>
  let w := { w with a := w.a ++ [v] }
  if v = 9 then (w, none)
  else if v = t then match unlink w.m x n with
    | some (m, _) => ({ w with m }, some ())
    | none => (w, none)
  else (w, some ())⟩

/-- Four elements with the values 5, 6, 7 and `last`. -/
def four (last : Nat) : Mem Nat := { (new 0 (Mem.empty 0) 4).1 with val := fun x => if x = 3 then last else x + 5 }

def noted (t x n last : Nat) : Option (List Nat × End) := (doF (note t x n) 20 ⟨four last, []⟩ (some 0)).map fun q => (q.1.a, q.2)

-- nothing is changed; the second takes out the two behind it; the first takes out the second; a panic
example : noted 0 0 0 8 = some ([5, 6, 7, 8], .returns) ∧ noted 6 1 2 8 = some ([5, 6], .returns) ∧ noted 5 0 1 8 = some ([5, 7, 8], .returns) ∧
    noted 0 0 0 9 = some ([5, 6, 7, 9], .panics) := by decide +kernel
-- the third takes itself out, and goes round alone
example : noted 7 1 1 8 = none := by decide +kernel

end Verif.Ring.DoF
