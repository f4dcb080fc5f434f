import Mathlib.Logic.Relation
import Verif.Ring.Props
/-!
# What rings keep from being collected (C181)
-/
namespace Verif.Ring
open Verif.Ring.Spec
variable {T : Type} {m : Mem T}

/-- Element `x` has a reference to `y`: ring.go:3-6. -/
def Refers (m : Mem T) (x y : Nat) : Prop := m.next x = some y ∨ m.prev x = some y

/-- Who has a pointer to `x` keeps `y` from being collected. -/
def Keeps (m : Mem T) : Nat → Nat → Prop := Relation.ReflTransGen (Refers m)

/-! ## Elements that were never used have no references -/

def Clean (m : Mem T) : Prop := ∀ y, m.next y = none → m.prev y = none

theorem Clean.norm (h : Clean m) (r : Nat) : Clean (norm m r) := by
  unfold Ring.norm; split
  · intro y hy
    simp only [init, Mem.setNext, Mem.setPrev, upd] at hy ⊢
    split at hy
    · cases hy
    · next e => rw [if_neg e]; exact h y hy
  · exact h

theorem norm_next (m : Mem T) (r : Nat) : (norm m r).next r ≠ none := by
  unfold Ring.norm; split
  · simp [init, Mem.setNext, Mem.setPrev, upd]
  · assumption

theorem norm_mono {y : Nat} (h : m.next y ≠ none) (r : Nat) : (norm m r).next y ≠ none := by
  unfold Ring.norm; split
  · simp only [init, Mem.setNext, Mem.setPrev, upd]
    split
    · simp
    · exact h
  · exact h

/-- In a circle, `Next` and `Prev` of an element stay in it. -/
theorem Sim.refers {s : St T} (h : Sim m s) (hc : Clean m) {x y z : Nat} (hy : y ∈ s.ring x) (hr : Refers m y z) :
    z ∈ s.ring x ∧ m.next z ≠ none := by
  have hyl := h.rep.alloc x y hy
  have hne : m.next y ≠ none := by
    intro e
    rcases hr with hr | hr
    · rw [e] at hr; cases hr
    · rw [hc y e] at hr; cases hr
  have hcy := h.rep.cyc_of_next hyl hne
  obtain ⟨t, e⟩ := h.rep.head y hyl
  have hz : z ∈ s.ring y := by
    rcases hr with hr | hr
    · have h1 := hcy.next_at 0 (by rw [e]; exact at_zero)
      rw [h1] at hr
      exact List.mem_of_getElem? hr
    · have h1 := hcy.prev_at 0 (by rw [e]; exact at_zero)
      rw [h1] at hr
      exact List.mem_of_getElem? hr
  refine ⟨(h.rep.mem_iff hy z).1 hz, ?_⟩
  obtain ⟨A, B, e'⟩ := List.append_of_mem hz
  rw [e'] at hcy
  have h1 := hcy.rot.next_at 0 at_zero
  obtain ⟨_, _, _, h2⟩ := at_some (C := z :: (B ++ A)) (by simp) (0 + 1)
  rw [h1, h2]; simp

theorem Clean.link {s : St T} (hc : Clean m) (h : Sim m s) {r : Nat} (hr : r < m.fresh) {t : Option Nat} {m' : Mem T} {q : Option Nat}
    (he : link m r t = some (m', q)) : Clean m' := by
  have hn := h.norm hr
  have hf : (Ring.norm m r).fresh = m.fresh := by unfold Ring.norm; split <;> rfl
  simp only [Ring.link, next_eq] at he
  cases t with
  | none => cases he; exact hc.norm r
  | some t =>
    simp only [prev_eq] at he
    cases e1 : (Ring.norm m r).next r with
    | none => exact absurd e1 (norm_next m r)
    | some n =>
      cases e2 : (Ring.norm (Ring.norm m r) t).prev t with
      | none => simp [e1, e2] at he
      | some p =>
        simp only [e1, e2, Option.bind_eq_bind, Option.bind_some, Option.some.injEq, Prod.mk.injEq] at he
        obtain ⟨rfl, _⟩ := he
        have hnn : (Ring.norm m r).next n ≠ none :=
          (hn.refers (hc.norm r) (hn.rep.self_mem (by rw [hf]; exact hr)) (.inl e1)).2
        intro y hy
        simp only [Mem.setNext, Mem.setPrev, upd] at hy ⊢
        split at hy
        · cases hy
        · split at hy
          · cases hy
          · have hyn : y ≠ n := by rintro rfl; exact norm_mono hnn t hy
            have hyt : y ≠ t := by rintro rfl; exact norm_next _ _ hy
            rw [if_neg hyn, if_neg hyt]
            exact (hc.norm r).norm t y hy

/-- As `Clean`, while `p` is being made. -/
theorem newLoop_clean (dflt : T) (r : Nat) : ∀ (k : Nat) (m : Mem T) (p : Nat), (∀ y, y ≠ p → m.next y = none → m.prev y = none) →
    p < m.fresh → r < m.fresh → (r = p ∨ m.next r ≠ none) →
    (∀ y, y ≠ (newLoop dflt k m p).2 → (newLoop dflt k m p).1.next y = none → (newLoop dflt k m p).1.prev y = none) ∧
      (r = (newLoop dflt k m p).2 ∨ (newLoop dflt k m p).1.next r ≠ none) := by
  intro k
  induction k with
  | zero => intro m p h _ _ h'; exact ⟨h, h'⟩
  | succ k ih =>
    intro m p h hp hr h'
    simp only [newLoop, alloc]
    apply ih
    · intro y hy hn
      simp only [Mem.setNext, upd] at hn ⊢
      rw [if_neg hy]
      split at hn
      · cases hn
      · next e => exact h y e hn
    · exact Nat.lt_succ_self _
    · exact Nat.lt_succ_of_lt hr
    · right
      simp only [Mem.setNext, upd]
      split
      · simp
      · next e =>
        rw [if_neg (by omega)]
        rcases h' with h' | h'
        · exact absurd h' e
        · exact h'

theorem Clean.new (h : Clean m) (dflt : T) (n : Int) : Clean (new dflt m n).1 := by
  unfold Ring.new; split
  · exact h
  · simp only [alloc]
    obtain ⟨h1, h2⟩ := newLoop_clean dflt m.fresh (n.toNat - 1) (alloc dflt m none).1 m.fresh (by
      intro y hy hn
      simp only [alloc, upd, if_neg hy] at hn ⊢
      exact h y hn) (Nat.lt_succ_self _) (Nat.lt_succ_self _) (.inl rfl)
    simp only [alloc] at h1 h2
    intro y hy
    simp only [Mem.setNext, Mem.setPrev, upd] at hy ⊢
    split at hy
    · cases hy
    · next e =>
      have : y ≠ m.fresh := by
        rintro rfl
        rcases h2 with h2 | h2
        · exact e h2
        · exact h2 hy
      rw [if_neg this]
      exact h1 y e hy

theorem Clean.step {s : St T} (hc : Clean m) (h : Sim m s) {dflt : T} {op : Op T} (ha : m.Args op) {fuel : Nat} {m' : Mem T} {r : Res T}
    (he : exec dflt fuel m op = some (m', r)) : Clean m' := by
  cases op with
  | new n => simp only [exec] at he; cases he; exact hc.new dflt n
  | zero =>
    simp only [exec, alloc] at he; cases he
    intro y hy
    simp only [upd] at hy ⊢
    split
    · rfl
    · next e => rw [if_neg e] at hy; exact hc y hy
  | next x => simp only [exec, next_eq] at he; cases he; exact hc.norm x
  | prev x => simp only [exec, prev_eq] at he; cases he; exact hc.norm x
  | move x n =>
    simp only [exec, h.move (x := x) ha n] at he; cases he; exact hc.norm x
  | link x t =>
    simp only [exec] at he
    cases e : Ring.link m x t with
    | none => simp [e] at he
    | some q =>
      obtain ⟨m1, q⟩ := q
      simp only [e] at he; cases he
      refine hc.link h ?_ e
      cases t with
      | none => exact ha
      | some t => exact ha.1
  | unlink x n =>
    simp only [exec, Ring.unlink] at he
    split at he
    · cases he; exact hc
    · simp only [h.move (x := x) ha (n + 1)] at he
      cases e : Ring.link (Ring.norm m x) x (at_ (s.ring x) (n + 1)) with
      | none => simp [e] at he
      | some q =>
        obtain ⟨m1, q⟩ := q
        simp [e] at he
        obtain ⟨rfl, _⟩ := he
        have hf : (Ring.norm m x).fresh = m.fresh := by unfold Ring.norm; split <;> rfl
        exact (hc.norm x).link (h.norm ha) (by rw [hf]; exact ha) e
  | len x =>
    cases x with
    | none => simp [exec, Ring.len] at he; exact he.1 ▸ hc
    | some x =>
      simp only [exec, Ring.len, next_eq] at he
      cases e : loop (Ring.norm m x) x (fun n _ => n + 1) fuel 1 ((Ring.norm m x).next x) with
      | none => simp [e] at he
      | some q => simp [e] at he; exact he.1 ▸ hc.norm x
  | do_ x =>
    cases x with
    | none => simp [exec, Ring.do_] at he; exact he.1 ▸ hc
    | some x =>
      simp only [exec, Ring.do_, next_eq] at he
      cases e : loop (Ring.norm m x) x (fun acc q => acc ++ [(Ring.norm m x).val q]) fuel [m.val x] ((Ring.norm m x).next x) with
      | none => simp [e] at he
      | some q => simp [e] at he; exact he.1 ▸ hc.norm x
  | getValue x => cases he; exact hc
  | setValue x v => cases he; exact hc

theorem MRun.clean {dflt : T} {h : List (Op T × Res T)} (hr : MRun dflt h m) : Clean m := by
  induction hr with
  | nil => intro y _; rfl
  | snoc hr ha hs ih =>
    obtain ⟨s, _, hs'⟩ := hr.sim
    obtain ⟨F, hF⟩ := hs
    exact ih.step hs' ha (hF F (Nat.le_refl _))

/-! ## C181 -/

/-- **C181**: an element of a ring keeps all elements of its ring from being collected, and no others. -/
theorem C181_ring {dflt : T} {h : List (Op T × Res T)} (hr : MRun dflt h m) {C : List Nat} (hC : IsRing m C) {x : Nat} (hx : x ∈ C)
    (y : Nat) : Keeps m x y ↔ y ∈ C := by
  obtain ⟨s, _, hs⟩ := hr.sim
  have hc := hr.clean
  obtain ⟨c, D, rfl⟩ := List.exists_cons_of_ne_nil hC.ne
  have e := hs.isRing.1 hC
  rw [← e] at hx ⊢
  constructor
  · intro hk
    induction hk with
    | refl => exact hx
    | tail _ hr ih => exact (hs.refers hc ih hr).1
  · intro hy
    have hxl := hs.rep.alloc c x hx
    have hy : y ∈ s.ring x := (hs.rep.mem_iff hx y).2 hy
    by_cases hn : m.next x = none
    · rcases hs.rep.ok x hxl with ⟨z, e1, _⟩ | hcy
      · obtain ⟨t, e2⟩ := hs.rep.head x hxl
        rw [e1] at e2 hy
        cases e2
        rw [List.mem_singleton.1 hy]
        exact .refl
      · obtain ⟨t, e2⟩ := hs.rep.head x hxl
        have h1 := hcy.next_at 0 (by rw [e2]; exact at_zero)
        obtain ⟨_, _, _, h2⟩ := at_some (C := s.ring x) (by rw [e2]; simp) (0 + 1)
        rw [h1, h2] at hn; cases hn
    · have hcy := hs.rep.cyc_of_next hxl hn
      obtain ⟨t, e2⟩ := hs.rep.head x hxl
      have key : ∀ i (hi : i < (s.ring x).length), Keeps m x (s.ring x)[i] := by
        intro i
        induction i with
        | zero => intro hi; simp only [e2, List.getElem_cons_zero]; exact .refl
        | succ i ih =>
          intro hi
          refine (ih (by omega)).tail (.inl ?_)
          rw [(hcy.get (by omega)).1, Nat.mod_eq_of_lt hi, List.getElem?_eq_getElem hi]
      obtain ⟨i, hi, rfl⟩ := List.getElem_of_mem hy
      exact key i hi

/-- **C181**: after `Unlink(n)` the two rings keep nothing of each other. -/
theorem C181_unlink {dflt : T} {h : List (Op T × Res T)} (hr : MRun dflt h m) {r : Nat} {A : List Nat} (h1 : IsRing m (r :: A)) {n : Int}
    (hn : 0 < n) {res : Res T} {m' : Mem T} (hs : MStep dflt m (.unlink r n) res m') {k : Nat} (hk : k = (n % (r :: A).length).toNat) :
    (∀ x ∈ A.take k, ∀ y, Keeps m' x y ↔ y ∈ A.take k) ∧ (∀ x ∈ r :: A.drop k, ∀ y, Keeps m' x y ↔ y ∈ r :: A.drop k) ∧
      (∀ x ∈ A.take k, x ∉ r :: A.drop k) := by
  have hr' : MRun dflt _ m' := MRun.snoc (op := .unlink r n) hr (show r < m.fresh from h1.alloc r (by simp)) hs
  obtain ⟨m1, hs1, hcut⟩ := (C42_unlink hr h1 n).2 hn k hk
  obtain ⟨_, rfl⟩ := MStep.det hs hs1
  refine ⟨fun x hx => C181_ring hr' (hcut.2.1 (by rintro e; rw [e] at hx; simp at hx)) hx, fun x hx => C181_ring hr' hcut.1 hx, ?_⟩
  intro x hx hx'
  have hnd := h1.nodup
  rw [List.nodup_cons] at hnd
  rcases List.mem_cons.1 hx' with rfl | hx'
  · exact hnd.1 (List.mem_of_mem_take hx)
  · have h2 := hnd.2
    rw [← List.take_append_drop k A, List.nodup_append] at h2
    exact h2.2.2 x hx x hx' rfl

/-- Not vacuous: after `Unlink(7)` of a ring of five, element 1 refers to element 2 only. -/
example : (runs 0 20 (Mem.empty 0) (demo ++ [.unlink 0 7])).map (fun p => (p.1.next 1, p.1.prev 1, p.1.next 2, p.1.prev 2)) =
    some (some 2, some 2, some 1, some 1) := rfl
/-- An element that was never used has no references, not even to itself. -/
example : (runs 0 20 (Mem.empty 0) [(.zero : Op Nat)]).map (fun p => (p.1.next 0, p.1.prev 0)) = some (none, none) := rfl
end Verif.Ring
