import Verif.Heap.Iface
import Verif.Heap.Props
/-!
# Implementations of `heap.Interface` that do the same; agreement of the two models
-/
namespace Verif.Heap

/-- Both panic, or neither and the results are related. -/
def RelO {α β : Type} (P : α → β → Prop) : Option α → Option β → Prop
  | none, none => True
  | some a, some b => P a b
  | _, _ => False

/-- The methods `Len`, `Less`, `Swap` and `Pop` of two implementations do the same in related states. -/
structure Sim {S T S' T' : Type} (I : Iface S T) (J : Iface S' T') (R : S → S' → Prop) (Q : T → T' → S → Prop) : Prop where
  len : ∀ s t, R s t → I.len s = J.len t
  less : ∀ s t i j, R s t → RelO (fun a b => a.1 = b.1 ∧ R a.2 b.2) (I.less s i j) (J.less t i j)
  swap : ∀ s t i j, R s t → RelO R (I.swap s i j) (J.swap t i j)
  pop : ∀ s t, R s t → RelO (fun a b => Q a.1 b.1 a.2 ∧ R a.2 b.2) (I.pop s) (J.pop t)

namespace Sim
variable {S T S' T' : Type} {I : Iface S T} {J : Iface S' T'} {R : S → S' → Prop} {Q : T → T' → S → Prop}

theorem up (h : Sim I J R Q) (j : Int) : ∀ s t, R s t → RelO R (I.up s j) (J.up t j) := by
  suffices ∀ n : Nat, ∀ j : Int, j.natAbs = n → ∀ s t, R s t → RelO R (I.up s j) (J.up t j) from this _ j rfl
  intro n
  induction n using Nat.strongRecOn with
  | _ n ih =>
    intro j hj s t hr
    rw [Iface.up, Iface.up]
    split
    · exact hr
    · next hij =>
      have h1 := h.less s t j ((j - 1).tdiv 2) hr
      revert h1
      rcases I.less s j ((j - 1).tdiv 2) with _ | ⟨b, s1⟩ <;> rcases J.less t j ((j - 1).tdiv 2) with _ | ⟨b', t1⟩ <;>
        simp only [RelO] <;> try exact fun h => h.elim
      · simp
      · rintro ⟨e, hr1⟩
        cases e
        cases b
        · exact hr1
        · have h2 := h.swap s1 t1 ((j - 1).tdiv 2) j hr1
          revert h2
          simp only
          rcases I.swap s1 ((j - 1).tdiv 2) j with _ | s2 <;> rcases J.swap t1 ((j - 1).tdiv 2) j with _ | t2 <;>
            simp only [RelO] <;> try exact fun h => h.elim
          · simp
          · intro hr2
            exact ih _ (by have := Iface.tdiv_natAbs j hij; omega) _ rfl _ _ hr2

theorem downLoop (h : Sim I J R Q) (n : Int) : ∀ (i : Int) s t, R s t →
    RelO (fun a b => R a.1 b.1 ∧ a.2 = b.2) (I.downLoop s i n) (J.downLoop t i n) := by
  suffices ∀ m : Nat, ∀ i : Int, (n - i).toNat = m → ∀ s t, R s t →
      RelO (fun a b => R a.1 b.1 ∧ a.2 = b.2) (I.downLoop s i n) (J.downLoop t i n) from fun i => this _ i rfl
  intro m
  induction m using Nat.strongRecOn with
  | _ m ih =>
    intro i hi s t hr
    rw [Iface.downLoop, Iface.downLoop]
    simp only
    split
    · exact ⟨hr, rfl⟩
    · next hj =>
      have h0 : RelO (fun a b => a.1 = b.1 ∧ R a.2 b.2)
          (if 2 * i + 1 + 1 < n then I.less s (2 * i + 1 + 1) (2 * i + 1) else some (false, s))
          (if 2 * i + 1 + 1 < n then J.less t (2 * i + 1 + 1) (2 * i + 1) else some (false, t)) := by
        split
        · exact h.less _ _ _ _ hr
        · exact ⟨rfl, hr⟩
      revert h0
      rcases (if 2 * i + 1 + 1 < n then I.less s (2 * i + 1 + 1) (2 * i + 1) else some (false, s)) with _ | ⟨b, s1⟩ <;>
        rcases (if 2 * i + 1 + 1 < n then J.less t (2 * i + 1 + 1) (2 * i + 1) else some (false, t)) with _ | ⟨b', t1⟩ <;>
        simp only [RelO] <;> try exact fun h => h.elim
      · simp
      · rintro ⟨e, hr1⟩
        cases e
        have h1 := h.less s1 t1 (if b = true then 2 * i + 1 + 1 else 2 * i + 1) i hr1
        revert h1
        rcases I.less s1 (if b = true then 2 * i + 1 + 1 else 2 * i + 1) i with _ | ⟨c, s2⟩ <;>
          rcases J.less t1 (if b = true then 2 * i + 1 + 1 else 2 * i + 1) i with _ | ⟨c', t2⟩ <;>
          simp only [RelO] <;> try exact fun h => h.elim
        · simp
        · rintro ⟨e, hr2⟩
          cases e
          cases c
          · exact ⟨hr2, rfl⟩
          · have h2 := h.swap s2 t2 i (if b = true then 2 * i + 1 + 1 else 2 * i + 1) hr2
            revert h2
            simp only
            rcases I.swap s2 i (if b = true then 2 * i + 1 + 1 else 2 * i + 1) with _ | s3 <;>
              rcases J.swap t2 i (if b = true then 2 * i + 1 + 1 else 2 * i + 1) with _ | t3 <;>
              simp only [RelO] <;> try exact fun h => h.elim
            · simp
            · intro hr3
              exact ih _ (by split <;> omega) _ rfl _ _ hr3

theorem down (h : Sim I J R Q) (i n : Int) (s : S) (t : S') (hr : R s t) :
    RelO (fun a b => R a.1 b.1 ∧ a.2 = b.2) (I.down s i n) (J.down t i n) := by
  have h1 := h.downLoop n i s t hr
  revert h1
  unfold Iface.down
  rcases I.downLoop s i n with _ | ⟨s1, k⟩ <;> rcases J.downLoop t i n with _ | ⟨t1, k'⟩ <;>
    simp only [RelO] <;> try exact fun h => h.elim
  · simp
  · rintro ⟨h2, rfl⟩
    exact ⟨h2, rfl⟩

theorem downUp (h : Sim I J R Q) (i n : Int) (s : S) (t : S') (hr : R s t) : RelO R (I.downUp s i n) (J.downUp t i n) := by
  have h1 := h.down i n s t hr
  revert h1
  unfold Iface.downUp
  rcases I.down s i n with _ | ⟨s1, k⟩ <;> rcases J.down t i n with _ | ⟨t1, k'⟩ <;>
    simp only [RelO] <;> try exact fun h => h.elim
  · simp
  · rintro ⟨h2, rfl⟩
    cases k
    · exact h.up i _ _ h2
    · exact h2

theorem initLoop (h : Sim I J R Q) (n k : Nat) : ∀ s t, R s t → RelO R (I.initLoop n k s) (J.initLoop n k t) := by
  induction k with
  | zero => exact fun _ _ hr => hr
  | succ k ih =>
    intro s t hr
    have h1 := h.down k n s t hr
    revert h1
    unfold Iface.initLoop
    rcases I.down s k n with _ | ⟨s1, b⟩ <;> rcases J.down t k n with _ | ⟨t1, b'⟩ <;>
      simp only [RelO] <;> try exact fun h => h.elim
    · simp
    · exact fun h2 => ih _ _ h2.1

theorem init (h : Sim I J R Q) (s : S) (t : S') (hr : R s t) : RelO R (I.init s) (J.init t) := by
  unfold Iface.init
  rw [h.len s t hr]
  exact h.initLoop _ _ s t hr

theorem hpush (h : Sim I J R Q) (s : S) (t : S') (x : T) (y : T') (hp : RelO R (I.push s x) (J.push t y)) :
    RelO R (I.hpush s x) (J.hpush t y) := by
  revert hp
  unfold Iface.hpush
  rcases I.push s x with _ | s1 <;> rcases J.push t y with _ | t1 <;> simp only [RelO] <;> try exact fun h => h.elim
  · simp
  · intro hr
    rw [h.len _ _ hr]
    exact h.up _ _ _ hr

theorem hpop (h : Sim I J R Q) (s : S) (t : S') (hr : R s t) :
    RelO (fun a b => Q a.1 b.1 a.2 ∧ R a.2 b.2) (I.hpop s) (J.hpop t) := by
  unfold Iface.hpop
  simp only
  rw [h.len _ _ hr]
  have h1 := h.swap s t 0 ((J.len t : Int) - 1) hr
  revert h1
  rcases I.swap s 0 ((J.len t : Int) - 1) with _ | s1 <;> rcases J.swap t 0 ((J.len t : Int) - 1) with _ | t1 <;>
    simp only [RelO] <;> try exact fun h => h.elim
  · simp
  · intro hr1
    have h2 := h.down 0 ((J.len t : Int) - 1) s1 t1 hr1
    revert h2
    rcases I.down s1 0 ((J.len t : Int) - 1) with _ | ⟨s2, _⟩ <;> rcases J.down t1 0 ((J.len t : Int) - 1) with _ | ⟨t2, _⟩ <;>
      simp only [RelO] <;> try exact fun h => h.elim
    · simp
    · exact fun h3 => h.pop _ _ h3.1

theorem remove (h : Sim I J R Q) (s : S) (t : S') (i : Int) (hr : R s t) :
    RelO (fun a b => Q a.1 b.1 a.2 ∧ R a.2 b.2) (I.remove s i) (J.remove t i) := by
  unfold Iface.remove
  simp only
  rw [h.len _ _ hr]
  split
  · have h1 := h.swap s t i ((J.len t : Int) - 1) hr
    revert h1
    rcases I.swap s i ((J.len t : Int) - 1) with _ | s1 <;> rcases J.swap t i ((J.len t : Int) - 1) with _ | t1 <;>
      simp only [RelO] <;> try exact fun h => h.elim
    · simp
    · intro hr1
      have h2 := h.downUp i ((J.len t : Int) - 1) s1 t1 hr1
      revert h2
      rcases I.downUp s1 i ((J.len t : Int) - 1) with _ | s2 <;> rcases J.downUp t1 i ((J.len t : Int) - 1) with _ | t2 <;>
        simp only [RelO] <;> try exact fun h => h.elim
      · simp
      · exact fun h3 => h.pop _ _ h3
  · exact h.pop _ _ hr

theorem fix (h : Sim I J R Q) (s : S) (t : S') (i : Int) (hr : R s t) : RelO R (I.fix s i) (J.fix t i) := by
  unfold Iface.fix
  rw [h.len _ _ hr]
  exact h.downUp _ _ _ _ hr

end Sim

/-! ## On slices both models agree -/
variable {T : Type} (lt : T → T → Bool)

theorem at?_nat (l : List T) (i : Nat) : at? l (i : Int) = l[i]? := by
  unfold at?
  rw [if_neg (by omega), Int.toNat_natCast]

theorem slice_less (l : List T) (i j : Nat) : (slice lt).less l i j = (less lt l i j).map (fun b => (b, l)) := by
  simp only [slice, at?_nat, less]
  rcases l[i]? with _ | a <;> rcases l[j]? with _ | b <;> rfl

theorem slice_swap (l : List T) (i j : Nat) : (slice lt).swap l i j = swap l i j := by
  simp only [slice, at?_nat, swap, Int.toNat_natCast]
  rcases l[i]? with _ | a <;> rcases l[j]? with _ | b <;> rfl

theorem slice_pop (l : List T) : (slice lt).pop l = rawPop l := rfl

theorem slice_up (j : Nat) : ∀ l : List T, (slice lt).up l j = up lt l j := by
  induction j using Nat.strongRecOn with
  | _ j ih =>
    intro l
    rw [Iface.up, up]
    have e : ((j : Int) - 1).tdiv 2 = (((j - 1) / 2 : Nat) : Int) := by
      rcases j with _ | j
      · rfl
      · rw [Iface.tdiv_pos _ (by omega)]; omega
    rw [e]
    by_cases h : (j - 1) / 2 = j
    · rw [dif_pos (by omega), dif_pos h]
    · rw [dif_neg (by omega), dif_neg h, slice_less]
      rcases less lt l j ((j - 1) / 2) with _ | b
      · rfl
      · cases b
        · rfl
        · simp only [Option.map_some, slice_swap]
          rcases swap l ((j - 1) / 2) j with _ | l'
          · rfl
          · exact ih _ (by omega) l'

theorem slice_downLoop (n : Nat) : ∀ (m i : Nat) (l : List T), n - i = m →
    (slice lt).downLoop l i n = (downLoop lt l i n).map (fun a => (a.1, (a.2 : Int))) := by
  intro m
  induction m using Nat.strongRecOn with
  | _ m ih =>
    intro i l hm
    rw [Iface.downLoop, downLoop]
    simp only
    by_cases h : 2 * i + 1 ≥ n
    · rw [dif_pos (by omega), dif_pos h]; rfl
    · rw [dif_neg (by omega), dif_neg h]
      have e0 : (if 2 * (i : Int) + 1 + 1 < n then (slice lt).less l (2 * (i : Int) + 1 + 1) (2 * (i : Int) + 1) else some (false, l)) =
          (if 2 * i + 1 + 1 < n then less lt l (2 * i + 1 + 1) (2 * i + 1) else some false).map (fun b => (b, l)) := by
        by_cases h1 : 2 * i + 1 + 1 < n
        · rw [if_pos (by omega), if_pos h1, ← slice_less]
          norm_cast
        · rw [if_neg (by omega), if_neg h1]; rfl
      rw [e0]
      rcases (if 2 * i + 1 + 1 < n then less lt l (2 * i + 1 + 1) (2 * i + 1) else some false) with _ | b
      · rfl
      · simp only [Option.map_some]
        have e1 : (if b = true then 2 * (i : Int) + 1 + 1 else 2 * (i : Int) + 1) =
            ((if b = true then 2 * i + 1 + 1 else 2 * i + 1 : Nat) : Int) := by split <;> norm_cast
        rw [e1, slice_less]
        rcases less lt l (if b = true then 2 * i + 1 + 1 else 2 * i + 1) i with _ | c
        · rfl
        · cases c
          · rfl
          · simp only [Option.map_some, slice_swap]
            rcases swap l i (if b = true then 2 * i + 1 + 1 else 2 * i + 1) with _ | l'
            · rfl
            · exact ih _ (by split <;> omega) _ l' rfl

theorem slice_down (l : List T) (i n : Nat) : (slice lt).down l i n = down lt l i n := by
  unfold Iface.down down
  rw [slice_downLoop lt n _ i l rfl]
  rcases downLoop lt l i n with _ | ⟨l', k⟩
  · rfl
  · simp

theorem slice_init (l : List T) : (slice lt).init l = init lt l := by
  unfold Iface.init init
  show (slice lt).initLoop l.length (l.length / 2) l = _
  generalize l.length = n
  generalize n / 2 = k
  induction k generalizing l with
  | zero => rfl
  | succ k ih =>
    unfold Iface.initLoop initLoop
    rw [slice_down]
    rcases down lt l k n with _ | ⟨l', b⟩
    · rfl
    · exact ih l'

theorem slice_hpush (l : List T) (x : T) : (slice lt).hpush l x = push lt l x := by
  have e : ((slice lt).len (l ++ [x]) : Int) - 1 = (((rawPush l x).length - 1 : Nat) : Int) := by
    simp [slice, rawPush]
  unfold Iface.hpush push
  show (slice lt).up (l ++ [x]) _ = _
  rw [e, slice_up]
  rfl

theorem slice_hpop (l : List T) : (slice lt).hpop l = pop lt l := by
  unfold Iface.hpop pop
  simp only
  by_cases h : l.length = 0
  · have : l = [] := List.length_eq_zero_iff.1 h
    subst this
    rfl
  · rw [if_neg h]
    have e : ((slice lt).len l : Int) - 1 = ((l.length - 1 : Nat) : Int) := by
      show (l.length : Int) - 1 = _
      omega
    rw [e, show (0 : Int) = ((0 : Nat) : Int) from rfl, slice_swap]
    rcases swap l 0 (l.length - 1) with _ | l1
    · rfl
    · simp only [slice_down]
      rcases down lt l1 0 (l.length - 1) with _ | ⟨l2, b⟩ <;> rfl

theorem at?_neg (l : List T) {i : Int} (h : i < 0) : at? l i = none := by simp [at?, h]

/-- `Remove` on slices, for all indices. -/
theorem slice_remove (l : List T) (i : Int) : (slice lt).remove l i = remove lt l i := by
  unfold Iface.remove remove
  simp only
  by_cases h0 : i < 0 ∨ l.length = 0
  · rw [if_pos h0]
    split
    · rcases h0 with h | h
      · simp [slice, at?_neg l h]
      · have : l = [] := List.length_eq_zero_iff.1 h
        subst this
        simp [slice, at?]
    · next hn =>
      simp only [slice] at hn
      have hl : l.length = 0 := by omega
      have : l = [] := List.length_eq_zero_iff.1 hl
      subst this
      rfl
  · rw [if_neg h0]
    obtain ⟨k, rfl⟩ : ∃ k : Nat, i = k := ⟨i.toNat, by omega⟩
    simp only [Int.toNat_natCast]
    have e : ((slice lt).len l : Int) - 1 = ((l.length - 1 : Nat) : Int) := by
      show (l.length : Int) - 1 = _
      omega
    rw [e]
    by_cases hk : l.length - 1 = k
    · rw [if_neg (by omega), if_neg (by omega)]; rfl
    · rw [if_pos (by omega), if_pos hk, slice_swap]
      rcases swap l k (l.length - 1) with _ | l1
      · rfl
      · simp only [Iface.downUp, slice_down]
        rcases down lt l1 k (l.length - 1) with _ | ⟨l2, b⟩
        · rfl
        · cases b
          · simp only [slice_up]
            rcases up lt l2 k with _ | l3 <;> rfl
          · rfl

/-- `Fix` on slices, for all indices. -/
theorem slice_fix (l : List T) (i : Int) : (slice lt).fix l i = fix lt l i := by
  unfold Iface.fix fix Iface.downUp
  by_cases h0 : i < 0
  · rw [if_pos h0]
    have e : (slice lt).down l i ((slice lt).len l) = some (l, false) := by
      unfold Iface.down Iface.downLoop
      rw [dif_pos (by omega)]
      simp
    rw [e]
    simp only
    rw [Iface.up]
    by_cases h1 : i = -1
    · subst h1; rfl
    · rw [if_neg h1, dif_neg (by rw [Iface.tdiv_neg _ (by omega)]; omega)]
      simp [slice, at?_neg l h0]
  · rw [if_neg h0]
    obtain ⟨k, rfl⟩ : ∃ k : Nat, i = k := ⟨i.toNat, by omega⟩
    simp only [Int.toNat_natCast]
    have e : (slice lt).down l k ((slice lt).len l) = down lt l k l.length := slice_down lt l k l.length
    rw [e]
    rcases down lt l k l.length with _ | ⟨l2, b⟩
    · rfl
    · cases b
      · exact slice_up lt k l2
      · rfl

end Verif.Heap
