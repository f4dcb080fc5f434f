import Verif.Heap.Panic
import Verif.Heap.Props

/-!
# C145: heaps of floating-point numbers

`MinHeap[T]` and `MaxHeap[T]` (minheap.go:7, maxheap.go:7) are declared for `constraints.Ordered`, which
includes `float32` and `float64`, and compare with `<` and `>` (minheap.go:13-15, maxheap.go:13-15).
Of the floats only what matters for that is modelled: a NaN is neither less nor greater than anything,
the other numbers are ordered (`+0` and `-0` being equal).
-/
namespace Verif.Heap.Float

variable {T : Type}

/-- `<` on floats: a strict weak order on the numbers that are not NaN; comparisons with NaN are false. -/
structure FloatLt (lt : T → T → Bool) (nan : T → Prop) : Prop where
  left : ∀ a b, nan a → lt a b = false
  right : ∀ a b, nan b → lt a b = false
  irrefl : ∀ a, lt a a = false
  trans : ∀ a b c, lt a b = true → lt b c = true → lt a c = true
  negTrans : ∀ a b c, ¬ nan b → lt a b = false → lt b c = false → lt a c = false

/-- `>` is of the same kind, so what follows is about `MaxHeap` as well. -/
theorem FloatLt.flip {lt : T → T → Bool} {nan : T → Prop} (F : FloatLt lt nan) : FloatLt (fun a b => lt b a) nan where
  left a b h := F.right b a h
  right a b h := F.left b a h
  irrefl := F.irrefl
  trans a b c h1 h2 := F.trans c b a h2 h1
  negTrans a b c h h1 h2 := F.negTrans c b a h h2 h1

/-! ## False with a NaN among the elements -/

/-- The claim: popping until the heap is empty lists the elements in order, after `Init` and after pushing. -/
def Drains (lt : T → T → Bool) : Prop :=
  (∀ l l1 xs : List T, init lt l = some l1 → drain lt l1.length l1 = some xs → Sorted lt xs) ∧
  (∀ l l1 xs : List T, execAll lt [] (l.map .push) = some l1 → drain lt l1.length l1 = some xs → Sorted lt xs)

section false
variable {lt : T → T → Bool} {nan : T → Prop} (F : FloatLt lt nan) {a b z : T} (hz : nan z) (hab : lt a b = true)
include F hz

/-- With `a < b` and a NaN `z` beside them `Init` leaves `b` at the root, although `a` is there: -/
theorem C145_init : init lt [b, z, a] = some [b, z, a] := by
  simp [init, initLoop, down, downLoop, less, F.left z b hz, F.right a z hz]

/-- the first `Pop` then returns `b`, the last one `a`. -/
theorem C145_init_drain : drain lt 3 [b, z, a] = some [b, a, z] := by
  simp [drain, pop, down, downLoop, less, swap, rawPop, F.left z a hz]

/-- The same if they are pushed: -/
theorem C145_push_pop : execAll lt [] [.push b, .push z, .push b, .push a] = some [b, z, b, a] ∧
    pop lt [b, z, b, a] = some (b, [a, z, b]) := by
  constructor
  · simp [execAll, exec, push, up, rawPush, less, F.left z b hz, F.right a z hz, F.irrefl]
  · simp [pop, down, downLoop, less, swap, rawPop, F.left z a hz, F.right b z hz]

include hab in
/-- `Pop` may leave elements out of order that were in order: -/
theorem C145_pop_order : IsHeap lt [a, z, a, b] ∧ pop lt [a, z, a, b] = some (a, [b, z, a]) ∧ ¬ IsHeap lt [b, z, a] := by
  refine ⟨?_, ?_, fun h => ?_⟩
  · intro k hk x p hx hp
    match k, hk with
    | 1, _ => cases hx; cases hp; exact F.left _ _ hz
    | 2, _ => cases hx; cases hp; exact F.irrefl _
    | 3, _ => cases hx; cases hp; exact F.right _ _ hz
    | k + 4, _ => cases hx
  · simp [pop, down, downLoop, less, swap, rawPop, F.left z b hz, F.right a z hz]
  · have := h 2 (by omega) a b rfl rfl
    rw [hab] at this
    cases this

include hab in
/-- C145 is false for every type with a NaN and two numbers. -/
theorem C145_false : ¬ Drains lt := by
  intro h
  have := h.1 [b, z, a] _ _ (C145_init F hz) (C145_init_drain F hz)
  unfold Sorted at this
  simp [hab] at this

end false

/-! ## Without a NaN among them -/

section nat
variable {U : Type} (f : U → T) (lt : T → T → Bool)

/-- The order on the `U`s by their `f`. -/
abbrev on : U → U → Bool := fun x y => lt (f x) (f y)

theorem less_map (l : List U) (i j : Nat) : less lt (l.map f) i j = less (on f lt) l i j := by
  unfold less
  rw [List.getElem?_map, List.getElem?_map]
  rcases l[i]? with _ | x <;> rcases l[j]? with _ | y <;> rfl

theorem swap_map (l : List U) (i j : Nat) : swap (l.map f) i j = (swap l i j).map (List.map f) := by
  unfold swap
  rw [List.getElem?_map, List.getElem?_map]
  rcases l[i]? with _ | x <;> rcases l[j]? with _ | y <;> simp [List.map_set]

theorem rawPop_map (l : List U) : rawPop (l.map f) = (rawPop l).map (Prod.map f (List.map f)) := by
  unfold rawPop
  rw [List.getLast?_map]
  rcases l.getLast? with _ | x <;> simp [List.map_dropLast]

theorem up_map (j : Nat) : ∀ l : List U, up lt (l.map f) j = (up (on f lt) l j).map (List.map f) := by
  induction j using Nat.strongRecOn with
  | _ j ih =>
    intro l
    conv => lhs; unfold up
    conv => rhs; unfold up
    simp only
    split
    · rfl
    · rw [less_map, swap_map]
      rcases less (on f lt) l j ((j - 1) / 2) with _ | _ | _
      · rfl
      · rfl
      · simp only
        rcases swap l ((j - 1) / 2) j with _ | l'
        · rfl
        · exact ih _ (by omega) l'

theorem downLoop_map (n m : Nat) : ∀ (i : Nat) (l : List U), n - i = m →
    downLoop lt (l.map f) i n = (downLoop (on f lt) l i n).map (Prod.map (List.map f) id) := by
  induction m using Nat.strongRecOn with
  | _ m ih =>
    intro i l hm
    conv => lhs; unfold downLoop
    conv => rhs; unfold downLoop
    simp only
    split
    · rfl
    · rw [less_map]
      rcases (if 2 * i + 1 + 1 < n then less (on f lt) l (2 * i + 1 + 1) (2 * i + 1) else some false) with _ | b
      · rfl
      · simp only
        rw [less_map, swap_map]
        have hij : i < (if b = true then 2 * i + 1 + 1 else 2 * i + 1) := by split <;> omega
        rcases less (on f lt) l (if b = true then 2 * i + 1 + 1 else 2 * i + 1) i with _ | _ | _
        · rfl
        · rfl
        · simp only
          rcases swap l i (if b = true then 2 * i + 1 + 1 else 2 * i + 1) with _ | l'
          · rfl
          · exact ih _ (by omega) _ l' rfl

theorem down_map (l : List U) (i n : Nat) : down lt (l.map f) i n = (down (on f lt) l i n).map (Prod.map (List.map f) id) := by
  unfold down
  rw [downLoop_map f lt n _ i l rfl]
  rcases downLoop (on f lt) l i n with _ | ⟨l', i'⟩ <;> rfl

theorem initLoop_map (n k : Nat) : ∀ l : List U, initLoop lt (l.map f) n k = (initLoop (on f lt) l n k).map (List.map f) := by
  induction k with
  | zero => intro l; rfl
  | succ k ih =>
    intro l
    unfold initLoop
    rw [down_map]
    rcases down (on f lt) l k n with _ | ⟨l', b⟩
    · rfl
    · exact ih l'

theorem init_map (l : List U) : init lt (l.map f) = (init (on f lt) l).map (List.map f) := by
  unfold init
  rw [List.length_map, initLoop_map]

theorem push_map (l : List U) (x : U) : push lt (l.map f) (f x) = (push (on f lt) l x).map (List.map f) := by
  unfold push
  have : rawPush (l.map f) (f x) = (rawPush l x).map f := by simp [rawPush]
  simp only
  rw [this, List.length_map, up_map]

theorem pop_map (l : List U) : pop lt (l.map f) = (pop (on f lt) l).map (Prod.map f (List.map f)) := by
  unfold pop
  rw [List.length_map]
  split
  · rfl
  · simp only
    rw [swap_map]
    rcases swap l 0 (l.length - 1) with _ | l1
    · rfl
    · simp only [Option.map_some]
      rw [down_map]
      rcases down (on f lt) l1 0 (l.length - 1) with _ | ⟨l2, b⟩
      · rfl
      · exact rawPop_map f l2

theorem remove_map (l : List U) (i : Int) : remove lt (l.map f) i = (remove (on f lt) l i).map (Prod.map f (List.map f)) := by
  unfold remove
  rw [List.length_map]
  split
  · rfl
  · simp only
    split
    · rw [swap_map]
      rcases swap l i.toNat (l.length - 1) with _ | l1
      · rfl
      · simp only [Option.map_some]
        rw [down_map]
        rcases down (on f lt) l1 i.toNat (l.length - 1) with _ | ⟨l2, _ | _⟩
        · rfl
        · simp only [Option.map_some, Prod.map, id_eq]
          rw [up_map]
          rcases up (on f lt) l2 i.toNat with _ | l3
          · rfl
          · exact rawPop_map f l3
        · exact rawPop_map f l2
    · exact rawPop_map f l

theorem fix_map (l : List U) (i : Int) : fix lt (l.map f) i = (fix (on f lt) l i).map (List.map f) := by
  unfold fix
  rw [List.length_map]
  split
  · split <;> rfl
  · rw [down_map]
    rcases down (on f lt) l i.toNat l.length with _ | ⟨l2, _ | _⟩
    · rfl
    · exact up_map f lt _ l2
    · rfl

/-- The same operation on what `f` gives. -/
def opMap : Op U → Op T
  | .push x => .push (f x)
  | .pop => .pop
  | .remove i => .remove i
  | .update i x => .update i (f x)

theorem exec_map (l : List U) (o : Op U) : exec lt (l.map f) (opMap f o) = (exec (on f lt) l o).map (List.map f) := by
  cases o with
  | push x => exact push_map f lt l x
  | pop => simp only [exec, opMap, pop_map]; rcases pop (on f lt) l with _ | ⟨x, l'⟩ <;> rfl
  | remove i => simp only [exec, opMap, remove_map]; rcases remove (on f lt) l i with _ | ⟨x, l'⟩ <;> rfl
  | update i x =>
    simp only [exec, opMap, List.length_map]
    split
    · rw [← List.map_set, fix_map]
    · rfl

theorem execAll_map (os : List (Op U)) : ∀ l : List U,
    execAll lt (l.map f) (os.map (opMap f)) = (execAll (on f lt) l os).map (List.map f) := by
  induction os with
  | nil => intro l; rfl
  | cons o os ih =>
    intro l
    simp only [List.map_cons, execAll, exec_map]
    rcases exec (on f lt) l o with _ | l'
    · rfl
    · exact ih l'

theorem isHeap_map (l : List U) : IsHeap lt (l.map f) ↔ IsHeap (on f lt) l := by
  unfold IsHeap
  constructor
  · intro h k hk x p hx hp
    exact h k hk (f x) (f p) (by rw [List.getElem?_map, hx]; rfl) (by rw [List.getElem?_map, hp]; rfl)
  · intro h k hk x p hx hp
    rw [List.getElem?_map] at hx hp
    rcases h1 : l[k]? with _ | x'
    · rw [h1] at hx; cases hx
    · rcases h2 : l[(k - 1) / 2]? with _ | p'
      · rw [h2] at hp; cases hp
      · rw [h1] at hx; rw [h2] at hp; cases hx; cases hp
        exact h k hk x' p' h1 h2

end nat

/-- The elements an operation brings in. -/
def args : Op T → List T
  | .push x => [x]
  | .update _ x => [x]
  | _ => []

/-- The numbers that are not NaN. -/
abbrev Num (nan : T → Prop) := { x : T // ¬ nan x }

theorem FloatLt.num {lt : T → T → Bool} {nan : T → Prop} (F : FloatLt lt nan) : StrictWeak (on (Subtype.val (p := fun x => ¬ nan x)) lt) where
  irrefl a := F.irrefl a.1
  trans a b c := F.trans a.1 b.1 c.1
  negTrans a b c := F.negTrans a.1 b.1 c.1 b.2

theorem lift_list {nan : T → Prop} (l : List T) (h : ∀ x ∈ l, ¬ nan x) : ∃ l' : List (Num nan), l = l'.map Subtype.val := by
  induction l with
  | nil => exact ⟨[], rfl⟩
  | cons x l ih =>
    obtain ⟨l', hl⟩ := ih (fun y hy => h y (List.mem_cons_of_mem _ hy))
    have hx := h x List.mem_cons_self
    subst hl
    exact ⟨⟨x, hx⟩ :: l', rfl⟩

theorem lift_ops {nan : T → Prop} (os : List (Op T)) (h : ∀ o ∈ os, ∀ x ∈ args o, ¬ nan x) :
    ∃ os' : List (Op (Num nan)), os = os'.map (opMap Subtype.val) := by
  induction os with
  | nil => exact ⟨[], rfl⟩
  | cons o os ih =>
    obtain ⟨os', hl⟩ := ih (fun y hy => h y (List.mem_cons_of_mem _ hy))
    have ho := h o List.mem_cons_self
    subst hl
    cases o with
    | push x => exact ⟨.push ⟨x, ho x (by simp [args])⟩ :: os', rfl⟩
    | pop => exact ⟨.pop :: os', rfl⟩
    | remove i => exact ⟨.remove i :: os', rfl⟩
    | update i x => exact ⟨.update i ⟨x, ho x (by simp [args])⟩ :: os', rfl⟩

/-- C145, what holds: as long as no NaN is among the contents at `Init` or comes in later, `Init` and any operations after it leave
heap order and no NaN, `Pop` returns a least element and draining lists the elements in order. Missing from the claim: NaN (above). -/
theorem C145_partial {lt : T → T → Bool} {nan : T → Prop} (F : FloatLt lt nan) (l0 l1 l2 : List T) (ops : List (Op T))
    (hl : ∀ x ∈ l0, ¬ nan x) (ho : ∀ o ∈ ops, ∀ x ∈ args o, ¬ nan x) (h0 : init lt l0 = some l1) (h1 : execAll lt l1 ops = some l2) :
    (∀ x ∈ l2, ¬ nan x) ∧ IsHeap lt l2 ∧ (∀ x l3, pop lt l2 = some (x, l3) → IsLeast lt x l2) ∧
      ∃ xs, drain lt l2.length l2 = some xs ∧ xs.Perm l2 ∧ Sorted lt xs := by
  obtain ⟨k0, rfl⟩ := lift_list l0 hl
  obtain ⟨os, rfl⟩ := lift_ops ops ho
  rw [init_map] at h0
  rcases hi : init (on (Subtype.val (p := fun x => ¬ nan x)) lt) k0 with _ | k1
  · rw [hi] at h0; cases h0
  rw [hi] at h0
  cases h0
  rw [execAll_map] at h1
  rcases he : execAll (on (Subtype.val (p := fun x => ¬ nan x)) lt) k1 os with _ | k2
  · rw [he] at h1; cases h1
  rw [he] at h1
  cases h1
  have hh := C22_reachable_heap F.num k0 k1 k2 os hi he
  have hH := (isHeap_map Subtype.val lt k2).2 hh
  have key : ∀ (l : List (Num nan)), IsHeap lt (l.map Subtype.val) → ∀ x l3, pop lt (l.map Subtype.val) = some (x, l3) →
      IsLeast lt x (l.map Subtype.val) ∧ ∃ l4 : List (Num nan), l3 = l4.map Subtype.val ∧ IsHeap lt l3 ∧ (l.map Subtype.val).Perm (x :: l3) := by
    intro l hl x l3 hp
    rw [isHeap_map] at hl
    rw [pop_map] at hp
    rcases hq : pop (on (Subtype.val (p := fun x => ¬ nan x)) lt) l with _ | ⟨y, l4⟩
    · rw [hq] at hp; cases hp
    rw [hq] at hp
    cases hp
    have hne : 0 < l.length := by
      rcases l with _ | ⟨u, l⟩
      · simp [pop] at hq
      · simp
    obtain ⟨y', l4', g1, g2, g3, g4⟩ := pop_spec (lt := on (Subtype.val (p := fun x => ¬ nan x)) lt) l hne
    rw [hq] at g1
    cases g1
    refine ⟨⟨List.mem_map_of_mem (List.mem_iff_getElem?.2 ⟨0, g3⟩), fun w hw => ?_⟩, l4, rfl, (isHeap_map _ _ _).2 (g4 F.num hl), ?_⟩
    · obtain ⟨w', hw', rfl⟩ := List.mem_map.1 hw
      exact root_least F.num hl g3 w' hw'
    · exact g2.map Subtype.val
  refine ⟨fun x hx => ?_, hH, fun x l3 hp => (key k2 hH x l3 hp).1, ?_⟩
  · obtain ⟨y, _, rfl⟩ := List.mem_map.1 hx
    exact y.2
  · have : ∀ (n : Nat) (l : List (Num nan)), l.length ≤ n → IsHeap lt (l.map Subtype.val) →
        ∃ xs, drain lt n (l.map Subtype.val) = some xs ∧ xs.Perm (l.map Subtype.val) ∧ Sorted lt xs := by
      intro n
      induction n with
      | zero =>
        intro l hn _
        have : l = [] := List.eq_nil_of_length_eq_zero (by omega)
        subst this
        exact ⟨[], rfl, .refl _, List.Pairwise.nil⟩
      | succ n ih =>
        intro l hn hl
        by_cases h0 : l = []
        · subst h0; exact ⟨[], rfl, .refl _, List.Pairwise.nil⟩
        · obtain ⟨x, l3, hp, _⟩ := pop_spec (lt := lt) (l.map Subtype.val) (by simpa using List.length_pos_iff.2 h0)
          obtain ⟨g1, l4, rfl, g2, g3⟩ := key l hl x l3 hp
          have hlen := g3.length_eq
          simp only [List.length_map, List.length_cons] at hlen
          obtain ⟨xs, e1, e2, e3⟩ := ih l4 (by omega) g2
          refine ⟨x :: xs, ?_, (e2.cons x).trans g3.symm, List.Pairwise.cons (fun y hy => ?_) e3⟩
          · unfold drain
            rw [if_neg (by simpa using h0), hp]
            simp only [e1]
          · exact g1.2 y (g3.mem_iff.2 (List.mem_cons_of_mem _ (e2.mem_iff.1 hy)))
    have := this k2.length k2 (Nat.le_refl _) hH
    rwa [List.length_map]

/-! ## Pushing is safe -/

open Panic in
theorem up_order {lt : T → T → Bool} (sw : Mid lt) (n j : Nat) : ∀ (l l' : List T), j < n → n ≤ l.length → Tight lt l n j →
    up lt l j = some l' → Ord lt l' n 0 (fun _ => False) := by
  induction j using Nat.strongRecOn with
  | _ j ih =>
    intro l l' hj hn hord h
    unfold up at h
    simp only at h
    split at h
    next hij =>
      cases h
      intro k hk hkn hlo _ x p hx hp
      exact hord.1 k hk hkn hlo (by omega) x p hx hp
    next hij =>
      rw [less_spec (by omega) (by omega)] at h
      cases hlt : lt l[j] l[(j - 1) / 2] with
      | false =>
        rw [hlt] at h
        cases h
        intro k hk hkn hlo _ x p hx hp
        by_cases hkj : k = j
        · subst hkj
          rw [List.getElem?_eq_getElem (by omega)] at hx hp
          cases hx; cases hp; exact hlt
        · exact hord.1 k hk hkn hlo hkj x p hx hp
      | true =>
        obtain ⟨l1, hs, hlen, _, hget⟩ := swap_spec (l := l) (i := (j - 1) / 2) (j := j) (by omega) (by omega)
        rw [hlt] at h
        simp only [hs] at h
        exact ih _ (by omega) l1 l' (by omega) (by omega) (hord.step sw hj hn hij hlt hget) h

theorem FloatLt.mid {lt : T → T → Bool} {nan : T → Prop} (F : FloatLt lt nan) : Panic.Mid lt where
  asymm {a b} h := by
    cases hba : lt b a with
    | false => rfl
    | true => have := F.trans _ _ _ h hba; rw [F.irrefl] at this; cases this
  negTrans a b c := by
    rintro ⟨z, hz⟩
    exact F.negTrans a b c (fun hb => by rw [F.right z b hb] at hz; cases hz)

/-- C145, what holds with NaN: `Push` leaves no element less than its parent if there was none. (That is not enough for the root to be
least, `C145_push_pop`.) -/
theorem C145_push {lt : T → T → Bool} {nan : T → Prop} (F : FloatLt lt nan) (l l' : List T) (x : T) (hh : IsHeap lt l)
    (h : push lt l x = some l') : IsHeap lt l' ∧ l'.Perm (x :: l) := by
  obtain ⟨l'', h1, h2, _⟩ := push_spec (lt := lt) l x
  rw [h] at h1
  cases h1
  refine ⟨?_, h2⟩
  have hlen : (rawPush l x).length = l.length + 1 := by simp [rawPush]
  unfold push at h
  simp only [hlen, Nat.add_sub_cancel] at h
  have := up_order F.mid (l.length + 1) l.length (rawPush l x) l' (by omega) (by omega) ⟨by
    intro k hk hkn hlo hE a p ha hp
    refine hh k hk a p ?_ ?_
    · simpa [rawPush, List.getElem?_append_left (show k < l.length by omega)] using ha
    · simpa [rawPush, List.getElem?_append_left (show (k - 1) / 2 < l.length by omega)] using hp,
    fun k hk hkn hkp => by omega⟩ h
  refine Ord_full_iff.1 ?_
  have := h2.length_eq
  simp only [List.length_cons] at this
  rwa [this]

/-! ## An example: integers and one NaN -/

/-- `<` on `Option Int`, `none` being NaN. -/
def flt : Option Int → Option Int → Bool
  | some a, some b => decide (a < b)
  | _, _ => false

theorem flt_float : FloatLt flt (· = none) where
  left a b h := by subst h; rfl
  right a b h := by subst h; cases a <;> rfl
  irrefl a := by cases a <;> simp [flt]
  trans a b c h1 h2 := by
    cases a <;> cases b <;> cases c <;> simp [flt] at *
    omega
  negTrans a b c h h1 h2 := by
    cases a <;> cases b <;> cases c <;> simp [flt] at *
    omega

example : ¬ Drains flt := C145_false flt_float (a := some 1) (b := some 2) (z := none) rfl (by decide)
example : init flt [some 3, some 1, some 2] = some [some 1, some 3, some 2] := by
  simp [init, initLoop, down, downLoop, less, swap, flt]
example : execAll flt [some 1, some 3, some 2] [.push (some 0), .pop] = some [some 1, some 3, some 2] := by
  simp [execAll, exec, push, pop, rawPush, rawPop, up, down, downLoop, less, swap, flt]
/-- `MinHeap{3, NaN, 1}` drains as 3, 1, NaN. -/
example : drain flt 3 [some 3, none, some 1] = some [some 3, some 1, none] :=
  C145_init_drain flt_float rfl

end Verif.Heap.Float
