import Verif.Lhashmap.Inv
import Verif.Set.Float
import Mathlib.Data.List.Induction
/-!
# Linked hash maps with float keys (C142)

The key type of an `Lhashmap` is any comparable type (lhashmap.go:6), floats included.  There `==` is no equality: NaN is not equal to
itself, and 0 equals -0.  `Verif.Lhashmap.Model` assumes a lawful equality; here `==` is only symmetric and transitive, and the list and
its entries are the same pointers as there.
-/
namespace Verif.Lhashmap.Float
open Verif.Dllist (Mem Ptr Rep upd)
open Verif.GoSet.Float (EqOp)
open Verif.Lhashmap.Spec (Op Res visit)
variable {A F V : Type} (Q : EqOp F)

/-! ### The Go map -/

/-- `e, ok := m[k]`. -/
def get (m : List (F × Nat)) (k : F) : Option Nat := (m.find? fun p => Q.eq p.1 k).map (·.2)

/-- `m[k] = e`: replaces the entry with an equal key, if there is one. -/
def put (m : List (F × Nat)) (k : F) (e : Nat) : List (F × Nat) :=
  if m.any fun p => Q.eq p.1 k then m.map fun p => if Q.eq p.1 k then (k, e) else p else m ++ [(k, e)]

/-- `delete(m, k)`. -/
def del (m : List (F × Nat)) (k : F) : List (F × Nat) := m.filter fun p => !Q.eq p.1 k

/-! ### The code -/

/-- `Load`: lhashmap.go:39-45. -/
def load (s : LH F V) (k : F) : Option (LH F V × Option V) :=
  match get Q s.m k with
  | some e => do
    let mem ← Dllist.moveToFront s.mem s.l e
    let s := { s with mem := mem }
    let (_, _, v) ← s.entry e
    some (s, some v)
  | none => some (s, none)

/-- `Store`: lhashmap.go:47-55. -/
def store (s : LH F V) (k : F) (v : V) : Option (LH F V) :=
  match get Q s.m k with
  | some e => do
    let (a, k', _) ← s.entry e
    let s := { s with ents := fun x => if x = a then some (k', v) else s.ents x }
    let mem ← Dllist.moveToFront s.mem s.l e
    some { s with mem := mem }
  | none => do
    let a := s.fresh
    let s := { s with ents := fun x => if x = a then some (k, v) else s.ents x, fresh := a + 1 }
    let (mem, e) ← Dllist.pushFront s.mem s.l a
    some { s with mem := mem, m := put Q s.m k e }

/-- `Remove`: lhashmap.go:57-62. -/
def remove (s : LH F V) (k : F) : Option (LH F V) :=
  match get Q s.m k with
  | some e => do
    let (mem, _) ← Dllist.lRemove s.mem s.l e
    some { s with mem := mem, m := del Q s.m k }
  | none => some s

/-- One call; `Len`, `Range` and `Clear` (lhashmap.go:64-79) do not look at keys and are those of `Verif.Lhashmap.Model`. -/
def exec (fuel : Nat) (s : LH F V) : Op A F V → Option (LH F V × Res A V)
  | .load k => do let (s, v) ← load Q s k; some (s, .val v)
  | .store k v => do let s ← store Q s k v; some (s, .unit)
  | .remove k => do let s ← remove Q s k; some (s, .unit)
  | .len => some (s, .int (len s))
  | .range f a => do let (s, a) ← range (plain f) fuel s a; some (s, .vars a)
  | .clear => some (clear s, .unit)

/-- The call terminates without panic. -/
def MStep (s : LH F V) (op : Op A F V) (r : Res A V) (s' : LH F V) : Prop :=
  ∃ N, ∀ fuel, N ≤ fuel → exec Q fuel s op = some (s', r)

/-- The calls `h` on a new map lead to `s`. -/
inductive MRun : List (Op A F V) → LH F V → Prop
  | nil : MRun [] new
  | snoc {h s op r s'} : MRun h s → MStep Q s op r s' → MRun (h ++ [op]) s'

/-! ### What the calls say -/

/-- Newest call first: the value last stored for a key equal to `k` since the last removal of such a key or `Clear`. -/
def curGo (k : F) : List (Op A F V) → Option V
  | [] => none
  | .store k' v :: h => if Q.eq k' k then some v else curGo k h
  | .remove k' :: h => if Q.eq k' k then none else curGo k h
  | .clear :: _ => none
  | _ :: h => curGo k h

/-- The value that `k` has after the calls `h` (oldest first). -/
def current (k : F) (h : List (Op A F V)) : Option V := curGo Q k h.reverse

/-- Newest call first: the key that came first, since then there is a value for `k`. -/
def keyGo (k : F) : List (Op A F V) → Option F
  | [] => none
  | .store k' _ :: h => if Q.eq k' k then some ((keyGo k h).getD k') else keyGo k h
  | .remove k' :: h => if Q.eq k' k then none else keyGo k h
  | .clear :: _ => none
  | _ :: h => keyGo k h

/-- The key under which `k` was stored first. -/
def keyOf (k : F) (h : List (Op A F V)) : Option F := keyGo Q k h.reverse

/-- Newest call first: the NaNs stored since the last `Clear`. -/
def nanGo : List (Op A F V) → List (F × V)
  | [] => []
  | .store k v :: h => if Q.eq k k then nanGo h else (k, v) :: nanGo h
  | .clear :: _ => []
  | _ :: h => nanGo h

/-- The NaNs stored since the last `Clear`, newest first. -/
def nanStores (h : List (Op A F V)) : List (F × V) := nanGo Q h.reverse

/-- Call number `n` is a `Store` of a key equal to `k`, or a `Load` of one that succeeded. -/
def Uses (h : List (Op A F V)) (k : F) (n : Nat) : Prop :=
  (∃ k' v, h[n]? = some (.store k' v) ∧ Q.eq k' k = true) ∨
  ∃ k', h[n]? = some (.load k') ∧ Q.eq k' k = true ∧ current Q k' (h.take n) ≠ none

/-- Call number `n` is the last use of the entry `p`; a NaN is used once, by the `Store` that brings it. -/
def Last (h : List (Op A F V)) (p : F × V) (n : Nat) : Prop :=
  (∀ n', n < n' → h[n']? ≠ some .clear) ∧
  if Q.eq p.1 p.1 then Uses Q h p.1 n ∧ ∀ n', Uses Q h p.1 n' → n' ≤ n else h[n]? = some (.store p.1 p.2)

/-- `xs` is what `Range` is to visit. -/
structure Visits (h : List (Op A F V)) (xs : List (F × V)) : Prop where
  /-- the current values, -/
  vals : ∀ k v, (∃ k', (k', v) ∈ xs ∧ Q.eq k' k = true) ↔ current Q k h = some v
  /-- with the key that was stored first, -/
  keys : ∀ p ∈ xs, Q.eq p.1 p.1 = true → keyOf Q p.1 h = some p.1
  /-- none twice, -/
  once : xs.Pairwise fun p q => Q.eq p.1 q.1 = false
  /-- and besides all NaNs, -/
  nans : (xs.filter fun p => !Q.eq p.1 p.1) = nanStores Q h
  /-- all together by their last use, the newest first. -/
  order : ∃ ns : List Nat, ns.Pairwise (· > ·) ∧ List.Forall₂ (Last Q h) xs ns

/-- The result of call `op` after the calls `h`. -/
def Ok (h : List (Op A F V)) : Op A F V → Res A V → Prop
  | .load k, r => r = .val (current Q k h)
  | .len, r => ∃ ks : List F, (ks.Pairwise fun a b => Q.eq a b = false) ∧ (∀ k ∈ ks, Q.eq k k = true) ∧
      (∀ k, (∃ k' ∈ ks, Q.eq k' k = true) ↔ current Q k h ≠ none) ∧ r = .int (ks.length + (nanStores Q h).length)
  | .range f a, r => ∃ xs, Visits Q h xs ∧ r = .vars (visit f a xs)
  | _, r => r = .unit

/-! ### Lists without equal keys -/

variable {Q}

theorem nan_left {a b : F} (h : Q.eq a a = false) : Q.eq a b = false := by
  rw [Bool.eq_false_iff]; intro e; rw [Q.trans e (Q.symm e)] at h; cases h

theorem nan_right {a b : F} (h : Q.eq b b = false) : Q.eq a b = false := by rw [GoSet.Float.eq_comm]; exact nan_left h

/-- Looking up a key in a list without equal keys. -/
theorem split {α : Type} (key : α → F) {ys : List α} (hk : ys.Pairwise fun y z => Q.eq (key y) (key z) = false) (k : F) :
    (ys.find? (fun y => Q.eq (key y) k) = none ∧ (∀ y ∈ ys, Q.eq (key y) k = false) ∧ ys.filter (fun y => !Q.eq (key y) k) = ys) ∨
    ∃ ys1 y ys2, ys = ys1 ++ y :: ys2 ∧ Q.eq (key y) k = true ∧ ys.find? (fun y => Q.eq (key y) k) = some y ∧
      (∀ z ∈ ys1 ++ ys2, Q.eq (key z) k = false) ∧ ys.filter (fun y => !Q.eq (key y) k) = ys1 ++ ys2 := by
  induction ys with
  | nil => exact Or.inl ⟨rfl, by simp, rfl⟩
  | cons x ys ih =>
    obtain ⟨h1, h2⟩ := List.pairwise_cons.1 hk
    by_cases hx : Q.eq (key x) k = true
    · have ho : ∀ z ∈ ys, Q.eq (key z) k = false := by
        intro z hz
        rw [Bool.eq_false_iff]
        intro e
        have := h1 z hz
        rw [Q.trans hx (Q.symm e)] at this; cases this
      refine Or.inr ⟨[], x, ys, rfl, hx, by simp [hx], by simpa using ho, ?_⟩
      rw [List.filter_cons, hx]
      simp only [Bool.not_true, Bool.false_eq_true, if_false, List.nil_append]
      exact List.filter_eq_self.2 fun z hz => by rw [ho z hz]; rfl
    · have hx' := Bool.eq_false_iff.2 hx
      rcases ih h2 with ⟨i1, i2, i3⟩ | ⟨ys1, y, ys2, rfl, i2, i3, i4, i5⟩
      · exact Or.inl ⟨by simp [hx', i1], by simpa [hx'] using i2, by rw [List.filter_cons, hx', i3]; rfl⟩
      · refine Or.inr ⟨x :: ys1, y, ys2, rfl, i2, by rw [List.find?_cons, hx']; exact i3, ?_, ?_⟩
        · intro z hz
          rcases List.mem_cons.1 hz with rfl | hz
          · exact hx'
          · exact i4 z hz
        · rw [List.filter_cons, hx', i5]; rfl

/-! ### The representation -/

/-- The map consists of the items `ys`, most recently used first. -/
structure Inv (Q : EqOp F) (s : LH F V) (S : Nat → List Nat) (ys : List (Item F V)) : Prop where
  rep : Rep s.mem S
  seq : S s.l = ys.map Item.e
  inited : s.mem.inited s.l = true
  val : ∀ y ∈ ys, s.mem.val y.e = some y.a
  ent : ∀ y ∈ ys, s.ents y.a = some (y.k, y.v)
  map : s.m.Perm (ys.map fun y => (y.k, y.e))
  addr : (ys.map Item.a).Nodup
  keys : ys.Pairwise fun y z => Q.eq y.k z.k = false
  lt : ∀ y ∈ ys, y.a < s.fresh

variable {s : LH F V} {S : Nat → List Nat} {ys zs : List (Item F V)} {y : Item F V}

theorem Inv.init : Inv Q (new : LH F V) (fun _ => []) [] := by
  obtain ⟨h1, _⟩ := Dllist.new_rep (T := Nat) Dllist.Rep.empty
  exact ⟨h1, rfl, rfl, by simp, by simp, .refl _, by simp, .nil, by simp⟩

theorem Inv.lt_freshL (h : Inv Q s S ys) : s.l < s.mem.freshL := h.rep.lt_freshL h.inited

theorem Inv.entry (h : Inv Q s S ys) (hy : y ∈ ys) : s.entry y.e = some (y.a, y.k, y.v) := by
  simp [LH.entry, h.val y hy, h.ent y hy]

theorem Inv.get_none (h : Inv Q s S ys) {k : F} (hk : ∀ y ∈ ys, Q.eq y.k k = false) : get Q s.m k = none := by
  unfold get
  rw [Option.map_eq_none_iff, List.find?_eq_none]
  intro p hp
  obtain ⟨y, hy, rfl⟩ := List.mem_map.1 (h.map.mem_iff.1 hp)
  simp [hk y hy]

theorem Inv.get_some {ys1 ys2 : List (Item F V)} (h : Inv Q s S (ys1 ++ y :: ys2)) {k : F} (hk : Q.eq y.k k = true)
    (ho : ∀ z ∈ ys1 ++ ys2, Q.eq z.k k = false) : get Q s.m k = some y.e := by
  unfold get
  cases e : s.m.find? fun p => Q.eq p.1 k with
  | none =>
    rw [List.find?_eq_none] at e
    exact absurd hk (e (y.k, y.e) (h.map.mem_iff.2 (List.mem_map.2 ⟨y, by simp, rfl⟩)))
  | some p =>
    have h1 := List.find?_some e
    obtain ⟨z, hz, rfl⟩ := List.mem_map.1 (h.map.mem_iff.1 (List.mem_of_find?_eq_some e))
    simp only [List.mem_append, List.mem_cons] at hz
    rcases hz with hz | rfl | hz
    · have := ho z (by simp [hz]); simp [this] at h1
    · rfl
    · have := ho z (by simp [hz]); simp [this] at h1

theorem moved {ys1 ys2 : List (Item F V)} : (y :: (ys1 ++ ys2)).Perm (ys1 ++ y :: ys2) := List.perm_middle.symm

theorem split_a {ys1 ys2 : List (Item F V)} (h : ((ys1 ++ y :: ys2).map Item.a).Nodup) : ∀ z ∈ ys1 ++ ys2, z.a ≠ y.a := by
  have := (List.nodup_cons.1 ((moved.map Item.a).nodup_iff.2 h)).1
  intro z hz he
  exact this (List.mem_map.2 ⟨z, hz, he⟩)

theorem keys_perm (hp : ys.Perm zs) (h : ys.Pairwise fun y z => Q.eq y.k z.k = false) : zs.Pairwise fun y z => Q.eq y.k z.k = false :=
  h.perm hp (fun {a b} h => by rw [GoSet.Float.eq_comm]; exact h)

theorem Inv.move {ys1 ys2 : List (Item F V)} (h : Inv Q s S (ys1 ++ y :: ys2)) :
    ∃ mem', Dllist.moveToFront s.mem s.l y.e = some mem' ∧ ∃ S', Inv Q { s with mem := mem' } S' (y :: (ys1 ++ ys2)) := by
  obtain ⟨m', h1, h2, h3⟩ := Dllist.moveToFront_rep h.rep (l := s.l) (n := y.e)
    (xs := ys1.map Item.e) (ys := ys2.map Item.e) (by rw [h.seq]; simp)
  have hm : ∀ z, z ∈ y :: (ys1 ++ ys2) ↔ z ∈ ys1 ++ y :: ys2 := fun z => (moved (y := y)).mem_iff
  refine ⟨m', h1, _, ⟨h2, by simp [upd], h3.inited _ h.inited, ?_, ?_, ?_, ?_, ?_, ?_⟩⟩
  · intro z hz; show m'.val z.e = _; rw [h3.val]; exact h.val z ((hm z).1 hz)
  · intro z hz; exact h.ent z ((hm z).1 hz)
  · exact h.map.trans ((moved (y := y)).map _).symm
  · exact ((moved (y := y)).map _).nodup_iff.2 h.addr
  · exact keys_perm (moved (y := y)).symm h.keys
  · intro z hz; exact h.lt z ((hm z).1 hz)

/-- Change the value in an entry. -/
theorem Inv.assign {ys1 ys2 : List (Item F V)} (h : Inv Q s S (ys1 ++ y :: ys2)) (v : V) :
    Inv Q { s with ents := fun x => if x = y.a then some (y.k, v) else s.ents x } S (ys1 ++ { y with v := v } :: ys2) := by
  have ho := split_a h.addr
  have hmm : ∀ z ∈ ys1 ++ { y with v := v } :: ys2, z = { y with v := v } ∨ z ∈ ys1 ++ ys2 := by
    intro z hz; simp only [List.mem_append, List.mem_cons] at hz ⊢; tauto
  have hin : ∀ z ∈ ys1 ++ ys2, z ∈ ys1 ++ y :: ys2 := by
    intro z hz; simp only [List.mem_append, List.mem_cons] at hz ⊢; tauto
  have hy : y ∈ ys1 ++ y :: ys2 := by simp
  refine ⟨h.rep, by rw [h.seq]; simp, h.inited, ?_, ?_, ?_, ?_, ?_, ?_⟩
  · intro z hz
    rcases hmm z hz with rfl | hz
    · exact h.val y hy
    · exact h.val z (hin z hz)
  · intro z hz
    rcases hmm z hz with rfl | hz
    · simp
    · simp only [if_neg (ho z hz)]; exact h.ent z (hin z hz)
  · have := h.map; simpa using this
  · have := h.addr; simpa using this
  · have := h.keys
    simp only [List.pairwise_append, List.pairwise_cons, List.mem_cons, forall_eq_or_imp] at this ⊢
    exact this
  · intro z hz
    rcases hmm z hz with rfl | hz
    · exact h.lt y hy
    · exact h.lt z (hin z hz)

/-- A new item at the front. -/
theorem Inv.push (h : Inv Q s S ys) {k : F} (hk : ∀ y ∈ ys, Q.eq y.k k = false) (v : V) :
    ∃ mem', Dllist.pushFront s.mem s.l s.fresh = some (mem', s.mem.fresh) ∧
      ∃ S', Inv Q { s with mem := mem', m := put Q s.m k s.mem.fresh, fresh := s.fresh + 1,
                           ents := fun x => if x = s.fresh then some (k, v) else s.ents x } S'
        (⟨s.mem.fresh, s.fresh, k, v⟩ :: ys) := by
  obtain ⟨m', h1, h2, h3, h4, h5⟩ := Dllist.pushFront_rep h.rep h.lt_freshL s.fresh
  have hfr : ∀ z ∈ ys, z.e ≠ s.mem.fresh := by
    intro z hz he
    have := h.rep.alloc s.l z.e (by rw [h.seq]; exact List.mem_map.2 ⟨z, hz, rfl⟩)
    omega
  have hfa : ∀ z ∈ ys, z.a ≠ s.fresh := fun z hz => Nat.ne_of_lt (h.lt z hz)
  refine ⟨m', h1, _, ⟨h2, by simp [upd, h.seq], ?_, ?_, ?_, ?_, ?_, ?_, ?_⟩⟩
  · exact h2.init_of_mem (n := s.mem.fresh) (by simp [upd])
  · intro z hz
    simp only [h3]
    rcases List.mem_cons.1 hz with rfl | hz
    · simp [upd]
    · simp only [upd, if_neg (hfr z hz)]; exact h.val z hz
  · intro z hz
    rcases List.mem_cons.1 hz with rfl | hz
    · simp
    · simp only [if_neg (hfa z hz)]; exact h.ent z hz
  · have hn : s.m.any (fun p => Q.eq p.1 k) = false := by
      rw [List.any_eq_false]
      intro p hp
      obtain ⟨y, hy, rfl⟩ := List.mem_map.1 (h.map.mem_iff.1 hp)
      simp [hk y hy]
    show (put Q s.m k s.mem.fresh).Perm _
    rw [put, hn]
    simp only [Bool.false_eq_true, if_false, List.map_cons]
    exact (List.perm_append_comm).trans (h.map.cons _)
  · simp only [List.map_cons, List.nodup_cons, List.mem_map, not_exists, not_and]
    exact ⟨fun z hz => hfa z hz, h.addr⟩
  · exact List.pairwise_cons.2 ⟨fun z hz => by rw [GoSet.Float.eq_comm]; exact hk z hz, h.keys⟩
  · intro z hz
    rcases List.mem_cons.1 hz with rfl | hz
    · exact Nat.lt_succ_self _
    · exact Nat.lt_succ_of_lt (h.lt z hz)

theorem Inv.del {ys1 ys2 : List (Item F V)} (h : Inv Q s S (ys1 ++ y :: ys2)) {k : F} (hk : Q.eq y.k k = true)
    (ho : ∀ z ∈ ys1 ++ ys2, Q.eq z.k k = false) :
    ∃ mem' v, Dllist.lRemove s.mem s.l y.e = some (mem', v) ∧ ∃ S', Inv Q { s with mem := mem', m := del Q s.m k } S' (ys1 ++ ys2) := by
  obtain ⟨m', v, h1, h2, h3⟩ := Dllist.lRemove_rep h.rep (l := s.l) (n := y.e)
    (xs := ys1.map Item.e) (ys := ys2.map Item.e) (by rw [h.seq]; simp)
  have hin : ∀ z ∈ ys1 ++ ys2, z ∈ ys1 ++ y :: ys2 := by
    intro z hz; simp only [List.mem_append, List.mem_cons] at hz ⊢; tauto
  have hsub : (ys1 ++ ys2).Sublist (ys1 ++ y :: ys2) :=
    List.Sublist.append_left (List.sublist_cons_self _ _) _
  refine ⟨m', v, h1, _, ⟨h2, by simp [upd], h3.inited _ h.inited, ?_, ?_, ?_, ?_, ?_, ?_⟩⟩
  · intro z hz; show m'.val z.e = _; rw [h3.val]; exact h.val z (hin z hz)
  · intro z hz; exact h.ent z (hin z hz)
  · refine (h.map.filter _).trans ?_
    rw [List.filter_map, List.filter_append, List.filter_cons]
    have hy : ((fun p : F × Nat => !Q.eq p.1 k) ∘ fun y : Item F V => (y.k, y.e)) y = false := by simp [hk]
    rw [hy]
    simp only [Bool.false_eq_true, if_false]
    rw [← List.filter_append, List.filter_eq_self.2]
    intro z hz
    simp [ho z hz]
  · exact h.addr.sublist (hsub.map _)
  · exact h.keys.sublist hsub
  · intro z hz; exact h.lt z (hin z hz)

theorem Inv.clear (h : Inv Q s S ys) : ∃ S', Inv Q (clear s) S' [] := by
  have := Dllist.clear_rep h.rep s.l h.lt_freshL
  refine ⟨_, ⟨this, by simp [upd, Lhashmap.clear], ?_, by simp, by simp, .refl _, by simp, .nil, by simp⟩⟩
  simp [Lhashmap.clear, Dllist.clear, Dllist.Mem.setInited, upd]

theorem Inv.length (h : Inv Q s S ys) : s.m.length = ys.length := by
  rw [h.map.length_eq, List.length_map]

/-- The loop of `Range`. -/
theorem Inv.rangeLoop (h : Inv Q s S ys) (f : A → F → V → A × Bool) : ∀ (ys2 ys1 : List (Item F V)),
    ys = ys1 ++ ys2 → ∀ (a : A) (fuel : Nat), ys2.length < fuel →
      rangeLoop (plain f) fuel s a ((ys2.map Item.e).head?.map .node) = some (s, visit f a (ys2.map Item.kv)) := by
  intro ys2
  induction ys2 with
  | nil =>
    intro ys1 _ a fuel hf
    cases fuel with
    | zero => simp at hf
    | succ n => rfl
  | cons y ys2 ih =>
    intro ys1 hys a fuel hf
    cases fuel with
    | zero => simp at hf
    | succ n =>
      have hn := Dllist.elNext_rep h.rep (l := s.l) (n := y.e) (xs := ys1.map Item.e)
        (ys := ys2.map Item.e) (by rw [h.seq, hys]; simp)
      have he := h.entry (y := y) (by rw [hys]; simp)
      simp only [List.map_cons, List.head?_cons, Option.map_some, Lhashmap.rangeLoop, he, plain,
        Option.bind_eq_bind, Option.bind_some, Item.kv, visit]
      rcases hfa : f a y.k y.v with ⟨a', c⟩
      cases c with
      | true =>
        simp only [if_true]
        rw [hn]
        exact ih (ys1 ++ [y]) (by rw [hys]; simp) a' n (by simp at hf; omega)
      | false => simp

/-! ### The recency list -/

/-- Entries with the number of the call that used them last, most recently used first, after call number `n`. -/
def recent (Q : EqOp F) (n : Nat) (zs : List ((F × V) × Nat)) : Op A F V → List ((F × V) × Nat)
  | .load k => match zs.find? fun z => Q.eq z.1.1 k with
    | some z => (z.1, n) :: zs.filter fun z => !Q.eq z.1.1 k
    | none => zs
  | .store k v => match zs.find? fun z => Q.eq z.1.1 k with
    | some z => ((z.1.1, v), n) :: zs.filter fun z => !Q.eq z.1.1 k
    | none => ((k, v), n) :: zs
  | .remove k => zs.filter fun z => !Q.eq z.1.1 k
  | .len | .range _ _ => zs
  | .clear => []

def result (Q : EqOp F) (zs : List ((F × V) × Nat)) : Op A F V → Res A V
  | .load k => .val ((zs.find? fun z => Q.eq z.1.1 k).map (·.1.2))
  | .len => .int zs.length
  | .range f a => .vars (visit f a (zs.map (·.1)))
  | _ => .unit

/-- The items are those of the recency list. -/
def Match (ys : List (Item F V)) (zs : List ((F × V) × Nat)) : Prop := ys.map Item.kv = zs.map (·.1)

theorem Match.split {zs : List ((F × V) × Nat)} (hm : Match ys zs) (hk : ys.Pairwise fun y z => Q.eq y.k z.k = false) (k : F) :
    ((∀ y ∈ ys, Q.eq y.k k = false) ∧ (zs.find? fun z => Q.eq z.1.1 k) = none ∧ (zs.filter fun z => !Q.eq z.1.1 k) = zs) ∨
    ∃ ys1 y ys2 z, ys = ys1 ++ y :: ys2 ∧ Q.eq y.k k = true ∧ (∀ z ∈ ys1 ++ ys2, Q.eq z.k k = false) ∧
      (zs.find? fun z => Q.eq z.1.1 k) = some z ∧ z.1 = y.kv ∧ Match (ys1 ++ ys2) (zs.filter fun z => !Q.eq z.1.1 k) := by
  have e1 : (ys.find? fun y => Q.eq y.k k).map Item.kv = (zs.find? fun z => Q.eq z.1.1 k).map (·.1) := by
    have h1 := List.find?_map (f := Item.kv) (p := fun p : F × V => Q.eq p.1 k) (l := ys)
    have h2 := List.find?_map (f := (·.1)) (p := fun p : F × V => Q.eq p.1 k) (l := zs)
    rw [hm] at h1
    exact (h1.symm.trans h2)
  have e2 : (ys.filter fun y => !Q.eq y.k k).map Item.kv = (zs.filter fun z => !Q.eq z.1.1 k).map (·.1) := by
    have h1 := List.filter_map (f := Item.kv) (p := fun p : F × V => !Q.eq p.1 k) (l := ys)
    have h2 := List.filter_map (f := (·.1)) (p := fun p : F × V => !Q.eq p.1 k) (l := zs)
    rw [hm] at h1
    exact (h1.symm.trans h2)
  rcases Float.split Item.k hk k with ⟨h1, h2, h3⟩ | ⟨ys1, y, ys2, rfl, h2, h3, h4, h5⟩
  · refine Or.inl ⟨h2, ?_, ?_⟩
    · rw [h1] at e1; simpa using e1.symm
    · rw [h1] at e1
      have : (zs.find? fun z => Q.eq z.1.1 k) = none := by simpa using e1.symm
      rw [List.find?_eq_none] at this
      exact List.filter_eq_self.2 fun z hz => by simpa using this z hz
  · rw [h3] at e1
    cases e : zs.find? fun z => Q.eq z.1.1 k with
    | none => rw [e] at e1; cases e1
    | some z =>
      rw [e] at e1
      rw [h5] at e2
      exact Or.inr ⟨ys1, y, ys2, z, rfl, h2, h4, rfl, (Option.some.inj e1).symm, e2⟩

/-- Every call terminates without panic, and does on the recency list what `recent` says. -/
theorem sim_step {zs : List ((F × V) × Nat)} (h : Inv Q s S ys) (hm : Match ys zs) (n : Nat) (op : Op A F V) :
    ∃ s' S' ys', MStep Q s op (result Q zs op) s' ∧ Inv Q s' S' ys' ∧ Match ys' (recent Q n zs op) := by
  cases op with
  | load k =>
    rcases hm.split h.keys k with ⟨h1, h2, h3⟩ | ⟨ys1, y, ys2, z, rfl, h2, h3, h4, h5, h6⟩
    · exact ⟨s, S, ys, ⟨0, fun _ _ => by simp [exec, load, h.get_none h1, result, h2]⟩, h, by simpa [recent, h2] using hm⟩
    · obtain ⟨mem', m1, S', m2⟩ := h.move
      refine ⟨_, S', _, ⟨0, fun _ _ => ?_⟩, m2, ?_⟩
      · have hz : z.1.2 = y.v := by rw [h5]; rfl
        simp only [exec, load, h.get_some h2 h3, m1, m2.entry (y := y) (by simp), result, h4,
          Option.bind_eq_bind, Option.bind_some, Option.map_some, hz]
      · simp only [recent, h4, Match, List.map_cons]
        rw [h5, ← h6]
  | store k v =>
    rcases hm.split h.keys k with ⟨h1, h2, h3⟩ | ⟨ys1, y, ys2, z, rfl, h2, h3, h4, h5, h6⟩
    · obtain ⟨mem', m1, S', m2⟩ := h.push h1 v
      refine ⟨_, S', _, ⟨0, fun _ _ => ?_⟩, m2, ?_⟩
      · simp [exec, store, h.get_none h1, m1, result]
      · simp only [recent, h2, Match, List.map_cons]
        rw [← hm]; rfl
    · obtain ⟨mem', m1, S', m2⟩ := (h.assign v).move
      refine ⟨_, S', _, ⟨0, fun _ _ => ?_⟩, m2, ?_⟩
      · simp only [exec, store, h.get_some h2 h3, h.entry (y := y) (by simp), m1, result,
          Option.bind_eq_bind, Option.bind_some]
      · simp only [recent, h4, Match, List.map_cons]
        rw [← h6, h5]; rfl
  | remove k =>
    rcases hm.split h.keys k with ⟨h1, h2, h3⟩ | ⟨ys1, y, ys2, z, rfl, h2, h3, h4, h5, h6⟩
    · exact ⟨s, S, ys, ⟨0, fun _ _ => by simp [exec, remove, h.get_none h1, result]⟩, h, by simpa [recent, h3] using hm⟩
    · obtain ⟨mem', v, m1, S', m2⟩ := h.del h2 h3
      refine ⟨_, S', _, ⟨0, fun _ _ => ?_⟩, m2, h6⟩
      simp [exec, remove, h.get_some h2 h3, m1, result]
  | len =>
    refine ⟨s, S, ys, ⟨0, fun _ _ => ?_⟩, h, hm⟩
    have := congrArg List.length hm
    simp only [List.length_map] at this
    simp [exec, len, result, h.length, this]
  | range f a =>
    refine ⟨s, S, ys, ⟨ys.length + 1, fun fuel hf => ?_⟩, h, hm⟩
    have hfr := Dllist.front_rep h.rep h.inited
    have hr := h.rangeLoop f ys [] rfl a fuel (by omega)
    rw [← h.seq, hm] at hr
    simp only [exec, range, hfr, hr, result, Option.bind_eq_bind, Option.bind_some]
  | clear =>
    obtain ⟨S', h'⟩ := h.clear
    exact ⟨_, S', [], ⟨0, fun _ _ => rfl⟩, h', rfl⟩

theorem MStep.det {s s1 s2 : LH F V} {op : Op A F V} {r1 r2 : Res A V} (h1 : MStep Q s op r1 s1)
    (h2 : MStep Q s op r2 s2) : r1 = r2 ∧ s1 = s2 := by
  obtain ⟨F1, h1⟩ := h1
  obtain ⟨F2, h2⟩ := h2
  have e1 := h1 (max F1 F2) (by omega)
  rw [h2 (max F1 F2) (by omega)] at e1
  injection e1 with e1
  injection e1 with e1 e2
  exact ⟨e2.symm, e1.symm⟩

/-! ### The recency list against the calls -/

theorem current_snoc (k : F) (h : List (Op A F V)) (op : Op A F V) :
    current Q k (h ++ [op]) = match op with
      | .store k' v => if Q.eq k' k then some v else current Q k h
      | .remove k' => if Q.eq k' k then none else current Q k h
      | .clear => none
      | _ => current Q k h := by
  unfold current
  rw [List.reverse_append]
  cases op <;> rfl

theorem keyOf_snoc (k : F) (h : List (Op A F V)) (op : Op A F V) :
    keyOf Q k (h ++ [op]) = match op with
      | .store k' _ => if Q.eq k' k then some ((keyOf Q k h).getD k') else keyOf Q k h
      | .remove k' => if Q.eq k' k then none else keyOf Q k h
      | .clear => none
      | _ => keyOf Q k h := by
  unfold keyOf
  rw [List.reverse_append]
  cases op <;> rfl

theorem nanStores_snoc (h : List (Op A F V)) (op : Op A F V) :
    nanStores Q (h ++ [op]) = match op with
      | .store k v => if Q.eq k k then nanStores Q h else (k, v) :: nanStores Q h
      | .clear => []
      | _ => nanStores Q h := by
  unfold nanStores
  rw [List.reverse_append]
  cases op <;> rfl

theorem current_congr {k k' : F} (e : Q.eq k k' = true) (h : List (Op A F V)) : current Q k h = current Q k' h := by
  unfold current
  have key : ∀ x, Q.eq x k = Q.eq x k' := fun x => by
    rw [Bool.eq_iff_iff]; exact ⟨fun h => Q.trans h e, fun h => Q.trans h (Q.symm e)⟩
  induction h.reverse with
  | nil => rfl
  | cons op t ih => cases op <;> simp only [curGo, key, ih]

theorem keyOf_congr {k k' : F} (e : Q.eq k k' = true) (h : List (Op A F V)) : keyOf Q k h = keyOf Q k' h := by
  unfold keyOf
  have key : ∀ x, Q.eq x k = Q.eq x k' := fun x => by
    rw [Bool.eq_iff_iff]; exact ⟨fun h => Q.trans h e, fun h => Q.trans h (Q.symm e)⟩
  induction h.reverse with
  | nil => rfl
  | cons op t ih => cases op <;> simp only [keyGo, key, ih]

theorem Uses.snoc {h : List (Op A F V)} {op : Op A F V} {k : F} {n : Nat} :
    Uses Q (h ++ [op]) k n ↔ Uses Q h k n ∨ n = h.length ∧
      ((∃ k' v, op = .store k' v ∧ Q.eq k' k = true) ∨ ∃ k', op = .load k' ∧ Q.eq k' k = true ∧ current Q k' h ≠ none) := by
  unfold Uses
  rcases Nat.lt_trichotomy n h.length with hn | rfl | hn
  · rw [List.getElem?_append_left hn, List.take_append_of_le_length (Nat.le_of_lt hn)]
    constructor
    · exact Or.inl
    · rintro (h | ⟨h, _⟩)
      · exact h
      · omega
  · rw [List.getElem?_eq_none (Nat.le_refl _), List.take_left']
    · simp
    · rfl
  · rw [List.getElem?_eq_none (by simp; omega), List.getElem?_eq_none (by omega)]
    simp; omega

theorem Uses.lt {h : List (Op A F V)} {k : F} {n : Nat} (hu : Uses Q h k n) : n < h.length := by
  by_contra hn
  have := List.getElem?_eq_none (l := h) (i := n) (by omega)
  rcases hu with ⟨_, _, e, _⟩ | ⟨_, e, _⟩ <;> rw [this] at e <;> cases e

/-- The recency list of the calls. -/
structure Told (Q : EqOp F) (h : List (Op A F V)) (zs : List ((F × V) × Nat)) : Prop where
  vals : ∀ k, (zs.find? fun z => Q.eq z.1.1 k).map (·.1.2) = current Q k h
  keys : ∀ k, (zs.find? fun z => Q.eq z.1.1 k).map (·.1.1) = keyOf Q k h
  once : zs.Pairwise fun y z => Q.eq y.1.1 z.1.1 = false
  nans : (zs.filter fun z => !Q.eq z.1.1 z.1.1).map (·.1) = nanStores Q h
  lt : ∀ z ∈ zs, z.2 < h.length
  desc : (zs.map (·.2)).Pairwise (· > ·)
  last : ∀ z ∈ zs, Last Q h z.1 z.2

/-- A call that does not use the entry. -/
theorem Last.snoc {h : List (Op A F V)} {p : F × V} {n : Nat} (hl : Last Q h p n) (hn : n < h.length) {op : Op A F V} (hc : op ≠ .clear)
    (ho : Q.eq p.1 p.1 = true → (∀ k v, op = .store k v → Q.eq k p.1 = false) ∧ ∀ k, op = .load k → current Q k h ≠ none → Q.eq k p.1 = false) :
    Last Q (h ++ [op]) p n := by
  obtain ⟨h1, h2⟩ := hl
  refine ⟨?_, ?_⟩
  · intro n' hn'
    rcases Nat.lt_trichotomy n' h.length with e | rfl | e
    · rw [List.getElem?_append_left e]; exact h1 n' hn'
    · simpa using hc
    · rw [List.getElem?_eq_none (by simp; omega)]; simp
  · split at h2
    · next hs =>
      rw [if_pos hs]
      refine ⟨Uses.snoc.2 (Or.inl h2.1), fun n' hu => ?_⟩
      rcases Uses.snoc.1 hu with hu | ⟨rfl, ⟨k, v, e1, e2⟩ | ⟨k, e1, e2, e3⟩⟩
      · exact h2.2 n' hu
      · rw [(ho hs).1 k v e1] at e2; cases e2
      · rw [(ho hs).2 k e1 e3] at e2; cases e2
    · next hs => rw [if_neg hs, List.getElem?_append_left hn]; exact h2

theorem find_filter {k k' : F} (zs : List ((F × V) × Nat)) (h : Q.eq k' k = false) :
    (zs.filter fun z => !Q.eq z.1.1 k').find? (fun z => Q.eq z.1.1 k) = zs.find? fun z => Q.eq z.1.1 k := by
  rw [List.find?_filter]
  congr 1
  funext z
  by_cases e : Q.eq z.1.1 k = true
  · have : Q.eq z.1.1 k' = false := by
      rw [Bool.eq_false_iff]; intro e'
      rw [Q.trans (Q.symm e') e] at h; cases h
    simp [e, this]
  · simp [e]

theorem find_filter_same {k k' : F} (zs : List ((F × V) × Nat)) (h : Q.eq k' k = true) :
    (zs.filter fun z => !Q.eq z.1.1 k').find? (fun z => Q.eq z.1.1 k) = none := by
  rw [List.find?_filter, List.find?_eq_none]
  intro z _
  by_cases e : Q.eq z.1.1 k = true
  · simp [Q.trans e (Q.symm h)]
  · simp [e]

theorem nans_filter {k : F} (zs : List ((F × V) × Nat)) :
    ((zs.filter fun z => !Q.eq z.1.1 k).filter fun z => !Q.eq z.1.1 z.1.1) = zs.filter fun z => !Q.eq z.1.1 z.1.1 := by
  rw [List.filter_filter]
  congr 1
  funext z
  by_cases e : Q.eq z.1.1 z.1.1 = true
  · simp [e]
  · simp [e, nan_left (Bool.eq_false_iff.2 e)]

theorem Told.nil : Told (A := A) (V := V) Q [] [] :=
  ⟨fun _ => rfl, fun _ => rfl, .nil, rfl, by simp, .nil, by simp⟩

/-- The front is a used entry, the rest is without its key. -/
theorem Told.front {h : List (Op A F V)} {zs : List ((F × V) × Nat)} (t : Told Q h zs) {k : F} {k' : F} {v : V} (e : Q.eq k' k = true)
    {op : Op A F V} (hop : (op = .load k ∧ current Q k h ≠ none) ∨ ∃ v, op = .store k v)
    (hv : ∀ x, Q.eq k' x = true → current Q x (h ++ [op]) = some v ∧ keyOf Q x (h ++ [op]) = some k')
    (hv' : ∀ x, Q.eq k' x = false → current Q x (h ++ [op]) = current Q x h ∧ keyOf Q x (h ++ [op]) = keyOf Q x h) :
    Told Q (h ++ [op]) (((k', v), h.length) :: zs.filter fun z => !Q.eq z.1.1 k) := by
  have hs : Q.eq k' k' = true := Q.trans e (Q.symm e)
  have hkk : Q.eq k k = true := Q.trans (Q.symm e) e
  have hsub : (zs.filter fun z => !Q.eq z.1.1 k).Sublist zs := List.filter_sublist
  have hne : ∀ z ∈ zs.filter (fun z => !Q.eq z.1.1 k), Q.eq z.1.1 k = false := by
    intro z hz; have := (List.mem_filter.1 hz).2; simpa using this
  have hkx : ∀ x, Q.eq k x = Q.eq k' x := fun x => by
    rw [Bool.eq_iff_iff]; exact ⟨fun h => Q.trans e h, fun h => Q.trans (Q.symm e) h⟩
  refine ⟨?_, ?_, ?_, ?_, ?_, ?_, ?_⟩
  · intro x
    rw [List.find?_cons]
    cases ex : Q.eq k' x with
    | true => rw [(hv x ex).1]; rfl
    | false => rw [(hv' x ex).1]; simp only [find_filter zs ((hkx x).trans ex)]; exact t.vals x
  · intro x
    rw [List.find?_cons]
    cases ex : Q.eq k' x with
    | true => rw [(hv x ex).2]; rfl
    | false => rw [(hv' x ex).2]; simp only [find_filter zs ((hkx x).trans ex)]; exact t.keys x
  · refine List.pairwise_cons.2 ⟨fun z hz => ?_, t.once.sublist hsub⟩
    rw [← hkx, GoSet.Float.eq_comm]; exact hne z hz
  · have : nanStores Q (h ++ [op]) = nanStores Q h := by
      rw [nanStores_snoc]
      rcases hop with ⟨rfl, _⟩ | ⟨v, rfl⟩
      · rfl
      · simp [hkk]
    rw [this, ← t.nans, List.filter_cons]
    simp only [hs, Bool.not_true, Bool.false_eq_true, if_false]
    rw [nans_filter]
  · intro z hz
    rcases List.mem_cons.1 hz with rfl | hz
    · simp
    · have := t.lt z (hsub.mem hz)
      simp; omega
  · rw [List.map_cons]
    refine List.pairwise_cons.2 ⟨fun n hn => ?_, t.desc.sublist (hsub.map _)⟩
    obtain ⟨z, hz, rfl⟩ := List.mem_map.1 hn
    exact t.lt z (hsub.mem hz)
  · intro z hz
    rcases List.mem_cons.1 hz with rfl | hz
    · refine ⟨fun n' hn' => by rw [List.getElem?_eq_none (by simp at hn' ⊢; omega)]; simp, ?_⟩
      rw [if_pos hs]
      refine ⟨Uses.snoc.2 (Or.inr ⟨rfl, ?_⟩), fun n' hu => ?_⟩
      · rcases hop with ⟨rfl, hc⟩ | ⟨v, rfl⟩
        · exact Or.inr ⟨k, rfl, Q.symm e, hc⟩
        · exact Or.inl ⟨k, v, rfl, Q.symm e⟩
      · have := hu.lt
        simp at this ⊢; omega
    · refine (t.last z (hsub.mem hz)).snoc (t.lt z (hsub.mem hz)) ?_ ?_
      · rcases hop with ⟨rfl, _⟩ | ⟨v, rfl⟩ <;> simp
      · intro _
        have := hne z hz
        rw [GoSet.Float.eq_comm] at this
        rcases hop with ⟨rfl, _⟩ | ⟨v, rfl⟩
        · exact ⟨fun _ _ h => (by cases h), fun _ h _ => (by cases h; exact this)⟩
        · exact ⟨fun _ _ h => (by cases h; exact this), fun _ h _ => (by cases h)⟩

theorem Told.same {h : List (Op A F V)} {zs : List ((F × V) × Nat)} (t : Told Q h zs) {op : Op A F V} (hc : op ≠ .clear)
    (h1 : ∀ k, current Q k (h ++ [op]) = current Q k h) (h2 : ∀ k, keyOf Q k (h ++ [op]) = keyOf Q k h)
    (h3 : nanStores Q (h ++ [op]) = nanStores Q h) (h4 : ∀ k v, op ≠ .store k v) (h5 : ∀ k, op = .load k → current Q k h = none) :
    Told Q (h ++ [op]) zs := by
  refine ⟨fun k => by rw [h1]; exact t.vals k, fun k => by rw [h2]; exact t.keys k, t.once, by rw [h3]; exact t.nans, ?_, t.desc, ?_⟩
  · intro z hz; have := t.lt z hz; simp; omega
  · intro z hz
    exact (t.last z hz).snoc (t.lt z hz) hc fun _ => ⟨fun k v e => absurd e (h4 k v), fun k e hn => absurd (h5 k e) hn⟩

theorem Told.step {h : List (Op A F V)} {zs : List ((F × V) × Nat)} (t : Told Q h zs) (op : Op A F V) :
    Told Q (h ++ [op]) (recent Q h.length zs op) := by
  cases op with
  | load k =>
    simp only [recent]
    cases e : zs.find? fun z => Q.eq z.1.1 k with
    | none =>
      refine t.same (by simp) (fun _ => current_snoc _ _ _) (fun _ => keyOf_snoc _ _ _) (nanStores_snoc _ _) (by simp) ?_
      intro k' he
      cases he
      rw [← t.vals k, e]; rfl
    | some z =>
      have hz : Q.eq z.1.1 k = true := List.find?_some (p := fun z : (F × V) × Nat => Q.eq z.1.1 k) e
      have hv := t.vals k
      have hk := t.keys k
      rw [e] at hv hk
      refine t.front hz (Or.inl ⟨rfl, by rw [← hv]; simp⟩) ?_ ?_
      · intro x hx
        rw [current_snoc, keyOf_snoc]
        have hkx : Q.eq k x = true := Q.trans (Q.symm hz) hx
        simp only [← current_congr hkx, ← keyOf_congr hkx, ← hv, ← hk]
        exact ⟨rfl, rfl⟩
      · intro x _
        rw [current_snoc, keyOf_snoc]
        exact ⟨rfl, rfl⟩
  | store k v =>
    simp only [recent]
    cases e : zs.find? fun z => Q.eq z.1.1 k with
    | none =>
      cases hkk : Q.eq k k with
      | true =>
        have := t.front (k := k) (k' := k) (v := v) hkk (op := .store k v) (Or.inr ⟨v, rfl⟩) ?_ ?_
        · have hf : (zs.filter fun z => !Q.eq z.1.1 k) = zs := by
            rw [List.find?_eq_none] at e
            exact List.filter_eq_self.2 fun z hz => by simpa using e z hz
          rw [hf] at this
          exact this
        · intro x hx
          rw [current_snoc, keyOf_snoc]
          have hk := t.keys x
          have : (zs.find? fun z => Q.eq z.1.1 x) = none := by
            rw [List.find?_eq_none] at e ⊢
            intro z hz hzx
            exact e z hz (Q.trans hzx (Q.symm hx))
          rw [this] at hk
          simp [hx, ← hk]
        · intro x hx
          rw [current_snoc, keyOf_snoc]
          simp [hx]
      | false =>
        refine ⟨?_, ?_, ?_, ?_, ?_, ?_, ?_⟩
        · intro x
          rw [List.find?_cons, current_snoc]
          simp only [nan_left hkk, Bool.false_eq_true, if_false]
          exact t.vals x
        · intro x
          rw [List.find?_cons, keyOf_snoc]
          simp only [nan_left hkk, Bool.false_eq_true, if_false]
          exact t.keys x
        · exact List.pairwise_cons.2 ⟨fun z _ => nan_left hkk, t.once⟩
        · rw [List.filter_cons, nanStores_snoc]
          simp only [hkk, Bool.not_false, if_true, Bool.false_eq_true, if_false, List.map_cons, t.nans]
        · intro z hz
          rcases List.mem_cons.1 hz with rfl | hz
          · simp
          · have := t.lt z hz; simp; omega
        · rw [List.map_cons]
          refine List.pairwise_cons.2 ⟨fun n hn => ?_, t.desc⟩
          obtain ⟨z, hz, rfl⟩ := List.mem_map.1 hn
          exact t.lt z hz
        · intro z hz
          rcases List.mem_cons.1 hz with rfl | hz
          · refine ⟨fun n' hn' => by rw [List.getElem?_eq_none (by simp at hn' ⊢; omega)]; simp, ?_⟩
            simp [hkk]
          · exact (t.last z hz).snoc (t.lt z hz) (by simp) fun _ => ⟨fun _ _ h => (by cases h; exact nan_left hkk), fun _ h => (by cases h)⟩
    | some z =>
      have hz : Q.eq z.1.1 k = true := List.find?_some (p := fun z : (F × V) × Nat => Q.eq z.1.1 k) e
      have hk := t.keys k
      rw [e] at hk
      refine t.front hz (Or.inr ⟨v, rfl⟩) ?_ ?_
      · intro x hx
        have hkx : Q.eq k x = true := Q.trans (Q.symm hz) hx
        rw [current_snoc, keyOf_snoc]
        simp only [hkx, if_true, ← keyOf_congr hkx, ← hk]
        exact ⟨trivial, rfl⟩
      · intro x hx
        have hkx : Q.eq k x = false := by
          rw [Bool.eq_false_iff]; intro e'
          rw [Q.trans hz e'] at hx; cases hx
        rw [current_snoc, keyOf_snoc]
        simp [hkx]
  | remove k =>
    have hsub : (zs.filter fun z => !Q.eq z.1.1 k).Sublist zs := List.filter_sublist
    refine ⟨?_, ?_, t.once.sublist hsub, ?_, ?_, t.desc.sublist (hsub.map _), ?_⟩
    · intro x
      rw [current_snoc]
      cases ex : Q.eq k x with
      | true => simp only [recent, find_filter_same zs ex]; simp [ex]
      | false => simp only [recent, find_filter zs ex]; simpa [ex] using t.vals x
    · intro x
      rw [keyOf_snoc]
      cases ex : Q.eq k x with
      | true => simp only [recent, find_filter_same zs ex]; simp [ex]
      | false => simp only [recent, find_filter zs ex]; simpa [ex] using t.keys x
    · rw [nanStores_snoc]; simp only [recent, nans_filter]; exact t.nans
    · intro z hz; have := t.lt z (hsub.mem hz); simp; omega
    · intro z hz
      exact (t.last z (hsub.mem hz)).snoc (t.lt z (hsub.mem hz)) (by simp) fun _ => ⟨fun _ _ h => (by cases h), fun _ h => (by cases h)⟩
  | len => exact t.same (by simp) (fun _ => current_snoc _ _ _) (fun _ => keyOf_snoc _ _ _) (nanStores_snoc _ _) (by simp) (by simp)
  | range f a => exact t.same (by simp) (fun _ => current_snoc _ _ _) (fun _ => keyOf_snoc _ _ _) (nanStores_snoc _ _) (by simp) (by simp)
  | clear =>
    exact ⟨fun _ => by rw [current_snoc]; rfl, fun _ => by rw [keyOf_snoc]; rfl, .nil, by rw [nanStores_snoc]; rfl, by simp [recent], .nil, by simp [recent]⟩

theorem run_inv {h : List (Op A F V)} {s : LH F V} (hr : MRun Q h s) : ∃ S ys zs, Inv Q s S ys ∧ Match ys zs ∧ Told Q h zs := by
  induction hr with
  | nil => exact ⟨_, [], [], Inv.init, rfl, Told.nil⟩
  | snoc _ hs ih =>
    obtain ⟨S, ys, zs, hI, hm, ht⟩ := ih
    obtain ⟨s', S', ys', h1, h2, h3⟩ := sim_step hI hm _ _
    obtain ⟨rfl, rfl⟩ := hs.det h1
    exact ⟨S', ys', _, h2, h3, ht.step _⟩

theorem Told.visits {h : List (Op A F V)} {zs : List ((F × V) × Nat)} (t : Told Q h zs) : Visits Q h (zs.map (·.1)) := by
  have hfind : ∀ z ∈ zs, ∀ k, Q.eq z.1.1 k = true → (zs.find? fun z => Q.eq z.1.1 k) = some z := by
    intro z hz k hk
    rcases split (fun z : (F × V) × Nat => z.1.1) t.once k with ⟨_, h2, _⟩ | ⟨z1, y, z2, rfl, h2, h3, h4, _⟩
    · rw [h2 z hz] at hk; cases hk
    · rw [h3]
      simp only [List.mem_append, List.mem_cons] at hz
      rcases hz with hz | rfl | hz
      · rw [h4 z (by simp [hz])] at hk; cases hk
      · rfl
      · rw [h4 z (by simp [hz])] at hk; cases hk
  refine ⟨?_, ?_, ?_, ?_, zs.map (·.2), t.desc, ?_⟩
  · intro k v
    rw [← t.vals k]
    constructor
    · rintro ⟨k', hm, hk⟩
      obtain ⟨z, hz, hze⟩ := List.mem_map.1 hm
      have hk' : Q.eq z.1.1 k = true := by rw [hze]; exact hk
      rw [hfind z hz k hk']
      simp [hze]
    · intro e
      obtain ⟨z, hz, rfl⟩ := Option.map_eq_some_iff.1 e
      exact ⟨z.1.1, List.mem_map.2 ⟨z, List.mem_of_find?_eq_some hz, rfl⟩, List.find?_some (p := fun z : (F × V) × Nat => Q.eq z.1.1 k) hz⟩
  · intro p hp hs
    obtain ⟨z, hz, rfl⟩ := List.mem_map.1 hp
    rw [← t.keys, hfind z hz _ hs]; rfl
  · rw [List.pairwise_map]; exact t.once
  · rw [← t.nans, List.filter_map]; rfl
  · have hl := t.last
    clear hfind t
    induction zs with
    | nil => exact .nil
    | cons z zs ih => exact .cons (hl z (by simp)) (ih fun w hw => hl w (by simp [hw]))

/-- **C142**: every call on a map with float keys returns, and what it returns is determined by the calls before as `Ok` says. -/
theorem C142_float {h : List (Op A F V)} {s : LH F V} (hr : MRun Q h s) (op : Op A F V) :
    ∃ r s', MStep Q s op r s' ∧ Ok Q h op r ∧ ∀ r2 s2, MStep Q s op r2 s2 → r2 = r ∧ s2 = s' := by
  obtain ⟨S, ys, zs, hI, hm, ht⟩ := run_inv hr
  obtain ⟨s', S', ys', h1, h2, h3⟩ := sim_step hI hm 0 op
  refine ⟨_, s', h1, ?_, fun r2 s2 h => h.det h1⟩
  cases op with
  | load k => exact congrArg Res.val (ht.vals k)
  | len =>
    have hv := ht.visits
    refine ⟨(zs.filter fun z => Q.eq z.1.1 z.1.1).map (·.1.1), ?_, ?_, ?_, ?_⟩
    · rw [List.pairwise_map]; exact ht.once.sublist List.filter_sublist
    · intro k hk
      obtain ⟨z, hz, rfl⟩ := List.mem_map.1 hk
      exact (List.mem_filter.1 hz).2
    · intro k
      constructor
      · rintro ⟨k', hk', e⟩
        obtain ⟨z, hz, rfl⟩ := List.mem_map.1 hk'
        rw [(hv.vals k z.1.2).1 ⟨z.1.1, List.mem_map.2 ⟨z, (List.mem_filter.1 hz).1, rfl⟩, e⟩]
        simp
      · intro e
        obtain ⟨v, hc⟩ := Option.ne_none_iff_exists'.1 e
        obtain ⟨k', hm', hk'⟩ := (hv.vals k v).2 hc
        obtain ⟨z, hz, hze⟩ := List.mem_map.1 hm'
        have hz' : z.1.1 = k' := by rw [hze]
        refine ⟨k', List.mem_map.2 ⟨z, List.mem_filter.2 ⟨hz, ?_⟩, hz'⟩, hk'⟩
        rw [hz']; exact Q.trans hk' (Q.symm hk')
    · rw [← ht.nans]
      simp only [result, List.length_map]
      congr 1
      clear * -
      induction zs with
      | nil => rfl
      | cons z zs ih => by_cases e : Q.eq z.1.1 z.1.1 = true <;> simp [e, ih] <;> omega
  | range f a => exact ⟨_, ht.visits, rfl⟩
  | store k v => rfl
  | remove k => rfl
  | clear => rfl

/-- C142: the calls that follow a new map never stop short. -/
theorem C142_returns (h : List (Op A F V)) : ∃ s : LH F V, MRun Q h s := by
  induction h using List.reverseRecOn with
  | nil => exact ⟨_, .nil⟩
  | append_singleton h op ih =>
    obtain ⟨s, hs⟩ := ih
    obtain ⟨r, s', h1, _⟩ := C142_float hs op
    exact ⟨s', .snoc hs h1⟩

/-- C142: no key that is not equal to itself is ever found. -/
theorem C142_nan_miss {k : F} (hk : Q.eq k k = false) (h : List (Op A F V)) : current Q k h = none := by
  unfold current
  induction h.reverse with
  | nil => rfl
  | cons op t ih => cases op <;> simp [curGo, nan_right hk, ih]

/-- C142: `Remove` and `Load` take no NaN away: only `Clear` does; each `Store` of one adds one. -/
theorem C142_nan_stays (h : List (Op A F V)) (op : Op A F V) (hop : op ≠ .clear) :
    ∃ l, nanStores Q (h ++ [op]) = l ++ nanStores Q h ∧ ∀ k v, Q.eq k k = false → op = .store k v → l = [(k, v)] := by
  rw [nanStores_snoc]
  cases op with
  | store k v =>
    cases e : Q.eq k k with
    | true => exact ⟨[], by simp [e], fun _ _ h1 h2 => (by cases h2; rw [h1] at e; cases e)⟩
    | false => exact ⟨[(k, v)], by simp [e], fun _ _ h1 h2 => (by cases h2; rfl)⟩
  | clear => exact absurd rfl hop
  | _ => exact ⟨[], rfl, fun _ _ _ h => by cases h⟩

/-! ### Examples -/

section Examples
open Verif.GoSet.Float (Fl flEq)

/-- Two NaNs, 0 stored and then -0, used again. -/
def calls : List (Op Unit Fl Nat) := [.store .nan 1, .store (.num 0) 2, .store .nan 3, .store .negZero 4, .store (.num 7) 5, .load (.num 0), .remove .nan, .load .nan]

def after : Nat → LH Fl Nat → List (Op Unit Fl Nat) → Option (LH Fl Nat)
  | _, s, [] => some s
  | n, s, op :: ops => do let (s, _) ← exec flEq n s op; after n s ops

/-- What `Range` visits. -/
def listed (o : Option (LH Fl Nat)) : Option (List (Fl × Nat)) := do
  let s ← o
  let (_, l) ← range (plain fun (a : List (Fl × Nat)) k v => (a ++ [(k, v)], true)) 10 s []
  some l

example : listed (after 10 new calls) = some [(.num 0, 4), (.num 7, 5), (.nan, 3), (.nan, 1)] := by decide +kernel
example : ((after 10 new calls).map len) = some 4 := by decide +kernel
example : nanStores flEq calls = [(.nan, 3), (.nan, 1)] ∧ current flEq .negZero calls = some 4 ∧ keyOf flEq .negZero calls = some (.num 0) ∧
  current flEq .nan calls = none := by decide +kernel
example : ((after 10 new (calls ++ [.clear, .store .nan 8])).map len) = some 1 := by decide +kernel
end Examples

end Verif.Lhashmap.Float
