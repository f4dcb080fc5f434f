import Verif.Lhashmap.Range
/-!
# Where `Range` goes on, whatever its function does to the map (C137; lhashmap.go:68-74)

The function may call `Load`, `Store`, `Remove`, `Len` and `Clear`, for the key it is given too. `Range` goes on behind the key it has passed, as the
order is when the function returns; it ends if that key has been removed, even if it has been stored again; and after a `Clear` it goes on through
what was behind the key when the map was cleared.
-/
namespace Verif.Lhashmap
open Verif.Lhashmap.Spec
variable {A B K V R : Type}

/-! ## Specification -/

/-- The place of the loop, seen from outside: at the binding of `k`; the binding has been removed; the map has been cleared, with `r` behind. -/
inductive Pos (K V : Type) where
  | at (k : K)
  | gone
  | left (r : List (K × V))

section Spec
variable [DecidableEq K]

/-- The bindings behind that of `k` after the calls `h`. -/
def Behind (h : List (Op B K V)) (k : K) (r : List (K × V)) : Prop := ∃ xs v, Visits h (xs ++ (k, v) :: r)

/-- What a call does to the place. -/
inductive Shift (h : List (Op B K V)) : Op B K V → Pos K V → Pos K V → Prop
  | remove {k} : Shift h (.remove k) (.at k) .gone
  | clear {k r} : Behind h k r → Shift h .clear (.at k) (.left r)
  | other {k op} : op ≠ .remove k → op ≠ .clear → Shift h op (.at k) (.at k)
  | gone {op} : Shift h op .gone .gone
  | left {op r} : Shift h op (.left r) (.left r)

/-- What several calls do. -/
inductive Shifts : List (Op B K V) → List (Op B K V) → Pos K V → Pos K V → Prop
  | nil {h p} : Shifts h [] p p
  | cons {h op ops p q t} : Shift h op p q → Shifts (h ++ [op]) ops q t → Shifts h (op :: ops) p t

/-- What is passed next, from a place, after the calls `h`. -/
inductive Next (h : List (Op B K V)) : Pos K V → Option ((K × V) × Pos K V) → Prop
  | last {k} : Behind h k [] → Next h (.at k) none
  | next {k k' v' r} : Behind h k ((k', v') :: r) → Next h (.at k) (some ((k', v'), .at k'))
  | gone : Next h .gone none
  | empty : Next h (.left []) none
  | left {x r} : Next h (.left (x :: r)) (some (x, .left r))

/-- What is passed first. -/
inductive First (h : List (Op B K V)) : Option ((K × V) × Pos K V) → Prop
  | none : Visits h [] → First h none
  | some {k v r} : Visits h ((k, v) :: r) → First h (some ((k, v), .at k))

/-- Some calls of the function of `Range`, from one point of the loop, after the calls `h`, to another. -/
inductive Course : List (Op B K V) → Option ((K × V) × Pos K V) → List (Visit B K V) → Option ((K × V) × Pos K V) → Prop
  | nil {h x} : Course h x [] x
  | go {h k v p ops q y log z} : Shifts h ops p q → Next (h ++ ops) q y → Course (h ++ ops) y log z →
      Course h (some ((k, v), p)) (⟨k, v, ops, true⟩ :: log) z
  | stop {h k v p ops} : Course h (some ((k, v), p)) [⟨k, v, ops, false⟩] none
end Spec

/-- The function, called on the map `s` with the keys and values of `log`, one after the other, makes the calls and returns what `log` says, and leaves
the map as `s'`. -/
inductive Chain [DecidableEq K] (f : A → K → V → Act B K V (A × Bool)) : LH K V → A → List (Visit B K V) → LH K V → A → Prop
  | nil {s a} : Chain f s a [] s a
  | cons {s a k v s1 ops a1 c log s' a'} : (f a k v).run s = some (s1, ops, (a1, c)) → Chain f s1 a1 log s' a' →
      Chain f s a (⟨k, v, ops, c⟩ :: log) s' a'

/-- The function does not call `Range`. -/
def NoRange : Op B K V → Prop
  | .range _ _ => False
  | _ => True

def Act.NoRange : Act B K V R → Prop
  | .ret _ => True
  | .call op next => Lhashmap.NoRange op ∧ ∀ r, (next r).NoRange

end Verif.Lhashmap

/-! ## Proofs: what the list operations leave alone -/
namespace Verif.Dllist
variable {T : Type} {m m' : Mem T} {S : Nat → List Nat}

theorem lastP_mem {l : Nat} {xs : List Nat} : lastP l xs = .root l ∨ ∃ n ∈ xs, lastP l xs = .node n := by
  unfold lastP
  cases h : xs.getLast? with
  | none => exact .inl rfl
  | some n => exact .inr ⟨n, List.mem_of_getLast? h, rfl⟩

theorem moveToFront_frame (h : Rep m S) {l n : Nat} (hn : n ∈ S l) (e : moveToFront m l n = some m') :
    m'.owner = m.owner ∧ ∀ k, k ∉ S l → m'.next (.node k) = m.next (.node k) := by
  have hi := h.init_of_mem hn
  obtain ⟨xs, ys, hS⟩ := List.append_of_mem hn
  obtain ⟨_, h2⟩ := h.links hi (xs := xs) (ys := n :: ys) hS
  rw [headP_cons] at h2
  unfold moveToFront at e
  split at e
  · cases e; exact ⟨rfl, fun _ _ => rfl⟩
  · have e0 : lazyInit m l = m := by simp [lazyInit, hi]
    simp only [e0] at e
    unfold move at e
    split at e
    · cases e; exact ⟨rfl, fun _ _ => rfl⟩
    · simp only [h2, Option.bind_eq_bind, Option.bind_some] at e
      simp only [Option.bind_eq_some_iff] at e
      obtain ⟨a, ha, b, hb, c, hc, d⟩ := e
      simp only [Option.some.injEq] at d
      subst d
      have hb' : b = .root l := by
        simp only [Mem.setNext, Mem.setPrev, upd, if_pos] at hb
        exact (Option.some.inj hb).symm
      refine ⟨rfl, fun k hk => ?_⟩
      have k1 : (Ptr.node k) ≠ lastP l xs := by
        rcases lastP_mem (l := l) (xs := xs) with h | ⟨x, hx, h⟩
        · rw [h]; simp
        · rw [h]; rintro e; injection e with e; subst e; exact hk (by rw [hS]; simp [hx])
      have k2 : (Ptr.node k) ≠ .node n := by rintro e; injection e with e; subst e; exact hk hn
      simp [Mem.setNext, Mem.setPrev, upd, hb', k1, k2]

theorem lRemove_frame (h : Rep m S) {l n : Nat} (hn : n ∈ S l) {v : Option T} (e : lRemove m l n = some (m', v)) :
    m'.owner (.node n) = none ∧ (∀ k, k ≠ n → m'.owner (.node k) = m.owner (.node k)) ∧
    ∀ k, k ∉ S l → m'.next (.node k) = m.next (.node k) := by
  have hi := h.init_of_mem hn
  obtain ⟨xs, ys, hS⟩ := List.append_of_mem hn
  obtain ⟨_, h2⟩ := h.links hi (xs := xs) (ys := n :: ys) hS
  rw [headP_cons] at h2
  unfold lRemove at e
  simp only [h.owner l n hn, if_true, remove, h2, Option.bind_eq_bind, Option.bind_some, Option.bind_eq_some_iff] at e
  obtain ⟨m1, ⟨a, ha, h1⟩, e⟩ := e
  simp only [Option.some.injEq, Prod.mk.injEq] at e h1
  obtain ⟨rfl, _⟩ := e
  subst h1
  refine ⟨by simp [Mem.setNext, Mem.setPrev, Mem.setOwner, Mem.setLen, upd], ?_, ?_⟩
  · intro k hk
    simp [Mem.setNext, Mem.setPrev, Mem.setOwner, Mem.setLen, upd, hk]
  · intro k hk
    have k1 : (Ptr.node k) ≠ lastP l xs := by
      rcases lastP_mem (l := l) (xs := xs) with h | ⟨x, hx, h⟩
      · rw [h]; simp
      · rw [h]; rintro e; injection e with e; subst e; exact hk (by rw [hS]; simp [hx])
    have k2 : k ≠ n := by rintro rfl; exact hk hn
    simp [Mem.setNext, Mem.setPrev, Mem.setOwner, Mem.setLen, upd, k1, k2]

theorem pushFront_frame {l : Nat} (hi : m.inited l = true) {v : T} {n : Nat} (e : pushFront m l v = some (m', n)) :
    (∀ k, k ≠ m.fresh → m'.owner (.node k) = m.owner (.node k)) ∧ ∀ k, k ≠ m.fresh → m'.next (.node k) = m.next (.node k) := by
  have e0 : lazyInit m l = m := by simp [lazyInit, hi]
  unfold pushFront at e
  simp only [e0, insertValue, Dllist.insert, Option.bind_eq_bind, Option.bind_some, Option.bind_eq_some_iff] at e
  obtain ⟨m1, ⟨p, hp, q, hq, h1⟩, e⟩ := e
  simp only [Option.some.injEq, Prod.mk.injEq] at e h1
  obtain ⟨rfl, _⟩ := e
  subst h1
  have hp' : p = .root l := by
    simp only [Mem.setNext, Mem.setPrev, upd, if_pos] at hp
    exact (Option.some.inj hp).symm
  refine ⟨fun k hk => ?_, fun k hk => ?_⟩
  · simp [Mem.setNext, Mem.setPrev, Mem.setOwner, Mem.setLen, upd, hk]
  · simp [Mem.setNext, Mem.setPrev, Mem.setOwner, Mem.setLen, upd, hk, hp']

end Verif.Dllist

namespace Verif.Lhashmap
open Verif.Lhashmap.Spec
open Verif.Dllist (headP)
variable {A B K V R : Type} [DecidableEq K]

/-- What one call leaves alone: everything that is neither in the list nor new. -/
structure Frame (s : LH K V) (ys : List (Item K V)) (s' : LH K V) (ys' : List (Item K V)) : Prop where
  l : s'.l = s.l
  fresh : s.mem.fresh ≤ s'.mem.fresh
  freshE : s.fresh ≤ s'.fresh
  next : ∀ n, n < s.mem.fresh → n ∉ ys.map Item.e → s'.mem.next (.node n) = s.mem.next (.node n)
  owner : ∀ n, n < s.mem.fresh → n ∉ ys.map Item.e → s'.mem.owner (.node n) = s.mem.owner (.node n)
  val : ∀ n, n < s.mem.fresh → s'.mem.val n = s.mem.val n
  ents : ∀ a, a < s.fresh → a ∉ ys.map Item.a → s'.ents a = s.ents a
  elems : ∀ y ∈ ys', y.e ∈ ys.map Item.e ∨ s.mem.fresh ≤ y.e
  addrs : ∀ y ∈ ys', y.a ∈ ys.map Item.a ∨ s.fresh ≤ y.a

theorem Frame.refl (s : LH K V) (ys : List (Item K V)) : Frame s ys s ys :=
  ⟨rfl, Nat.le_refl _, Nat.le_refl _, fun _ _ _ => rfl, fun _ _ _ => rfl, fun _ _ => rfl, fun _ _ _ => rfl,
    fun y hy => .inl (List.mem_map_of_mem hy), fun y hy => .inl (List.mem_map_of_mem hy)⟩

/-- The element `e` is not in the map any more; in the old list the elements `zs` follow. -/
def Old (s : LH K V) (ys : List (Item K V)) (zs : List Nat) (e : Nat) : Prop :=
  s.mem.owner (.node e) = some s.l ∧ s.mem.next (.node e) = some (headP s.l zs) ∧ e < s.mem.fresh ∧ e ∉ ys.map Item.e

/-- The old list behind the element `e`: `zs`, of which nothing is in the map any more. -/
def Stale (s : LH K V) (ys : List (Item K V)) : List (Item K V) → Nat → Prop
  | [], e => Old s ys [] e
  | z :: zs, e => Old s ys ((z :: zs).map Item.e) e ∧ s.mem.val z.e = some z.a ∧ s.ents z.a = some z.kv ∧ z.a < s.fresh ∧
      z.a ∉ ys.map Item.a ∧ Stale s ys zs z.e

theorem Stale.old {s : LH K V} {ys zs : List (Item K V)} {e : Nat} (h : Stale s ys zs e) : Old s ys (zs.map Item.e) e := by
  cases zs with
  | nil => exact h
  | cons z zs => exact h.1

theorem Stale.frame {s s' : LH K V} {ys ys' : List (Item K V)} (hf : Frame s ys s' ys') : ∀ {zs : List (Item K V)} {e : Nat},
    Stale s ys zs e → Stale s' ys' zs e := by
  have he : ∀ {e}, e < s.mem.fresh → e ∉ ys.map Item.e → e ∉ ys'.map Item.e := by
    intro e h1 h2 h3
    obtain ⟨y, hy, rfl⟩ := List.mem_map.1 h3
    rcases hf.elems y hy with h | h
    · exact h2 h
    · omega
  have ha : ∀ {e}, e < s.fresh → e ∉ ys.map Item.a → e ∉ ys'.map Item.a := by
    intro e h1 h2 h3
    obtain ⟨y, hy, rfl⟩ := List.mem_map.1 h3
    rcases hf.addrs y hy with h | h
    · exact h2 h
    · omega
  have ho : ∀ {e es}, Old s ys es e → Old s' ys' es e := by
    rintro e es ⟨h1, h2, h3, h4⟩
    exact ⟨by rw [hf.l, hf.owner e h3 h4, h1], by rw [hf.l, hf.next e h3 h4, h2], Nat.lt_of_lt_of_le h3 hf.fresh, he h3 h4⟩
  intro zs
  induction zs with
  | nil => intro e h; exact ho h
  | cons z zs ih =>
    rintro e ⟨h1, h5, h6, h7, h8, h9⟩
    refine ⟨ho h1, ?_, ?_, Nat.lt_of_lt_of_le h7 hf.freshE, ha h7 h8, ih h9⟩
    · rw [hf.val z.e h9.old.2.2.1, h5]
    · rw [hf.ents z.a h7 h8, h6]

/-- The place of the loop in the memory: its element is `e`. -/
def Holds (s : LH K V) (ys : List (Item K V)) (e : Nat) : Pos K V → Prop
  | .at k => ∃ y ∈ ys, y.e = e ∧ y.k = k
  | .gone => s.mem.owner (.node e) = none ∧ e < s.mem.fresh ∧ e ∉ ys.map Item.e
  | .left r => ∃ zs, zs.map Item.kv = r ∧ Stale s ys zs e

theorem Frame.gone {s s' : LH K V} {ys ys' : List (Item K V)} (hf : Frame s ys s' ys') {e : Nat}
    (h : Holds s ys e (.gone : Pos K V)) : Holds s' ys' e (.gone : Pos K V) := by
  obtain ⟨h1, h2, h3⟩ := h
  refine ⟨by rw [hf.owner e h2 h3, h1], Nat.lt_of_lt_of_le h2 hf.fresh, fun h4 => ?_⟩
  obtain ⟨y, hy, rfl⟩ := List.mem_map.1 h4
  rcases hf.elems y hy with h | h
  · exact h3 h
  · omega

theorem mem_swap {ys1 ys2 : List (Item K V)} {y z : Item K V} : z ∈ y :: (ys1 ++ ys2) ↔ z ∈ ys1 ++ y :: ys2 := by
  simp only [List.mem_append, List.mem_cons]; tauto

/-- Moving an item to the front. -/
theorem Inv.move_frame {s : LH K V} {S : Nat → List Nat} {ys1 ys2 : List (Item K V)} {y : Item K V} (h : Inv s S (ys1 ++ y :: ys2))
    {mem' : Dllist.Mem Nat} (e : Dllist.moveToFront s.mem s.l y.e = some mem') :
    Frame s (ys1 ++ y :: ys2) { s with mem := mem' } (y :: (ys1 ++ ys2)) := by
  have hn : y.e ∈ S s.l := by rw [h.seq]; simp
  obtain ⟨h1, h2⟩ := Dllist.moveToFront_frame h.rep hn e
  obtain ⟨m', k1, _, k3⟩ := Dllist.moveToFront_rep h.rep (l := s.l) (n := y.e)
    (xs := ys1.map Item.e) (ys := ys2.map Item.e) (by rw [h.seq]; simp)
  obtain rfl : mem' = m' := by rw [e] at k1; exact Option.some.inj k1
  refine ⟨rfl, Nat.le_of_eq k3.fresh.symm, Nat.le_refl _, fun n _ hn => h2 n (by rw [h.seq]; exact hn), fun n _ _ => by rw [h1],
    fun n _ => by rw [k3.val], fun _ _ _ => rfl, fun z hz => .inl (List.mem_map_of_mem (mem_swap.1 hz)),
    fun z hz => .inl (List.mem_map_of_mem (mem_swap.1 hz))⟩

/-- One call. -/
theorem op_step {s : LH K V} {S : Nat → List Nat} {ys : List (Item K V)} (h : Inv s S ys) (op : Op B K V) (ho : NoRange op) :
    ∃ s' S' ys' r, exec 0 s op = some (s', r) ∧ Inv s' S' ys' ∧ ys'.map Item.kv = recent (ys.map Item.kv) op ∧ Frame s ys s' ys' ∧
      (∀ y ∈ ys, op ≠ .remove y.k → op ≠ .clear → ∃ y' ∈ ys', y'.e = y.e ∧ y'.k = y.k) ∧
      (∀ y ∈ ys, op = .remove y.k → Holds s' ys' y.e (.gone : Pos K V)) ∧
      (op = .clear → s' = clear s ∧ ys' = []) := by
  have hkeep : ∀ (zs : List (Item K V)), (∀ z ∈ ys, z ∈ zs) →
      ∀ y ∈ ys, op ≠ .remove y.k → op ≠ .clear → ∃ y' ∈ zs, y'.e = y.e ∧ y'.k = y.k :=
    fun zs hz y hy _ _ => ⟨y, hz y hy, rfl, rfl⟩
  cases op with
  | range f a => exact absurd ho id
  | len =>
    exact ⟨s, S, ys, _, rfl, h, rfl, Frame.refl s ys, hkeep ys fun z hz => hz, nofun, nofun⟩
  | load k =>
    rcases aget_items (ys := ys) (k := k) with ⟨h1, h2⟩ | ⟨ys1, y, ys2, rfl, rfl, h3⟩
    · exact ⟨s, S, ys, .val none, by simp [exec, load, get_none h h2], h, by simp [recent, h1], Frame.refl s ys, hkeep ys fun z hz => hz,
        nofun, nofun⟩
    · obtain ⟨mem', m1, S', m2⟩ := h.move
      refine ⟨_, S', y :: (ys1 ++ ys2), .val (some y.v), ?_, m2, ?_, h.move_frame m1, hkeep _ fun z hz => mem_swap.2 hz, nofun, nofun⟩
      · simp only [exec, load, h.get y (by simp), m1, m2.entry (y := y) (by simp), Option.bind_eq_bind, Option.bind_some]
      · simp only [recent, h3, adel_items h.keys]; rfl
  | store k v =>
    rcases aget_items (ys := ys) (k := k) with ⟨h1, h2⟩ | ⟨ys1, y, ys2, rfl, rfl, h3⟩
    · obtain ⟨mem', m1, S', m2⟩ := h.push (get_none h h2) v
      obtain ⟨f1, f2⟩ := Dllist.pushFront_frame h.inited m1
      obtain ⟨m', k1, _, k3, k4, _⟩ := Dllist.pushFront_rep h.rep h.lt_freshL s.fresh
      obtain rfl : mem' = m' := by rw [m1] at k1; exact congrArg Prod.fst (Option.some.inj k1)
      refine ⟨_, S', _, .unit, ?_, m2, ?_, ?_, hkeep _ fun z hz => List.mem_cons_of_mem _ hz, nofun, nofun⟩
      · simp [exec, store, get_none h h2, m1]
      · simp only [recent, adel_none h2]; rfl
      · refine ⟨rfl, by simp only [k4]; omega, Nat.le_succ _, fun n hn _ => f2 n (by omega), fun n hn _ => f1 n (by omega), ?_, ?_, ?_, ?_⟩
        · intro n hn; simp only [k3, Dllist.upd]; rw [if_neg (by omega)]
        · intro a ha _; exact if_neg (by omega)
        · intro z hz
          rcases List.mem_cons.1 hz with rfl | hz
          · exact .inr (Nat.le_refl _)
          · exact .inl (List.mem_map_of_mem hz)
        · intro z hz
          rcases List.mem_cons.1 hz with rfl | hz
          · exact .inr (Nat.le_refl _)
          · exact .inl (List.mem_map_of_mem hz)
    · have ha := h.assign v
      obtain ⟨mem', m1, S', m2⟩ := ha.move
      have hf := ha.move_frame m1
      refine ⟨_, S', _, .unit, ?_, m2, ?_, ?_, ?_, nofun, nofun⟩
      · have hent := h.entry (y := y) (by simp)
        simp only [exec, store, h.get y (by simp), hent, m1, Option.bind_eq_bind, Option.bind_some]
      · simp only [recent, adel_items h.keys]; rfl
      · have me : ∀ n, n ∉ (ys1 ++ y :: ys2).map Item.e → n ∉ (ys1 ++ { y with v := v } :: ys2).map Item.e := by
          intro n hn; simpa using hn
        refine ⟨rfl, hf.fresh, Nat.le_refl _, fun n hn hm => hf.next n hn (me n hm), fun n hn hm => hf.owner n hn (me n hm), hf.val, ?_, ?_, ?_⟩
        · intro a _ hm
          refine if_neg ?_
          rintro rfl; simp at hm
        · intro z hz
          have := hf.elems z hz
          simpa using this
        · intro z hz
          have := hf.addrs z hz
          simpa using this
      · intro z hz _ _
        simp only [List.mem_append, List.mem_cons] at hz
        rcases hz with hz | rfl | hz
        · exact ⟨z, by simp [hz], rfl, rfl⟩
        · exact ⟨{ z with v := v }, by simp, rfl, rfl⟩
        · exact ⟨z, by simp [hz], rfl, rfl⟩
  | remove k =>
    rcases aget_items (ys := ys) (k := k) with ⟨h1, h2⟩ | ⟨ys1, y, ys2, rfl, rfl, h3⟩
    · refine ⟨s, S, ys, .unit, by simp [exec, remove, get_none h h2], h, by simp [recent, adel_none h2], Frame.refl s ys,
        hkeep ys fun z hz => hz, ?_, nofun⟩
      intro y hy e
      injection e with e
      exact absurd e.symm (h2 y hy)
    · obtain ⟨mem', v, m1, S', m2⟩ := h.del
      have hn : y.e ∈ S s.l := by rw [h.seq]; simp
      obtain ⟨f1, f2, f3⟩ := Dllist.lRemove_frame h.rep hn m1
      obtain ⟨m', v', k1, _, k3⟩ := Dllist.lRemove_rep h.rep (l := s.l) (n := y.e)
        (xs := ys1.map Item.e) (ys := ys2.map Item.e) (by rw [h.seq]; simp)
      obtain rfl : mem' = m' := by rw [m1] at k1; exact congrArg Prod.fst (Option.some.inj k1)
      have hin : ∀ z ∈ ys1 ++ ys2, z ∈ ys1 ++ y :: ys2 := by
        intro z hz; simp only [List.mem_append, List.mem_cons] at hz ⊢; tauto
      refine ⟨_, S', ys1 ++ ys2, .unit, ?_, m2, ?_, ?_, ?_, ?_, nofun⟩
      · simp [exec, remove, h.get y (by simp), m1]
      · simp only [recent, adel_items h.keys]
      · refine ⟨rfl, Nat.le_of_eq k3.fresh.symm, Nat.le_refl _, fun n _ hn => f3 n (by rw [h.seq]; exact hn), fun n _ hn => f2 n ?_,
          fun n _ => by rw [k3.val], fun _ _ _ => rfl, fun z hz => .inl (List.mem_map_of_mem (hin z hz)),
          fun z hz => .inl (List.mem_map_of_mem (hin z hz))⟩
        rintro rfl; exact hn (by simp)
      · intro z hz hne _
        simp only [List.mem_append, List.mem_cons] at hz
        rcases hz with hz | rfl | hz
        · exact ⟨z, by simp [hz], rfl, rfl⟩
        · exact absurd rfl hne
        · exact ⟨z, by simp [hz], rfl, rfl⟩
      · intro z hz e
        injection e with e
        have hzy : z = y := by
          rcases List.mem_cons.1 (mem_swap.2 hz) with h' | h'
          · exact h'
          · exact absurd e.symm (split_key h.keys z h')
        subst hzy
        refine ⟨f1, ?_, ?_⟩
        · show z.e < mem'.fresh
          rw [k3.fresh]; exact h.rep.alloc s.l z.e hn
        · have := h.rep.nodup s.l
          rw [h.seq] at this
          simp only [List.map_append, List.map_cons] at this ⊢
          exact (List.nodup_cons.1 (List.perm_middle.nodup_iff.1 this)).1
  | clear =>
    obtain ⟨S', m2⟩ := h.clear
    refine ⟨clear s, S', [], .unit, rfl, m2, rfl, ?_, fun y _ _ hc => absurd rfl hc, nofun, fun _ => ⟨rfl, rfl⟩⟩
    refine ⟨rfl, Nat.le_refl _, Nat.le_refl _, ?_, fun _ _ _ => rfl, fun _ _ => rfl, fun _ _ _ => rfl, nofun, nofun⟩
    intro n _ _
    simp [clear, Dllist.clear, Dllist.Mem.setNext, Dllist.Mem.setPrev, Dllist.Mem.setLen, Dllist.Mem.setInited, Dllist.upd]

theorem visits_of {ys : List (Item K V)} {h : List (Op B K V)} (he : ys.map Item.kv = h.foldl recent []) : Visits h (ys.map Item.kv) := by
  obtain ⟨i1, i2, i3⟩ := recent_spec h
  rw [he]
  exact ⟨fun k v => by rw [← i1, mem_iff_aget i2], i2, i3⟩

theorem behind_of {pre post : List (Item K V)} {y : Item K V} {h : List (Op B K V)}
    (he : (pre ++ y :: post).map Item.kv = h.foldl recent []) : Behind h y.k (post.map Item.kv) := by
  refine ⟨pre.map Item.kv, y.v, ?_⟩
  have := visits_of he
  rwa [List.map_append, List.map_cons] at this

theorem step_of_exec {s s' : LH K V} {op : Op B K V} {r : Res B V} (ho : NoRange op) (e : exec 0 s op = some (s', r)) : MStep s op r s' := by
  refine ⟨0, fun fuel _ => ?_⟩
  cases op <;> first | exact e | exact absurd ho id

/-- The rest of the list after a `Clear`. -/
theorem stale_clear {s : LH K V} {S : Nat → List Nat} : ∀ {post pre : List (Item K V)} {y : Item K V}, Inv s S (pre ++ y :: post) →
    Stale (clear s) [] post y.e := by
  intro post
  have hold : ∀ {post pre : List (Item K V)} {y : Item K V}, Inv s S (pre ++ y :: post) → Old (clear s) [] (post.map Item.e) y.e := by
    intro post pre y h
    have hn : y.e ∈ S s.l := by rw [h.seq]; simp
    obtain ⟨h3, _⟩ := h.rep.links h.inited (xs := pre.map Item.e ++ [y.e]) (ys := post.map Item.e) (by rw [h.seq]; simp)
    rw [Dllist.lastP_concat] at h3
    refine ⟨h.rep.owner s.l y.e hn, ?_, h.rep.alloc s.l y.e hn, by simp⟩
    simpa [clear, Dllist.clear, Dllist.Mem.setNext, Dllist.Mem.setPrev, Dllist.Mem.setLen, Dllist.Mem.setInited, Dllist.upd] using h3
  induction post with
  | nil => intro pre y h; exact hold h
  | cons z post ih =>
    intro pre y h
    have hz : z ∈ pre ++ y :: z :: post := by simp
    exact ⟨hold h, h.val z hz, h.ent z hz, h.lt z hz, by simp, ih (pre := pre ++ [y]) (by simpa using h)⟩

/-- One call, and the place. -/
theorem pos_step {s : LH K V} {S : Nat → List Nat} {ys : List (Item K V)} {h : List (Op B K V)} (hr : MRun h s) (hI : Inv s S ys)
    (he : ys.map Item.kv = h.foldl recent []) {e : Nat} {p : Pos K V} (hp : Holds s ys e p) (op : Op B K V) (ho : NoRange op) :
    ∃ s' S' ys' r q, exec 0 s op = some (s', r) ∧ MRun (h ++ [op]) s' ∧ Inv s' S' ys' ∧ ys'.map Item.kv = (h ++ [op]).foldl recent [] ∧
      Shift h op p q ∧ Holds s' ys' e q := by
  obtain ⟨s', S', ys', r, a1, a2, a3, a4, a5, a6, a7⟩ := op_step hI op ho
  have hm := MRun.snoc hr (step_of_exec ho a1)
  have hf : ys'.map Item.kv = (h ++ [op]).foldl recent [] := by rw [a3, he, List.foldl_append]; rfl
  suffices ∃ q, Shift h op p q ∧ Holds s' ys' e q by
    obtain ⟨q, h1, h2⟩ := this
    exact ⟨s', S', ys', r, q, a1, hm, a2, hf, h1, h2⟩
  cases p with
  | «at» k =>
    obtain ⟨y, hy, rfl, rfl⟩ := hp
    rcases Classical.em (op = .remove y.k) with e1 | e1
    · exact ⟨.gone, by rw [e1]; exact .remove, a6 y hy e1⟩
    · rcases Classical.em (op = .clear) with e2 | e2
      · obtain ⟨pre, post, rfl⟩ := List.append_of_mem hy
        obtain ⟨rfl, rfl⟩ := a7 e2
        exact ⟨.left (post.map Item.kv), by rw [e2]; exact .clear (behind_of he), post, rfl, stale_clear hI⟩
      · exact ⟨.at y.k, .other e1 e2, a5 y hy e1 e2⟩
  | gone => exact ⟨.gone, .gone, a4.gone hp⟩
  | left r =>
    obtain ⟨zs, rfl, hz⟩ := hp
    exact ⟨.left _, .left, zs, rfl, hz.frame a4⟩

/-- Several calls. -/
theorem pos_run : ∀ (p : Act B K V R) {s : LH K V} {S : Nat → List Nat} {ys : List (Item K V)} {h : List (Op B K V)}, MRun h s → Inv s S ys →
    ys.map Item.kv = h.foldl recent [] → ∀ {e : Nat} {t : Pos K V}, Holds s ys e t → p.NoRange →
    ∃ s' S' ys' ops r q, p.run s = some (s', ops, r) ∧ MRun (h ++ ops) s' ∧ Inv s' S' ys' ∧ ys'.map Item.kv = (h ++ ops).foldl recent [] ∧
      Shifts h ops t q ∧ Holds s' ys' e q := by
  intro p
  induction p with
  | ret r =>
    intro s S ys h hr hI he e t ht _
    exact ⟨s, S, ys, [], r, t, rfl, by simpa using hr, hI, by simpa using he, .nil, ht⟩
  | call op next ih =>
    intro s S ys h hr hI he e t ht hp
    obtain ⟨s1, S1, ys1, r1, q1, a1, a2, a3, a4, a5, a6⟩ := pos_step hr hI he ht op hp.1
    obtain ⟨s2, S2, ys2, ops, r2, q2, b1, b2, b3, b4, b5, b6⟩ := ih r1 a2 a3 a4 a6 (hp.2 r1)
    refine ⟨s2, S2, ys2, op :: ops, r2, q2, ?_, by simpa using b2, b3, by simpa using b4, .cons a5 b5, b6⟩
    simp [Act.run, a1, b1]

/-- The pointer of the loop is at what is passed next. -/
def Points (s : LH K V) (ys : List (Item K V)) (ptr : Option Dllist.Ptr) : Option ((K × V) × Pos K V) → Prop
  | none => ptr = none
  | some (kv, p) => ∃ e a, ptr = some (.node e) ∧ s.entry e = some (a, kv) ∧ Holds s ys e p

theorem next_step {s : LH K V} {S : Nat → List Nat} {ys : List (Item K V)} {h : List (Op B K V)} (hI : Inv s S ys)
    (he : ys.map Item.kv = h.foldl recent []) {e : Nat} {q : Pos K V} (hq : Holds s ys e q) :
    ∃ x, Next h q x ∧ Points s ys (Dllist.elNext s.mem (.node e)) x := by
  cases q with
  | «at» k =>
    obtain ⟨y, hy, rfl, rfl⟩ := hq
    obtain ⟨pre, post, rfl⟩ := List.append_of_mem hy
    have hnx := Dllist.elNext_rep hI.rep (l := s.l) (n := y.e) (xs := pre.map Item.e) (ys := post.map Item.e) (by rw [hI.seq]; simp)
    have hb := behind_of he
    cases post with
    | nil => exact ⟨none, .last hb, hnx⟩
    | cons z post =>
      exact ⟨some (z.kv, .at z.k), .next hb, z.e, z.a, hnx, hI.entry (by simp), z, by simp, rfl, rfl⟩
  | gone => exact ⟨none, .gone, by simp [Points, Dllist.elNext, hq.1]⟩
  | left r =>
    obtain ⟨zs, rfl, hz⟩ := hq
    have ho := hz.old
    cases zs with
    | nil =>
      refine ⟨none, .empty, ?_⟩
      simp [Points, Dllist.elNext, ho.1, ho.2.1]
    | cons z zs =>
      refine ⟨some (z.kv, .left (zs.map Item.kv)), .left, z.e, z.a, ?_, ?_, zs, rfl, hz.2.2.2.2.2⟩
      · simp [Dllist.elNext, ho.1, ho.2.1]
      · simp [LH.entry, hz.2.1, hz.2.2.1]

/-- The loop. -/
theorem course_loop (f : A → K → V → Act B K V (A × Bool)) (hf : ∀ a k v, (f a k v).NoRange) : ∀ (fuel : Nat) {s : LH K V} {S : Nat → List Nat}
    {ys : List (Item K V)} {h : List (Op B K V)}, MRun h s → Inv s S ys → ys.map Item.kv = h.foldl recent [] →
    ∀ {ptr : Option Dllist.Ptr} {x : Option ((K × V) × Pos K V)}, Points s ys ptr x → ∀ (a : A) (log : List (Visit B K V)),
    (∃ s' a' more, rangeLoop (noting f) fuel s (a, log) ptr = some (s', (a', log ++ more)) ∧ Course h x more none ∧ Chain f s a more s' a' ∧
      MRun (h ++ more.flatMap (·.ops)) s') ∨
    (rangeLoop (noting f) fuel s (a, log) ptr = none ∧ ∃ s' a' more z, Course h x more z ∧ Chain f s a more s' a' ∧ more.length = fuel) := by
  intro fuel
  induction fuel with
  | zero => intro s S ys h hr hI he ptr x hx a log; exact .inr ⟨rfl, s, a, [], x, .nil, .nil, rfl⟩
  | succ fuel ih =>
    intro s S ys h hr hI he ptr x hx a log
    cases x with
    | none =>
      have hx : ptr = none := hx
      subst hx
      exact .inl ⟨s, a, [], by simp [rangeLoop], .nil, .nil, by simpa using hr⟩
    | some x =>
      obtain ⟨⟨k, v⟩, p⟩ := x
      obtain ⟨e, ad, rfl, hent, hp⟩ := hx
      obtain ⟨s1, S1, ys1, ops, r, q, b1, b2, b3, b4, b5, b6⟩ := pos_run (f a k v) hr hI he hp (hf a k v)
      rcases r with ⟨a1, c⟩
      cases c with
      | false =>
        refine .inl ⟨s1, a1, [⟨k, v, ops, false⟩], ?_, .stop, .cons b1 .nil, by simpa using b2⟩
        simp [rangeLoop, hent, noting, b1]
      | true =>
        obtain ⟨y, c1, c2⟩ := next_step b3 b4 b6
        have hstep : rangeLoop (noting f) (fuel + 1) s (a, log) (some (.node e)) =
            rangeLoop (noting f) fuel s1 (a1, log ++ [⟨k, v, ops, true⟩]) (Dllist.elNext s1.mem (.node e)) := by
          simp [rangeLoop, hent, noting, b1]
        rcases ih b2 b3 b4 c2 a1 (log ++ [⟨k, v, ops, true⟩]) with ⟨s', a', more, d1, d2, d4, d3⟩ | ⟨d1, s', a', more, z, d2, d4, d3⟩
        · refine .inl ⟨s', a', ⟨k, v, ops, true⟩ :: more, ?_, .go b5 c1 d2, .cons b1 d4, by simpa using d3⟩
          rw [hstep, d1]; simp
        · exact .inr ⟨by rw [hstep, d1], s', a', ⟨k, v, ops, true⟩ :: more, z, .go b5 c1 d2, .cons b1 d4, by simp [d3]⟩

/-- C137: whatever calls of `Load`, `Store`, `Remove`, `Len` and `Clear` the function of `Range` makes, for whatever keys: it is called first for the key
used last. After a call for a key `k` that returns true, it is called for the key behind `k` in the order there is then, with its value;
not again, if `k` has been removed since, and not if there is no key behind; but if the map has been cleared, for the bindings that were behind `k`
at that moment. If `Range` returns, the map is as the calls made by the function leave it; if it does not, the function is called without end: it does
not panic. -/
theorem C137_range {h : List (Op B K V)} {s : LH K V} (hr : MRun h s) (f : A → K → V → Act B K V (A × Bool))
    (hf : ∀ a k v, (f a k v).NoRange) (a : A) :
    ∃ x, First h x ∧ ∀ fuel,
      (∃ s' a' log, range (noting f) fuel s (a, []) = some (s', (a', log)) ∧ Course h x log none ∧ Chain f s a log s' a' ∧
        MRun (h ++ log.flatMap (·.ops)) s') ∨
      (range (noting f) fuel s (a, []) = none ∧ ∃ s' a' log z, Course h x log z ∧ Chain f s a log s' a' ∧ log.length = fuel) := by
  obtain ⟨S, ys, hI, he⟩ := run_inv hr
  have hfr := Dllist.front_rep hI.rep hI.inited
  have hv := visits_of he
  obtain ⟨x, h1, h2⟩ : ∃ x, First h x ∧ Points s ys ((S s.l).head?.map .node) x := by
    rw [hI.seq]
    cases ys with
    | nil => exact ⟨none, .none hv, rfl⟩
    | cons y post => exact ⟨some (y.kv, .at y.k), .some hv, y.e, y.a, rfl, hI.entry (by simp), y, by simp, rfl, rfl⟩
  refine ⟨x, h1, fun fuel => ?_⟩
  have := course_loop f hf fuel hr hI he h2 a []
  simp only [range, hfr]
  exact this

/-- A function that removes each key it is given: only the first is removed. -/
def removing : Unit → K → V → Act Unit K V (Unit × Bool) := fun _ k _ => .call (.remove k) fun _ => .ret ((), true)

example : (do
    let s ← store (new : LH Nat Nat) 1 10
    let s ← store s 2 20
    let s ← store s 3 30
    let (s, _, log) ← range (noting removing) 9 s ((), [])
    some (len s, log.map (·.k))) = some (2, [3]) := by decide +kernel

/-- A function that clears the map when given its first key: the others are passed, though they are not in the map any more. -/
def clearing : Unit → Nat → Nat → Act Unit Nat Nat (Unit × Bool) :=
  fun _ k _ => if k = 3 then .call .clear fun _ => .call (.store 9 90) fun _ => .ret ((), true) else .call (.store k 0) fun _ => .ret ((), true)

example : (do
    let s ← store (new : LH Nat Nat) 1 10
    let s ← store s 2 20
    let s ← store s 3 30
    let (s, _, log) ← range (noting clearing) 9 s ((), [])
    some (len s, log.map fun v => (v.k, v.v))) = some (3, [(3, 30), (2, 20), (1, 10)]) := by decide +kernel

end Verif.Lhashmap
