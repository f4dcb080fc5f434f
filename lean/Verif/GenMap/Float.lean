import Verif.GenMap.Model
import Verif.Set.Float
import Mathlib.Data.List.Perm.Subperm
/-!
# Maps with float keys (C143)

The key type of a `GenMap` is any comparable type (genmap.go:7), floats included.  There `==` is no equality: NaN is not equal to itself,
and 0 equals -0.  A NaN key is a new entry at every assignment, found by no lookup and by no `delete`.  `Verif.GenMap.Model` assumes a
lawful equality and has all the aliasing between maps; here a map is the list of its entries, and `==` is only symmetric and transitive.
A call that gets its own map as the second one matters only for `CopyFrom` and `CopyTo`, where it assigns while it iterates: `CopyLoop`.
-/
namespace Verif.GenMap.Float
open Verif.GoSet.Float (EqOp)
variable {A F V : Type} [Inhabited V]

/-- What does not change. -/
structure Env (F : Type) where
  /-- `==` on the keys -/
  Q : EqOp F
  /-- an assignment to an entry that exists also replaces its key (0 by -0); the language does not say -/
  up : Bool
  /-- `maps.Clear` deletes the keys it meets, as it did before the language had `clear` -/
  old : Bool

/-- A visiting order for each map. -/
structure Order (F V : Type) where
  f : List (F × V) → List (F × V)
  perm : ∀ l, (f l).Perm l

variable (E : Env F) (ω : Order F V)

/-! ### The Go map -/

/-- `v, ok := m[k]`. -/
def get (l : List (F × V)) (k : F) : Option V := (l.find? fun p => E.Q.eq p.1 k).map (·.2)

/-- What an assignment makes of an entry with an equal key. -/
def over (k : F) (v : V) (p : F × V) : F × V := if E.Q.eq p.1 k then (if E.up then k else p.1, v) else p

/-- `m[k] = v`. -/
def put (l : List (F × V)) (k : F) (v : V) : List (F × V) :=
  if l.any fun p => E.Q.eq p.1 k then l.map (over E k v) else l ++ [(k, v)]

/-- `delete(m, k)`. -/
def del (l : List (F × V)) (k : F) : List (F × V) := l.filter fun p => !E.Q.eq p.1 k

/-- The two-value read: the zero value if absent. -/
def read (l : List (F × V)) (k : F) : V × Bool :=
  match get E l k with
  | some v => (v, true)
  | none => (default, false)

/-! ### The code -/

/-- `Len`: genmap.go:17-19. -/
def len (l : List (F × V)) : Nat := l.length
/-- `Load`: genmap.go:21-24. -/
def load (l : List (F × V)) (k : F) : V × Bool := read E l k
/-- `Store`: genmap.go:26-29. -/
def store (l : List (F × V)) (k : F) (v : V) : List (F × V) := put E l k v
/-- `Delete`: genmap.go:31-34. -/
def delete (l : List (F × V)) (k : F) : List (F × V) := del E l k
/-- `Keys`: genmap.go:46-48. -/
def keys (l : List (F × V)) : List F := (ω.f l).map (·.1)
/-- `Values`: genmap.go:50-52. -/
def values (l : List (F × V)) : List V := (ω.f l).map (·.2)
/-- `Range`: genmap.go:54-61. -/
def range (l : List (F × V)) (f : A → F → V → A × Bool) (a : A) : A × Bool := rangeLoop f a (ω.f l)
/-- `LoadOrStore`: genmap.go:63-70. -/
def loadOrStore (l : List (F × V)) (k : F) (v : V) : List (F × V) × V × Bool :=
  let (actual, loaded) := read E l k
  if loaded then (l, actual, loaded) else (put E l k v, actual, loaded)
/-- `LoadOrStoreFunc`: genmap.go:72-80; `new` is the value `newFunc()` returns. -/
def loadOrStoreFunc (l : List (F × V)) (k : F) (new : V) : List (F × V) × V × Bool :=
  let (actual, loaded) := read E l k
  if loaded then (l, actual, loaded)
  else
    let actual := new
    (put E l k actual, actual, loaded)
/-- `LoadAndDelete`: genmap.go:82-88. -/
def loadAndDelete (l : List (F × V)) (k : F) : List (F × V) × V × Bool :=
  let (v, loaded) := read E l k
  if loaded then (del E l k, v, loaded) else (l, v, loaded)
/-- `LoadAndStore`: genmap.go:90-94. -/
def loadAndStore (l : List (F × V)) (k : F) (v : V) : List (F × V) × V × Bool :=
  let (actual, loaded) := read E l k
  (put E l k v, actual, loaded)
/-- `EqualFunc`: genmap.go:96-98 (`maps.EqualFunc`: the lengths, then a lookup of every entry). -/
def equalFunc (l t : List (F × V)) (eq : V → V → Bool) : Bool :=
  if l.length = t.length then (ω.f l).all fun p => match get E t p.1 with
    | some v => eq p.2 v
    | none => false
  else false
/-- `DeleteFunc`: genmap.go:125-127 (`maps.DeleteFunc`: deletes the keys of the entries for which `f` is true). -/
def deleteFunc (l : List (F × V)) (f : F → V → Bool) : List (F × V) :=
  (ω.f l).foldl (fun l p => if f p.1 p.2 then del E l p.1 else l) l
/-- `Clear`: genmap.go:100-103. -/
def clear (l : List (F × V)) : List (F × V) := if E.old then (ω.f l).foldl (fun l p => del E l p.1) l else []
/-- `CopyFrom`, `CopyTo` (genmap.go:105-123) from another map: `maps.Copy` assigns every entry. -/
def copy (l t : List (F × V)) : List (F × V) := (ω.f t).foldl (fun l p => put E l p.1 p.2) l
/-- `Clone`: genmap.go:37-39. -/
def clone (l : List (F × V)) : List (F × V) := copy E ω [] l

/-- `m.CopyFrom(m)`, `m.CopyTo(m)`: the loop has still to visit `todo`, in an order of its own, and the map is `l`.  An entry that an
assignment creates may be visited later or not: the language leaves it open. -/
inductive CopyLoop : List (F × V) → List (F × V) → List (F × V) → Prop
  | done {l} : CopyLoop [] l l
  | next {todo rest l l' p} : todo.Perm (p :: rest) → CopyLoop rest (put E l p.1 p.2) l' → CopyLoop todo l l'
  | again {todo rest l l' p} : todo.Perm (p :: rest) → get E l p.1 = none → CopyLoop (p :: rest) (put E l p.1 p.2) l' → CopyLoop todo l l'

/-! ### What it means -/

/-- The entries with a key not equal to itself. -/
def nans (l : List (F × V)) : List (F × V) := l.filter fun p => !E.Q.eq p.1 p.1

/-- The map `l` has the values `M`, and besides the NaN entries `N`, each as often as there. -/
structure Has (l : List (F × V)) (M : F → Option V) (N : List (F × V)) : Prop where
  wf : l.Pairwise fun p q => E.Q.eq p.1 q.1 = false
  vals : ∀ k, get E l k = M k
  nan : (nans E l).Perm N

/-- What a two-value read gives for an entry. -/
def got (o : Option V) : V × Bool := (o.getD default, o.isSome)

/-- What every operation does, whatever `==` is. -/
structure Works (l : List (F × V)) (M : F → Option V) (N : List (F × V)) : Prop where
  /-- no key not equal to itself is found -/
  miss : ∀ k, E.Q.eq k k = false → M k = none
  /-- equal keys have the same value -/
  same : ∀ k k', E.Q.eq k k' = true → M k = M k'
  len : ∃ ks : List F, (ks.Pairwise fun a b => E.Q.eq a b = false) ∧ (∀ k ∈ ks, E.Q.eq k k = true) ∧
    (∀ k, (∃ k' ∈ ks, E.Q.eq k' k = true) ↔ M k ≠ none) ∧ len l = ks.length + N.length
  load : ∀ k, load E l k = got (M k)
  store : ∀ k v, Has E (store E l k v) (fun x => if E.Q.eq k x then some v else M x) (N ++ nans E [(k, v)])
  delete : ∀ k, Has E (delete E l k) (fun x => if E.Q.eq k x then none else M x) N
  loadOrStore : ∀ k v, (loadOrStore E l k v).2 = got (M k) ∧
    if M k = none then (loadOrStore E l k v).1 = Float.store E l k v else (loadOrStore E l k v).1 = l
  loadOrStoreFunc : ∀ k v, (loadOrStoreFunc E l k v).2 = ((M k).getD v, (M k).isSome) ∧
    if M k = none then (loadOrStoreFunc E l k v).1 = Float.store E l k v else (loadOrStoreFunc E l k v).1 = l
  loadAndDelete : ∀ k, (loadAndDelete E l k).2 = got (M k) ∧ Has E (loadAndDelete E l k).1 (fun x => if E.Q.eq k x then none else M x) N
  loadAndStore : ∀ k v, (loadAndStore E l k v).2 = got (M k) ∧ (loadAndStore E l k v).1 = Float.store E l k v
  /-- the loops meet every entry, NaNs included -/
  keys : ∃ es, Has E es M N ∧ keys ω l = es.map (·.1)
  values : ∃ es, Has E es M N ∧ values ω l = es.map (·.2)
  range : ∃ es, Has E es M N ∧ ∀ (A : Type) (f : A → F → V → A × Bool) (a : A), range ω l f a = rangeLoop f a es
  equalFunc : ∀ t M' N' eq, Has E t M' N' → (equalFunc E ω l t eq = true ↔ N = [] ∧ N' = [] ∧ (∀ k, M k = none ↔ M' k = none) ∧
    ∀ k v v', M k = some v → M' k = some v' → eq v v' = true)
  /-- `DeleteFunc` deletes what `f` says, but no NaN -/
  deleteFunc : ∀ f : F → V → Bool, (∀ a b v, E.Q.eq a b = true → f a v = f b v) →
    Has E (deleteFunc E ω l f) (fun x => (M x).filter fun v => !f x v) N
  clear : Has E (clear E ω l) (fun _ => none) (if E.old then N else [])
  copy : ∀ t M' N', Has E t M' N' → Has E (copy E ω l t) (fun x => (M' x).or (M x)) (N ++ N')
  clone : Has E (clone E ω l) M N

/-! ### Proofs -/

variable {E ω} {l t es : List (F × V)} {M M' : F → Option V} {N N' : List (F × V)}

omit [Inhabited V]

theorem nanl {a b : F} (h : E.Q.eq a a = false) : E.Q.eq a b = false := by
  rw [Bool.eq_false_iff]; intro e; rw [E.Q.trans e (E.Q.symm e)] at h; cases h

theorem eq_right {a b : F} (h : E.Q.eq a b = true) (x : F) : E.Q.eq a x = E.Q.eq b x := by
  rw [Bool.eq_iff_iff]; exact ⟨fun e => E.Q.trans (E.Q.symm h) e, fun e => E.Q.trans h e⟩

theorem eq_left {a b : F} (h : E.Q.eq a b = true) (x : F) : E.Q.eq x a = E.Q.eq x b := by
  rw [Bool.eq_iff_iff]; exact ⟨fun e => E.Q.trans e h, fun e => E.Q.trans e (E.Q.symm h)⟩

theorem get_eq {k : F} {v : V} (h : l.Pairwise fun p q => E.Q.eq p.1 q.1 = false) :
    get E l k = some v ↔ ∃ p ∈ l, E.Q.eq p.1 k = true ∧ p.2 = v := by
  unfold get
  constructor
  · intro e
    obtain ⟨p, hp, rfl⟩ := Option.map_eq_some_iff.1 e
    exact ⟨p, List.mem_of_find?_eq_some hp, List.find?_some (p := fun p : F × V => E.Q.eq p.1 k) hp, rfl⟩
  · rintro ⟨p, hp, hk, rfl⟩
    induction l with
    | nil => cases hp
    | cons a l ih =>
      obtain ⟨h1, h2⟩ := List.pairwise_cons.1 h
      rw [List.find?_cons]
      rcases List.mem_cons.1 hp with rfl | hp
      · rw [hk]; rfl
      · have : E.Q.eq a.1 k = false := by
          rw [Bool.eq_false_iff]; intro e
          have := h1 p hp
          rw [E.Q.trans e (E.Q.symm hk)] at this; cases this
        rw [this]
        exact ih h2 hp

theorem uniq (h : l.Pairwise fun p q => E.Q.eq p.1 q.1 = false) {p q : F × V} (hp : p ∈ l) (hq : q ∈ l) (e : E.Q.eq p.1 q.1 = true) : p = q := by
  induction l with
  | nil => cases hp
  | cons a l ih =>
    obtain ⟨h1, h2⟩ := List.pairwise_cons.1 h
    rcases List.mem_cons.1 hp with rfl | hp'
    · rcases List.mem_cons.1 hq with rfl | hq'
      · rfl
      · rw [h1 q hq'] at e; cases e
    · rcases List.mem_cons.1 hq with rfl | hq'
      · have := h1 p hp'
        rw [E.Q.symm e] at this; cases this
      · exact ih h2 hp' hq'

theorem get_none {k : F} : get E l k = none ↔ ∀ p ∈ l, E.Q.eq p.1 k = false := by
  simp [get]

theorem get_congr {k k' : F} (h : E.Q.eq k k' = true) : get E l k = get E l k' := by
  unfold get; simp only [eq_left h]

theorem wf_perm {l l' : List (F × V)} (hp : l.Perm l') (h : l.Pairwise fun p q => E.Q.eq p.1 q.1 = false) :
    l'.Pairwise fun p q => E.Q.eq p.1 q.1 = false := h.perm hp (fun {a b} h => by rw [GoSet.Float.eq_comm]; exact h)

theorem Has.perm {l' : List (F × V)} (h : Has E l M N) (hp : l.Perm l') : Has E l' M N := by
  refine ⟨wf_perm hp h.wf, fun k => ?_, (hp.symm.filter _).trans h.nan⟩
  rw [← h.vals k]
  cases e : get E l k with
  | none =>
    rw [get_none] at e ⊢
    exact fun p hq => e p (hp.mem_iff.2 hq)
  | some v =>
    rw [get_eq h.wf] at e
    rw [get_eq (wf_perm hp h.wf)]
    obtain ⟨p, h1, h2⟩ := e
    exact ⟨p, hp.mem_iff.1 h1, h2⟩

theorem Has.congr (h : Has E l M N) (hM : ∀ x, M x = M' x) (hN : N.Perm N') : Has E l M' N' :=
  ⟨h.wf, fun k => (h.vals k).trans (hM k), h.nan.trans hN⟩

theorem over_key (k : F) (v : V) (p : F × V) (x : F) : E.Q.eq (over E k v p).1 x = E.Q.eq p.1 x := by
  unfold over
  split
  · next h =>
    cases E.up with
    | true => exact (eq_right h x).symm
    | false => rfl
  · rfl

theorem over_key' (k : F) (v : V) (p : F × V) (x : F) : E.Q.eq x (over E k v p).1 = E.Q.eq x p.1 := by
  rw [GoSet.Float.eq_comm, over_key, GoSet.Float.eq_comm]

theorem Has.put (h : Has E l M N) (k : F) (v : V) :
    Has E (put E l k v) (fun x => if E.Q.eq k x then some v else M x) (N ++ nans E [(k, v)]) := by
  unfold Float.put
  by_cases ha : l.any (fun p => E.Q.eq p.1 k) = true
  · rw [if_pos ha]
    obtain ⟨p, hp, hpk⟩ := List.any_eq_true.1 ha
    have hkk : E.Q.eq k k = true := E.Q.trans (E.Q.symm hpk) hpk
    have hwf : (l.map (over E k v)).Pairwise fun p q => E.Q.eq p.1 q.1 = false := by
      rw [List.pairwise_map]
      exact h.wf.imp fun {a b} e => by rw [over_key, over_key']; exact e
    refine ⟨hwf, fun x => ?_, ?_⟩
    · split
      · next hx =>
        rw [get_eq hwf]
        exact ⟨_, List.mem_map.2 ⟨p, hp, rfl⟩, by rw [over_key]; exact E.Q.trans hpk hx, by simp [over, hpk]⟩
      · next hx =>
        rw [← h.vals x]
        have key : ∀ p : F × V, E.Q.eq p.1 x = true → over E k v p = p := by
          intro p hp
          have : E.Q.eq p.1 k = false := by
            rw [Bool.eq_false_iff]; intro e
            exact hx (E.Q.trans (E.Q.symm e) hp)
          simp [over, this]
        cases e : get E l x with
        | none =>
          rw [get_none] at e ⊢
          intro q hq
          obtain ⟨p, hp, rfl⟩ := List.mem_map.1 hq
          rw [over_key]; exact e p hp
        | some w =>
          rw [get_eq h.wf] at e
          rw [get_eq hwf]
          obtain ⟨q, h1, h2, h3⟩ := e
          exact ⟨q, List.mem_map.2 ⟨q, h1, key q h2⟩, h2, h3⟩
    · have h1 : nans E [(k, v)] = [] := by simp [nans, hkk]
      have h2 : nans E (l.map (over E k v)) = nans E l := by
        unfold nans
        rw [List.filter_map]
        have : ((fun p : F × V => !E.Q.eq p.1 p.1) ∘ over E k v) = fun p => !E.Q.eq p.1 p.1 := by
          funext p; simp [over_key, over_key']
        rw [this]
        conv => rhs; rw [← List.map_id (l.filter fun p => !E.Q.eq p.1 p.1)]
        apply List.map_congr_left
        intro p hp
        have hn : E.Q.eq p.1 p.1 = false := by simpa using (List.mem_filter.1 hp).2
        simp [over, nanl hn]
      rw [h1, h2, List.append_nil]; exact h.nan
  · rw [if_neg ha]
    have hno : ∀ p ∈ l, E.Q.eq p.1 k = false := by
      intro p hp
      rw [Bool.eq_false_iff]
      exact fun e => ha (List.any_eq_true.2 ⟨p, hp, e⟩)
    have hwf : (l ++ [(k, v)]).Pairwise fun p q => E.Q.eq p.1 q.1 = false := by
      refine List.pairwise_append.2 ⟨h.wf, List.pairwise_singleton _ _, ?_⟩
      intro a ha b hb
      rw [List.mem_singleton.1 hb]; exact hno a ha
    refine ⟨hwf, fun x => ?_, ?_⟩
    · show get E (l ++ [(k, v)]) x = _
      unfold get
      rw [List.find?_append]
      split
      · next hx =>
        have : (l.find? fun p => E.Q.eq p.1 x) = none := by
          rw [List.find?_eq_none]
          intro p hp
          rw [← eq_left hx]; simp [hno p hp]
        rw [this]
        simp [hx]
      · next hx =>
        have := h.vals x
        unfold get at this
        rw [← this]
        simp [hx]
    · unfold nans
      rw [List.filter_append]
      exact h.nan.append_right _

/-- Leaving out entries, none of them a NaN. -/
theorem Has.filter (h : Has E l M N) (p : F × V → Bool) (hp : ∀ q ∈ l, E.Q.eq q.1 q.1 = false → p q = true)
    (hM : ∀ x, ∀ q ∈ l, E.Q.eq q.1 x = true → M' x = if p q then M x else none) (hM0 : ∀ x, M x = none → M' x = none) : Has E (l.filter p) M' N := by
  have hwf := h.wf.filter p
  refine ⟨hwf, fun x => ?_, ?_⟩
  · cases e : get E l x with
    | none =>
      rw [hM0 x (by rw [← h.vals x]; exact e)]
      rw [get_none] at e ⊢
      exact fun q hq => e q (List.mem_filter.1 hq).1
    | some v =>
      have hx := h.vals x
      rw [e] at hx
      rw [get_eq h.wf] at e
      obtain ⟨q, h1, h2, h3⟩ := e
      rw [hM x q h1 h2]
      split
      · next hpq => rw [← hx, get_eq hwf]; exact ⟨q, List.mem_filter.2 ⟨h1, hpq⟩, h2, h3⟩
      · next hpq =>
        rw [get_none]
        intro r hr
        obtain ⟨h4, h5⟩ := List.mem_filter.1 hr
        rw [Bool.eq_false_iff]
        intro h6
        have hrq : r = q := uniq h.wf h4 h1 (E.Q.trans h6 (E.Q.symm h2))
        exact hpq (hrq ▸ h5)
  · unfold nans
    rw [List.filter_filter]
    have : (l.filter fun q => !E.Q.eq q.1 q.1 && p q) = l.filter fun q => !E.Q.eq q.1 q.1 := by
      apply List.filter_congr
      intro q hq
      cases e : E.Q.eq q.1 q.1 with
      | true => rfl
      | false => simp [hp q hq e]
    rw [this]; exact h.nan

theorem Has.del (h : Has E l M N) (k : F) : Has E (del E l k) (fun x => if E.Q.eq k x then none else M x) N := by
  refine h.filter _ (fun q _ hq => by simp [nanl hq]) (fun x q _ hq => ?_) (fun x hx => by simp [hx])
  have : E.Q.eq q.1 k = E.Q.eq k x := by rw [GoSet.Float.eq_comm k x]; exact eq_right hq k
  rw [this]
  cases E.Q.eq k x <;> rfl

/-- A loop that deletes keys. -/
theorem fold_del (f : F → V → Bool) : ∀ (es l : List (F × V)), es.foldl (fun l p => if f p.1 p.2 then del E l p.1 else l) l =
    l.filter fun q => !es.any fun p => f p.1 p.2 && E.Q.eq q.1 p.1
  | [], l => by simp
  | p :: es, l => by
    rw [List.foldl_cons, fold_del f es]
    split
    · next h =>
      rw [del, List.filter_filter]
      congr 1
      funext q
      simp [h, Bool.and_comm]
    · next h =>
      congr 1
      funext q
      simp [h]

theorem Has.deleteFunc (h : Has E l M N) (f : F → V → Bool) (hf : ∀ a b v, E.Q.eq a b = true → f a v = f b v) :
    Has E (deleteFunc E ω l f) (fun x => (M x).filter fun v => !f x v) N := by
  unfold Float.deleteFunc
  rw [fold_del]
  refine h.filter _ ?_ ?_ (fun x hx => by simp [hx])
  · intro q _ hq
    simp [nanl hq]
  · intro x q hq hqx
    have hM : M x = some q.2 := by rw [← h.vals x, get_eq h.wf]; exact ⟨q, hq, hqx, rfl⟩
    have : ((ω.f l).any fun p => f p.1 p.2 && E.Q.eq q.1 p.1) = f q.1 q.2 := by
      rw [Bool.eq_iff_iff, List.any_eq_true]
      constructor
      · rintro ⟨p, hp, e⟩
        rw [Bool.and_eq_true] at e
        have hpq : p = q := uniq h.wf ((ω.perm l).mem_iff.1 hp) hq (E.Q.symm e.2)
        exact hpq ▸ e.1
      · intro e
        exact ⟨q, (ω.perm l).mem_iff.2 hq, by rw [e, E.Q.trans hqx (E.Q.symm hqx)]; rfl⟩
    rw [this, hM, hf q.1 x q.2 hqx]
    cases e : f x q.2 <;> simp [Option.filter, e]

theorem Has.clear (h : Has E l M N) : Has E (clear E ω l) (fun _ => none) (if E.old then N else []) := by
  unfold Float.clear
  cases E.old with
  | false => exact ⟨.nil, fun _ => rfl, .refl _⟩
  | true =>
    have := h.deleteFunc (ω := ω) (fun _ _ => true) (fun _ _ _ _ => rfl)
    unfold Float.deleteFunc at this
    exact this.congr (fun x => by cases M x <;> rfl) (.refl _)

theorem Has.fold (h : Has E l M N) (hes : es.Pairwise fun p q => E.Q.eq p.1 q.1 = false) :
    Has E (es.foldl (fun l p => Float.put E l p.1 p.2) l) (fun x => (get E es x).or (M x)) (N ++ nans E es) := by
  induction es generalizing l M N with
  | nil => exact h.congr (fun x => rfl) (by simp [nans])
  | cons p es ih =>
    obtain ⟨h1, h2⟩ := List.pairwise_cons.1 hes
    refine (ih (h.put p.1 p.2) h2).congr (fun x => ?_) ?_
    · cases e : E.Q.eq p.1 x with
      | true =>
        have h3 : get E es x = none := get_none.2 fun q hq => by
          rw [← eq_left e, GoSet.Float.eq_comm]; exact h1 q hq
        have h4 : get E (p :: es) x = some p.2 := by simp [get, e]
        simp [h3, h4]
      | false =>
        have h4 : get E (p :: es) x = get E es x := by simp [get, e]
        simp [h4]
    · rw [List.append_assoc]
      have : nans E (p :: es) = nans E [p] ++ nans E es := by
        unfold nans; rw [← List.filter_append]; rfl
      rw [this]

theorem Has.nil : Has E ([] : List (F × V)) (fun _ => none) [] := ⟨.nil, fun _ => rfl, .refl _⟩

theorem Has.copy (h : Has E l M N) (h' : Has E t M' N') : Has E (copy E ω l t) (fun x => (M' x).or (M x)) (N ++ N') := by
  have ht := h'.perm (ω.perm t).symm
  exact (h.fold ht.wf).congr (fun x => by rw [ht.vals]) (ht.nan.append_left _)

theorem contain_keys {k : F} : GoSet.Float.contain E.Q (l.map (·.1)) k = true ↔ get E l k ≠ none := by
  rw [GoSet.Float.contain_iff, ne_eq, get_none]
  simp

theorem nans_keys : GoSet.Float.nans E.Q (l.map (·.1)) = (nans E l).map (·.1) := by
  unfold GoSet.Float.nans nans
  rw [List.filter_map]; rfl

theorem Has.keys_has (h : Has E l M N) : GoSet.Float.Has E.Q (l.map (·.1)) (fun k => M k ≠ none) (N.map (·.1)) := by
  refine ⟨?_, fun k => by rw [contain_keys, h.vals], ?_⟩
  · unfold GoSet.Float.WF; rw [List.pairwise_map]; exact h.wf
  · rw [nans_keys]; exact h.nan.map _

theorem Has.equalFunc (h : Has E l M N) (h' : Has E t M' N') (eq : V → V → Bool) : Float.equalFunc E ω l t eq = true ↔
    N = [] ∧ N' = [] ∧ (∀ k, M k = none ↔ M' k = none) ∧ ∀ k v v', M k = some v → M' k = some v' → eq v v' = true := by
  have w := (GoSet.Float.C121_float (ω := ⟨id, fun _ => .refl _⟩) h.keys_has).equal _ _ _ h'.keys_has
  have hE : Float.equalFunc E ω l t eq = true ↔ GoSet.Float.equal E.Q ⟨id, fun _ => .refl _⟩ (l.map (·.1)) (t.map (·.1)) = true ∧
      ∀ p ∈ l, ∀ v, get E t p.1 = some v → eq p.2 v = true := by
    unfold Float.equalFunc GoSet.Float.equal GoSet.Float.len
    rw [List.length_map, List.length_map]
    by_cases hl : l.length = t.length
    · rw [if_pos hl, if_pos hl, List.all_eq_true, List.all_eq_true]
      constructor
      · intro hh
        refine ⟨?_, ?_⟩
        · intro k hk
          obtain ⟨p, hp, rfl⟩ := List.mem_map.1 hk
          rw [contain_keys]
          have := hh p ((ω.perm l).mem_iff.2 hp)
          intro e; rw [e] at this; cases this
        · intro p hp v hv
          have := hh p ((ω.perm l).mem_iff.2 hp)
          rw [hv] at this; exact this
      · rintro ⟨h1, h2⟩ p hp
        have hp := (ω.perm l).mem_iff.1 hp
        have h3 := h1 p.1 (List.mem_map.2 ⟨p, hp, rfl⟩)
        rw [contain_keys] at h3
        obtain ⟨v, hv⟩ := Option.ne_none_iff_exists'.1 h3
        rw [hv]; exact h2 p hp v hv
    · rw [if_neg hl, if_neg hl]; simp
  rw [hE, w]
  simp only [List.map_eq_nil_iff, ne_eq, not_iff_not]
  constructor
  · rintro ⟨⟨h1, h2, h3⟩, h4⟩
    refine ⟨h1, h2, h3, ?_⟩
    intro k v v' hv hv'
    rw [← h.vals, get_eq h.wf] at hv
    obtain ⟨p, hp, hk, rfl⟩ := hv
    exact h4 p hp v' (by rw [get_congr hk, h'.vals, hv'])
  · rintro ⟨h1, h2, h3, h4⟩
    refine ⟨⟨h1, h2, h3⟩, ?_⟩
    intro p hp v hv
    rw [h'.vals] at hv
    refine h4 p.1 p.2 v ?_ hv
    have hs : E.Q.eq p.1 p.1 = true := by
      cases e : E.Q.eq p.1 p.1 with
      | true => rfl
      | false =>
        have : p ∈ nans E l := List.mem_filter.2 ⟨hp, by simp [e]⟩
        have := h.nan.mem_iff.1 this
        rw [h1] at this; cases this
    rw [← h.vals, get_eq h.wf]
    exact ⟨p, hp, hs, rfl⟩

theorem Has.len (h : Has E l M N) : ∃ ks : List F, (ks.Pairwise fun a b => E.Q.eq a b = false) ∧ (∀ k ∈ ks, E.Q.eq k k = true) ∧
    (∀ k, (∃ k' ∈ ks, E.Q.eq k' k = true) ↔ M k ≠ none) ∧ l.length = ks.length + N.length := by
  refine ⟨(l.filter fun p => E.Q.eq p.1 p.1).map (·.1), ?_, ?_, ?_, ?_⟩
  · rw [List.pairwise_map]; exact h.wf.filter _
  · intro k hk
    obtain ⟨p, hp, rfl⟩ := List.mem_map.1 hk
    exact (List.mem_filter.1 hp).2
  · intro k
    constructor
    · rintro ⟨k', hk', e⟩
      obtain ⟨p, hp, rfl⟩ := List.mem_map.1 hk'
      rw [← h.vals, (get_eq h.wf).2 ⟨p, (List.mem_filter.1 hp).1, e, rfl⟩]
      simp
    · intro e
      obtain ⟨v, hv⟩ := Option.ne_none_iff_exists'.1 e
      rw [← h.vals, get_eq h.wf] at hv
      obtain ⟨p, hp, hk, rfl⟩ := hv
      exact ⟨p.1, List.mem_map.2 ⟨p, List.mem_filter.2 ⟨hp, E.Q.trans hk (E.Q.symm hk)⟩, rfl⟩, hk⟩
  · rw [← h.nan.length_eq, List.length_map]
    unfold nans
    clear * -
    induction l with
    | nil => rfl
    | cons p l ih => by_cases e : E.Q.eq p.1 p.1 = true <;> simp [e] <;> omega

variable [Inhabited V]

theorem Has.read (h : Has E l M N) (k : F) : read E l k = got (M k) := by
  unfold Float.read got
  rw [h.vals k]
  cases M k <;> rfl

/-- **C143**: what maps do for every key type, floats included. -/
theorem C143_float (h : Has E l M N) : Works E ω l M N := by
  have hr := h.read
  have hsame : ∀ k k', E.Q.eq k k' = true → M k = M k' := fun k k' e => by rw [← h.vals, ← h.vals, get_congr e]
  refine ⟨?_, hsame, h.len, hr, h.put, h.del, ?_, ?_, ?_, ?_, ⟨_, h.perm (ω.perm l).symm, rfl⟩, ⟨_, h.perm (ω.perm l).symm, rfl⟩,
    ⟨_, h.perm (ω.perm l).symm, fun _ _ _ => rfl⟩, fun t M' N' eq h' => h.equalFunc h' eq, h.deleteFunc, h.clear, fun t M' N' h' => h.copy h', ?_⟩
  · intro k hk
    rw [← h.vals, get_none]
    intro p _
    rw [GoSet.Float.eq_comm]; exact nanl hk
  · intro k v
    unfold Float.loadOrStore
    rw [hr k]
    cases M k <;> exact ⟨rfl, rfl⟩
  · intro k v
    unfold Float.loadOrStoreFunc
    rw [hr k]
    cases M k <;> exact ⟨rfl, rfl⟩
  · intro k
    unfold Float.loadAndDelete
    rw [hr k]
    cases e : M k with
    | none =>
      refine ⟨rfl, h.congr (fun x => ?_) (.refl _)⟩
      split
      · next hx => rw [← hsame k x hx, e]
      · rfl
    | some v => exact ⟨rfl, h.del k⟩
  · intro k v
    unfold Float.loadAndStore
    rw [hr k]
    exact ⟨rfl, rfl⟩
  · exact (Has.nil.copy (ω := ω) h).congr (fun x => by simp) (by simp)

omit [Inhabited V]

/-- Assigning to an entry what it holds changes nothing. -/
theorem put_same (h : l.Pairwise fun p q => E.Q.eq p.1 q.1 = false) {p : F × V} (hp : p ∈ l) (hs : E.Q.eq p.1 p.1 = true) :
    put E l p.1 p.2 = l := by
  unfold put
  rw [if_pos (List.any_eq_true.2 ⟨p, hp, hs⟩)]
  conv => rhs; rw [← List.map_id l]
  apply List.map_congr_left
  intro q hq
  unfold over
  split
  · next e =>
    have : q = p := uniq h hq hp e
    subst this
    cases E.up <;> rfl
  · rfl

/-- Assigning to a NaN. -/
theorem put_nan {p : F × V} (hs : E.Q.eq p.1 p.1 = false) : put E l p.1 p.2 = l ++ [p] ∧ get E l p.1 = none := by
  have hno : ∀ q ∈ l, E.Q.eq q.1 p.1 = false := fun q _ => by rw [GoSet.Float.eq_comm]; exact nanl hs
  refine ⟨?_, get_none.2 hno⟩
  unfold put
  rw [if_neg]
  simpa using hno

theorem wf_nan {p : F × V} (h : l.Pairwise fun p q => E.Q.eq p.1 q.1 = false) (hs : E.Q.eq p.1 p.1 = false) :
    (l ++ [p]).Pairwise fun p q => E.Q.eq p.1 q.1 = false := by
  refine List.pairwise_append.2 ⟨h, List.pairwise_singleton _ _, ?_⟩
  intro a _ b hb
  rw [List.mem_singleton.1 hb, GoSet.Float.eq_comm]; exact nanl hs

theorem self_sound {todo l l' : List (F × V)} (hc : CopyLoop E todo l l') : (l.Pairwise fun p q => E.Q.eq p.1 q.1 = false) →
    (∀ p ∈ todo, p ∈ l) → ∃ X, l' = l ++ X ∧ (nans E todo).Subperm X ∧ ∀ p ∈ X, p ∈ nans E todo := by
  induction hc with
  | done => exact fun _ _ => ⟨[], by simp, .refl _, by simp⟩
  | @next todo rest l l' p hp hc ih =>
    intro hwf hin
    have hpl := hin p (hp.mem_iff.2 (by simp))
    have hrest : ∀ q ∈ rest, q ∈ l := fun q hq => hin q (hp.mem_iff.2 (by simp [hq]))
    have hn : (nans E todo).Perm (nans E (p :: rest)) := hp.filter _
    cases hs : E.Q.eq p.1 p.1 with
    | true =>
      rw [put_same hwf hpl hs] at ih
      obtain ⟨X, h1, h2, h3⟩ := ih hwf hrest
      have e : nans E (p :: rest) = nans E rest := by simp [nans, hs]
      rw [e] at hn
      exact ⟨X, h1, hn.subperm.trans h2, fun q hq => hn.mem_iff.2 (h3 q hq)⟩
    | false =>
      rw [(put_nan hs).1] at ih
      obtain ⟨X, h1, h2, h3⟩ := ih (wf_nan hwf hs) (fun q hq => by simp [hrest q hq])
      have e : nans E (p :: rest) = p :: nans E rest := by simp [nans, hs]
      rw [e] at hn
      refine ⟨p :: X, by rw [h1]; simp, hn.subperm.trans ((List.subperm_cons p).2 h2), fun q hq => hn.mem_iff.2 ?_⟩
      rcases List.mem_cons.1 hq with rfl | hq
      · simp
      · simp [h3 q hq]
  | @again todo rest l l' p hp hg hc ih =>
    intro hwf hin
    have hpl := hin p (hp.mem_iff.2 (by simp))
    have hrest : ∀ q ∈ rest, q ∈ l := fun q hq => hin q (hp.mem_iff.2 (by simp [hq]))
    have hn : (nans E todo).Perm (nans E (p :: rest)) := hp.filter _
    have hs : E.Q.eq p.1 p.1 = false := get_none.1 hg p hpl
    rw [(put_nan hs).1] at ih
    obtain ⟨X, h1, h2, h3⟩ := ih (wf_nan hwf hs) (fun q hq => by
      rcases List.mem_cons.1 hq with rfl | hq
      · simp
      · simp [hrest q hq])
    refine ⟨p :: X, by rw [h1]; simp, hn.subperm.trans (h2.trans (List.sublist_cons_self _ _).subperm), fun q hq => hn.mem_iff.2 ?_⟩
    rcases List.mem_cons.1 hq with rfl | hq
    · exact List.mem_filter.2 ⟨by simp, by simp [hs]⟩
    · exact h3 q hq

theorem self_complete : ∀ (todo l Y : List (F × V)), (l.Pairwise fun p q => E.Q.eq p.1 q.1 = false) → (∀ p ∈ todo, p ∈ l) →
    (∀ p ∈ Y, p ∈ nans E todo) → ∃ X, CopyLoop E todo l (l ++ X) ∧ X.Perm (nans E todo ++ Y)
  | [], l, Y, _, _, hY => by
    cases Y with
    | nil => exact ⟨[], by rw [List.append_nil]; exact .done, by simp [nans]⟩
    | cons p Y => have := hY p (by simp); simp [nans] at this
  | p :: todo, l, Y, hwf, hin, hY => by
    classical
    have hpl := hin p (by simp)
    have hrest : ∀ q ∈ todo, q ∈ l := fun q hq => hin q (by simp [hq])
    cases hs : E.Q.eq p.1 p.1 with
    | true =>
      have e : nans E (p :: todo) = nans E todo := by simp [nans, hs]
      rw [e] at hY ⊢
      obtain ⟨X, h1, h2⟩ := self_complete todo l Y hwf hrest hY
      exact ⟨X, .next (.refl _) (by rw [put_same hwf hpl hs]; exact h1), h2⟩
    | false =>
      have e : nans E (p :: todo) = p :: nans E todo := by simp [nans, hs]
      rw [e] at hY ⊢
      have hY2 : ∀ q ∈ Y.filter (fun q => decide (q ≠ p)), q ∈ nans E todo := by
        intro q hq
        obtain ⟨h1, h2⟩ := List.mem_filter.1 hq
        rcases List.mem_cons.1 (hY q h1) with rfl | h
        · simp at h2
        · exact h
      have hsplit : Y.Perm (List.replicate (Y.count p) p ++ Y.filter fun q => decide (q ≠ p)) := by
        have h1 := List.filter_append_perm (fun q => decide (q = p)) Y
        have h2 : (Y.filter fun q => decide (q = p)) = List.replicate (Y.count p) p := by
          rw [List.eq_replicate_iff]
          refine ⟨?_, fun q hq => by simpa using (List.mem_filter.1 hq).2⟩
          rw [List.count_eq_length_filter]
          congr 1
          apply List.filter_congr
          intro q _
          rw [Bool.eq_iff_iff]; simp
        rw [h2] at h1
        refine h1.symm.trans (List.Perm.append_left _ ?_)
        have : (fun q => !decide (q = p)) = fun q => decide (q ≠ p) := by funext q; simp
        rw [this]
      have loop : ∀ n (l : List (F × V)), (l.Pairwise fun p q => E.Q.eq p.1 q.1 = false) → (∀ q ∈ todo, q ∈ l) →
          ∃ X, CopyLoop E (p :: todo) l (l ++ X) ∧ X.Perm (p :: (nans E todo ++ (List.replicate n p ++ Y.filter fun q => decide (q ≠ p)))) := by
        intro n
        induction n with
        | zero =>
          intro l hwf hrest
          obtain ⟨X, h1, h2⟩ := self_complete todo (l ++ [p]) _ (wf_nan hwf hs) (fun q hq => by simp [hrest q hq]) hY2
          refine ⟨p :: X, .next (.refl _) ?_, by simpa using h2⟩
          rw [(put_nan hs).1]
          simpa using h1
        | succ n ih =>
          intro l hwf hrest
          obtain ⟨X, h1, h2⟩ := ih (l ++ [p]) (wf_nan hwf hs) (fun q hq => by simp [hrest q hq])
          refine ⟨p :: X, .again (.refl _) (put_nan hs).2 ?_, ?_⟩
          · rw [(put_nan hs).1]
            simpa using h1
          · refine (h2.cons p).trans (List.Perm.cons p ?_)
            rw [List.replicate_succ, List.cons_append]
            exact List.perm_middle.symm
      obtain ⟨X, h1, h2⟩ := loop (Y.count p) l hwf hrest
      refine ⟨X, h1, h2.trans ?_⟩
      rw [List.cons_append]
      exact List.Perm.cons p (hsplit.symm.append_left _)

/-- C143: `m.CopyFrom(m)` adds copies of the NaN entries, each at least once. -/
theorem C143_self (h : Has E l M N) {l' : List (F × V)} (hc : CopyLoop E l l l') :
    ∃ X, Has E l' M (N ++ X) ∧ N.Subperm X ∧ ∀ p ∈ X, p ∈ N := by
  obtain ⟨X, rfl, h2, h3⟩ := self_sound hc h.wf fun _ => id
  have h3' : ∀ p ∈ X, p ∈ N := fun p hp => h.nan.mem_iff.1 (h3 p hp)
  have hX : ∀ p ∈ X, E.Q.eq p.1 p.1 = false := fun p hp => by simpa using (List.mem_filter.1 (h3 p hp)).2
  refine ⟨X, ⟨?_, fun k => ?_, ?_⟩, h.nan.symm.subperm.trans h2, h3'⟩
  · refine List.pairwise_append.2 ⟨h.wf, ?_, ?_⟩
    · exact List.Pairwise.imp_of_mem (R := fun _ _ => True) (fun {a b} ha _ _ => nanl (hX a ha)) (List.pairwise_of_forall fun _ _ => trivial)
    · intro a _ b hb; rw [GoSet.Float.eq_comm]; exact nanl (hX b hb)
  · rw [← h.vals k]
    unfold get
    rw [List.find?_append]
    have : (X.find? fun p => E.Q.eq p.1 k) = none := by
      rw [List.find?_eq_none]; intro p hp; simp [nanl (hX p hp)]
    rw [this, Option.or_none]
  · have e : nans E X = X := List.filter_eq_self.2 fun p hp => by simp [hX p hp]
    have : nans E (l ++ X) = nans E l ++ nans E X := List.filter_append _ _
    rw [this, e]
    exact h.nan.append_right X

/-- C143: and every number of further copies is possible: nothing bounds how long it runs. -/
theorem C143_self_any (h : Has E l M N) (Y : List (F × V)) (hY : ∀ p ∈ Y, p ∈ N) :
    ∃ X, CopyLoop E l l (l ++ X) ∧ X.Perm (N ++ Y) := by
  obtain ⟨X, h1, h2⟩ := self_complete l l Y h.wf (fun _ => id) fun p hp => h.nan.mem_iff.2 (hY p hp)
  exact ⟨X, h1, h2.trans (h.nan.append_right Y)⟩

/-- C143: without NaNs it changes nothing. -/
theorem C143_self_same (h : Has E l M []) {l' : List (F × V)} (hc : CopyLoop E l l l') : l' = l := by
  obtain ⟨X, rfl, _, h3⟩ := self_sound hc h.wf fun _ => id
  cases X with
  | nil => simp
  | cons p X =>
    have := h.nan.mem_iff.1 (h3 p (by simp))
    cases this

/-- C143: a map is equal to itself, and to its clone, exactly if no key is a NaN. -/
theorem C143_equal (h : Has E l M N) (eq : V → V → Bool) (heq : ∀ v, eq v v = true) :
    (equalFunc E ω l l eq = true ↔ N = []) ∧ (equalFunc E ω l (clone E ω l) eq = true ↔ N = []) := by
  have hc : Has E (clone E ω l) M N := (Has.nil.copy (ω := ω) h).congr (fun x => by simp) (by simp)
  refine ⟨?_, ?_⟩
  · rw [h.equalFunc h]
    exact ⟨fun h => h.1, fun e => ⟨e, e, fun _ => Iff.rfl, fun k v v' h1 h2 => by rw [h1] at h2; cases h2; exact heq v⟩⟩
  · rw [h.equalFunc hc]
    exact ⟨fun h => h.1, fun e => ⟨e, e, fun _ => Iff.rfl, fun k v v' h1 h2 => by rw [h1] at h2; cases h2; exact heq v⟩⟩

end Verif.GenMap.Float

/-! ### Examples -/

namespace Verif.GenMap.Float
section Examples
open Verif.GoSet.Float (Fl flEq)

/-- Go as it is: keys are replaced; the old and the new `maps.Clear`. -/
def env (old : Bool) : Env Fl := ⟨flEq, true, old⟩
def back : Order Fl Nat := ⟨List.reverse, List.reverse_perm⟩
def ex : List (Fl × Nat) := store (env true) (store (env true) (store (env true) (store (env true) [] .nan 1) (.num 0) 2) .nan 3) .negZero 4

example : ex = [(.nan, 1), (.negZero, 4), (.nan, 3)] := rfl
example : load (env true) ex (.num 0) = (4, true) ∧ load (env true) ex .nan = (0, false) := ⟨rfl, rfl⟩
example : delete (env true) ex .nan = ex ∧ loadOrStore (env true) ex .nan 9 = (ex ++ [(.nan, 9)], 0, false) := ⟨rfl, rfl⟩
example : clear (env true) back ex = [(.nan, 1), (.nan, 3)] ∧ clear (env false) back ex = [] := ⟨rfl, rfl⟩
example : deleteFunc (env true) back ex (fun _ _ => true) = [(.nan, 1), (.nan, 3)] := rfl
example : equalFunc (env true) back ex ex (· == ·) = false ∧ clone (env true) back ex = [(.nan, 3), (.negZero, 4), (.nan, 1)] := ⟨rfl, rfl⟩
example : Has (env true) ex (fun k => if flEq.eq .negZero k then some 4 else none) [(.nan, 3), (.nan, 1)] :=
  ⟨by simp [ex, store, put, over, env, flEq, Fl.eq], fun k => by cases k with
    | num n => cases n <;> rfl
    | negZero => rfl
    | nan => rfl, List.Perm.swap _ _ _⟩
example : CopyLoop (env true) [(.nan, 1)] [(.nan, 1)] [(.nan, 1), (.nan, 1), (.nan, 1)] := .again (.refl _) rfl (.next (.refl _) .done)
end Examples

end Verif.GenMap.Float
