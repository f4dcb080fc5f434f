import Mathlib.Data.List.Perm.Subperm
/-!
# Go maps

A Go `map[K]V` value is `nil` or a reference to a mutable finite map.  The contents of a map is
modelled by an association list without duplicate keys.  `range` visits the entries in an order
chosen by an oracle that may be any permutation, different for every `range` statement executed.
Simplification: keys are compared with a lawful equality (so no NaN keys, no panicking `==`).
-/
namespace Verif

section assoc
variable {K V : Type} [DecidableEq K]

/-- `v, ok := m[k]`. -/
def aget : List (K × V) → K → Option V
  | [], _ => none
  | (a, v) :: m, k => if a = k then some v else aget m k

/-- `m[k] = v`. -/
def aput : List (K × V) → K → V → List (K × V)
  | [], k, v => [(k, v)]
  | (a, w) :: m, k, v => if a = k then (k, v) :: m else (a, w) :: aput m k v

/-- `delete(m, k)`. -/
def adel (m : List (K × V)) (k : K) : List (K × V) := m.filter fun p => p.1 ≠ k

/-- No key occurs twice. -/
def AWF (m : List (K × V)) : Prop := (m.map (·.1)).Nodup

theorem aget_aput (m : List (K × V)) (k k' : K) (v : V) :
    aget (aput m k v) k' = if k = k' then some v else aget m k' := by
  induction m with
  | nil => simp [aput, aget]
  | cons p m ih =>
    obtain ⟨a, w⟩ := p
    by_cases h : a = k
    · subst h; by_cases h' : a = k' <;> simp [aput, aget, h']
    · by_cases h' : a = k'
      · subst h'; simp [aput, aget, h, Ne.symm h]
      · simp [aput, aget, h, h', ih]

theorem aget_adel (m : List (K × V)) (k k' : K) :
    aget (adel m k) k' = if k = k' then none else aget m k' := by
  induction m with
  | nil => simp [adel, aget]
  | cons p m ih =>
    obtain ⟨a, w⟩ := p
    simp only [adel, List.filter_cons] at ih ⊢
    by_cases h : a = k
    · subst h; by_cases h' : a = k'
      · subst h'; simpa using ih
      · simp [aget, h'] at ih ⊢; exact ih
    · by_cases h' : a = k'
      · subst h'; simp [aget, h, Ne.symm h]
      · simp [aget, h, h']; simpa using ih

theorem aget_eq_none {m : List (K × V)} {k : K} : aget m k = none ↔ k ∉ m.map (·.1) := by
  induction m with
  | nil => simp [aget]
  | cons p m ih =>
    obtain ⟨a, w⟩ := p
    by_cases h : a = k
    · simp [aget, h]
    · simp only [aget, h, if_false, ih, List.map_cons, List.mem_cons]
      simp [Ne.symm h]

theorem aget_isSome {m : List (K × V)} {k : K} : (aget m k).isSome ↔ k ∈ m.map (·.1) := by
  have := aget_eq_none (m := m) (k := k)
  cases h : aget m k with
  | none => simp [h] at this ⊢; exact this
  | some v => simp [h] at this ⊢; exact this

theorem mem_of_aget {m : List (K × V)} {k : K} {v : V} (h : aget m k = some v) : (k, v) ∈ m := by
  induction m with
  | nil => simp [aget] at h
  | cons p m ih =>
    obtain ⟨a, w⟩ := p
    by_cases h' : a = k
    · simp [aget, h'] at h; simp [h', h]
    · simp [aget, h'] at h; exact List.mem_cons_of_mem _ (ih h)

theorem aget_of_mem {m : List (K × V)} (hw : AWF m) {k : K} {v : V} (h : (k, v) ∈ m) :
    aget m k = some v := by
  induction m with
  | nil => simp at h
  | cons p m ih =>
    obtain ⟨a, w⟩ := p
    simp only [AWF, List.map_cons, List.nodup_cons] at hw
    rcases List.mem_cons.1 h with h | h
    · injection h with h1 h2; subst h1; subst h2; simp [aget]
    · have : a ≠ k := by
        rintro rfl; exact hw.1 (List.mem_map.2 ⟨_, h, rfl⟩)
      simp only [aget, this, if_false]; exact ih hw.2 h

theorem mem_iff_aget {m : List (K × V)} (hw : AWF m) {k : K} {v : V} :
    (k, v) ∈ m ↔ aget m k = some v := ⟨aget_of_mem hw, mem_of_aget⟩

theorem keys_aput (m : List (K × V)) (k : K) (v : V) :
    (aput m k v).map (·.1) = if k ∈ m.map (·.1) then m.map (·.1) else m.map (·.1) ++ [k] := by
  induction m with
  | nil => simp [aput]
  | cons p m ih =>
    obtain ⟨a, w⟩ := p
    by_cases h : a = k
    · subst h; simp [aput]
    · simp only [aput, h, if_false, List.map_cons, ih, List.mem_cons]
      by_cases h2 : k ∈ m.map (·.1)
      · simp [h2]
      · simp [h2, Ne.symm h]

theorem awf_aput {m : List (K × V)} (hw : AWF m) (k : K) (v : V) : AWF (aput m k v) := by
  unfold AWF; rw [keys_aput]
  split
  · exact hw
  · next h =>
    rw [List.nodup_append]
    refine ⟨hw, by simp, ?_⟩
    intro a ha b hb
    simp at hb; subst hb
    exact fun e => h (e ▸ ha)

theorem awf_adel {m : List (K × V)} (hw : AWF m) (k : K) : AWF (adel m k) :=
  List.Nodup.sublist (List.Sublist.map _ List.filter_sublist) hw

theorem awf_nil : AWF ([] : List (K × V)) := List.nodup_nil

theorem awf_perm {m m' : List (K × V)} (h : m'.Perm m) (hw : AWF m) : AWF m' :=
  (h.map _).nodup_iff.2 hw

theorem aget_perm {m m' : List (K × V)} (h : m'.Perm m) (hw : AWF m) (k : K) :
    aget m' k = aget m k := by
  have hw' := awf_perm h hw
  cases e : aget m k with
  | none =>
    rw [aget_eq_none] at e ⊢
    intro hc; exact e ((h.map _).mem_iff.1 hc)
  | some v => rw [← mem_iff_aget hw', h.mem_iff, mem_iff_aget hw]; exact e

theorem length_aput {m : List (K × V)} (k : K) (v : V) :
    (aput m k v).length = if (aget m k).isSome then m.length else m.length + 1 := by
  have := congrArg List.length (keys_aput m k v)
  simp only [List.length_map] at this
  rw [this]
  by_cases h : k ∈ m.map (·.1)
  · rw [if_pos h, if_pos (aget_isSome.2 h)]; simp
  · rw [if_neg h, if_neg (by rw [aget_isSome]; exact h)]; simp

theorem length_adel {m : List (K × V)} (hw : AWF m) (k : K) :
    (adel m k).length = if (aget m k).isSome then m.length - 1 else m.length := by
  induction m with
  | nil => simp [adel, aget]
  | cons p m ih =>
    obtain ⟨a, w⟩ := p
    simp only [AWF, List.map_cons, List.nodup_cons] at hw
    have ih := ih hw.2
    by_cases h : a = k
    · subst h
      have : (aget m a).isSome = false := by
        have := aget_eq_none.2 hw.1; rw [this]; rfl
      rw [this] at ih
      simp [adel] at ih
      simp [adel, aget]
      exact ih
    · have h1 : adel ((a, w) :: m) k = (a, w) :: adel m k := by simp [adel, h]
      have h2 : aget ((a, w) :: m) k = aget m k := by simp [aget, h]
      rw [h1, h2, List.length_cons, ih]
      split
      · next hs =>
        have : 0 < m.length := by
          cases m with
          | nil => simp [aget] at hs
          | cons => simp
        simp; omega
      · rfl

/-- Two maps with the same bindings have equal lengths. -/
theorem awf_ext_perm {m m' : List (K × V)} (hw : AWF m) (hw' : AWF m')
    (h : ∀ k, aget m k = aget m' k) : m.Perm m' := by
  have nd : ∀ {l : List (K × V)}, AWF l → l.Nodup := fun hl =>
    List.Pairwise.of_map _ (fun _ _ h e => h (congrArg _ e)) hl
  rw [List.perm_ext_iff_of_nodup (nd hw) (nd hw')]
  rintro ⟨k, v⟩
  rw [mem_iff_aget hw, mem_iff_aget hw', h]
end assoc

/-! ## Memory of maps -/

/-- All maps of a program, by reference. -/
structure MMem (K V : Type) where
  maps : Nat → List (K × V)
  /-- next free reference -/
  fresh : Nat
  /-- number of `range` statements executed, the argument of the oracle -/
  tick : Nat

/-- Iteration orders: any permutation, for every `range` statement. -/
structure Oracle (K V : Type) where
  order : Nat → List (K × V) → List (K × V)
  perm : ∀ n l, (order n l).Perm l

section mem
variable {K V : Type} [DecidableEq K]

def MMem.empty : MMem K V := { maps := fun _ => [], fresh := 0, tick := 0 }

/-- A map value: `none` is `nil`. -/
abbrev MRef := Option Nat

/-- The contents of a map value; a nil map reads as empty. -/
def MMem.at (m : MMem K V) : MRef → List (K × V)
  | none => []
  | some a => m.maps a

/-- `make(map[K]V)`. -/
def MMem.make (m : MMem K V) : MMem K V × MRef :=
  ({ m with maps := fun x => if x = m.fresh then [] else m.maps x, fresh := m.fresh + 1 },
   some m.fresh)

/-- Replace the contents. -/
def MMem.upd (m : MMem K V) (a : Nat) (l : List (K × V)) : MMem K V :=
  { m with maps := fun x => if x = a then l else m.maps x }

/-- `m[k] = v`; assigning to a nil map panics. -/
def MMem.store (m : MMem K V) (r : MRef) (k : K) (v : V) : Option (MMem K V) :=
  match r with
  | none => none
  | some a => some (m.upd a (aput (m.maps a) k v))

/-- `delete(m, k)`; a no-op on a nil map. -/
def MMem.delete (m : MMem K V) (r : MRef) (k : K) : MMem K V :=
  match r with
  | none => m
  | some a => m.upd a (adel (m.maps a) k)

/-- The entries in the order in which a `range` statement visits them. -/
def MMem.range (ω : Oracle K V) (m : MMem K V) (r : MRef) : MMem K V × List (K × V) :=
  ({ m with tick := m.tick + 1 }, ω.order m.tick (m.at r))

/-- `maps.Copy(dst, src)` (golang.org/x/exp/maps): `for k, v := range src { dst[k] = v }`.  When
`dst` and `src` are the same map, only existing keys are assigned, so visiting the entries present
at the start is exact. -/
def MMem.copy (ω : Oracle K V) (m : MMem K V) (dst src : MRef) : Option (MMem K V) :=
  let (m, es) := m.range ω src
  es.foldlM (fun m p => m.store dst p.1 p.2) m

/-- `maps.Clear(m)` (golang.org/x/exp/maps): `for k := range m { delete(m, k) }`. -/
def MMem.clearMap (ω : Oracle K V) (m : MMem K V) (r : MRef) : MMem K V :=
  let (m, es) := m.range ω r
  es.foldl (fun m p => m.delete r p.1) m

/-- `maps.Clone(m)` (golang.org/x/exp/maps): nil stays nil, otherwise a new map with the same
entries. -/
def MMem.clone (ω : Oracle K V) (m : MMem K V) (r : MRef) : Option (MMem K V × MRef) :=
  match r with
  | none => some (m, none)
  | some _ =>
    let (m, n) := m.make
    let (m, es) := m.range ω r
    do
      let m ← es.foldlM (fun m p => m.store n p.1 p.2) m
      some (m, n)

/-- `maps.EqualFunc(m1, m2, eq)` (golang.org/x/exp/maps): lengths, then every entry of `m1` is
looked up in `m2`, returning at the first mismatch. -/
def MMem.equalFunc (ω : Oracle K V) (m : MMem K V) (r1 r2 : MRef) (eq : V → V → Bool) :
    MMem K V × Bool :=
  if (m.at r1).length ≠ (m.at r2).length then (m, false)
  else
    let (m, es) := m.range ω r1
    (m, es.all fun p => match aget (m.at r2) p.1 with
      | none => false
      | some v2 => eq p.2 v2)

/-- `maps.Keys` (golang.org/x/exp/maps). -/
def MMem.keys (ω : Oracle K V) (m : MMem K V) (r : MRef) : MMem K V × List K :=
  let (m, es) := m.range ω r
  (m, es.map (·.1))

/-- `maps.Values` (golang.org/x/exp/maps). -/
def MMem.values (ω : Oracle K V) (m : MMem K V) (r : MRef) : MMem K V × List V :=
  let (m, es) := m.range ω r
  (m, es.map (·.2))

/-- `maps.DeleteFunc(m, del)` (golang.org/x/exp/maps). -/
def MMem.deleteFunc (ω : Oracle K V) (m : MMem K V) (r : MRef) (f : K → V → Bool) : MMem K V :=
  let (m, es) := m.range ω r
  es.foldl (fun m p => if f p.1 p.2 then m.delete r p.1 else m) m

/-- Well-formed memory: no duplicate keys, nothing beyond the allocation pointer. -/
structure MMem.WF (m : MMem K V) : Prop where
  wf : ∀ a, AWF (m.maps a)
  unalloc : ∀ a, m.fresh ≤ a → m.maps a = []

/-- A reference is allocated (or nil). -/
def MMem.Ok (m : MMem K V) : MRef → Prop
  | none => True
  | some a => a < m.fresh

theorem MMem.WF.at_wf {m : MMem K V} (h : m.WF) (r : MRef) : AWF (m.at r) := by
  cases r with
  | none => exact awf_nil
  | some a => exact h.wf a

theorem MMem.WF.empty : (MMem.empty : MMem K V).WF := ⟨fun _ => awf_nil, fun _ _ => rfl⟩

theorem MMem.WF.upd {m : MMem K V} (h : m.WF) {a : Nat} (ha : a < m.fresh) {l : List (K × V)}
    (hl : AWF l) : (m.upd a l).WF := by
  refine ⟨fun b => ?_, fun b hb => ?_⟩
  · simp only [MMem.upd]; split
    · exact hl
    · exact h.wf b
  · simp only [MMem.upd]
    have : b ≠ a := by rintro rfl; exact absurd hb (Nat.not_le.2 ha)
    simp only [this, if_false]; exact h.unalloc b hb

theorem MMem.WF.make {m : MMem K V} (h : m.WF) : m.make.1.WF := by
  refine ⟨fun b => ?_, fun b hb => ?_⟩
  · simp only [MMem.make]; split
    · exact awf_nil
    · exact h.wf b
  · simp only [MMem.make] at hb ⊢
    split
    · rfl
    · exact h.unalloc b (by omega)

theorem MMem.WF.tick {m : MMem K V} (h : m.WF) (t : Nat) : ({ m with tick := t } : MMem K V).WF :=
  ⟨h.wf, h.unalloc⟩

/-! ### Effects of the `maps` functions -/

/-- `m'` is `m` except that the map `a` now has the bindings `g`. -/
structure MMem.Sets (m : MMem K V) (a : Nat) (g : K → Option V) (m' : MMem K V) : Prop where
  wf : m'.WF
  fresh : m'.fresh = m.fresh
  other : ∀ b, b ≠ a → m'.maps b = m.maps b
  get : ∀ k, aget (m'.maps a) k = g k

theorem MMem.Sets.trans {m m' m'' : MMem K V} {a : Nat} {g g' : K → Option V}
    (h1 : m.Sets a g m') (h2 : m'.Sets a g' m'') : m.Sets a g' m'' :=
  ⟨h2.wf, by rw [h2.fresh, h1.fresh], fun b hb => by rw [h2.other b hb, h1.other b hb], h2.get⟩

theorem MMem.Sets.refl {m : MMem K V} (h : m.WF) (a : Nat) : m.Sets a (aget (m.maps a)) m :=
  ⟨h, rfl, fun _ _ => rfl, fun _ => rfl⟩

theorem MMem.Sets.congr {m m' : MMem K V} {a : Nat} {g g' : K → Option V} (h : m.Sets a g m')
    (e : ∀ k, g k = g' k) : m.Sets a g' m' := by
  have : g = g' := funext e
  rw [← this]; exact h

theorem MMem.store_sets {m : MMem K V} (h : m.WF) {a : Nat} (ha : a < m.fresh) (k : K) (v : V) :
    ∃ m', m.store (some a) k v = some m' ∧
      m.Sets a (fun k' => if k = k' then some v else aget (m.maps a) k') m' :=
  ⟨_, rfl, h.upd ha (awf_aput (h.wf a) k v), rfl, fun b hb => by simp [MMem.upd, hb],
    fun k' => by simp [MMem.upd, aget_aput]⟩

theorem MMem.delete_sets {m : MMem K V} (h : m.WF) {a : Nat} (ha : a < m.fresh) (k : K) :
    m.Sets a (fun k' => if k = k' then none else aget (m.maps a) k') (m.delete (some a) k) :=
  ⟨h.upd ha (awf_adel (h.wf a) k), rfl, fun b hb => by simp [MMem.delete, MMem.upd, hb],
    fun k' => by simp [MMem.delete, MMem.upd, aget_adel]⟩

theorem MMem.foldStore {m : MMem K V} (h : m.WF) {a : Nat} (ha : a < m.fresh)
    {es : List (K × V)} (he : AWF es) :
    ∃ m', es.foldlM (fun m p => m.store (some a) p.1 p.2) m = some m' ∧
      m.Sets a (fun k => (aget es k).or (aget (m.maps a) k)) m' := by
  induction es generalizing m with
  | nil => exact ⟨m, rfl, (MMem.Sets.refl h a).congr fun k => by simp [aget]⟩
  | cons p es ih =>
    obtain ⟨k0, v0⟩ := p
    simp only [AWF, List.map_cons, List.nodup_cons] at he
    obtain ⟨m1, e1, s1⟩ := m.store_sets h ha k0 v0
    obtain ⟨m2, e2, s2⟩ := ih s1.wf (by rw [s1.fresh]; exact ha) he.2
    refine ⟨m2, by simp [List.foldlM_cons, e1, e2], (s1.trans s2).congr fun k => ?_⟩
    rw [s1.get]
    by_cases hk : k0 = k
    · subst hk; simp [aget, aget_eq_none.2 he.1]
    · simp [aget, hk]

theorem MMem.foldDelete {m : MMem K V} (h : m.WF) {a : Nat} (ha : a < m.fresh)
    (f : K → V → Bool) {es : List (K × V)} (he : AWF es) :
    m.Sets a (fun k => if (aget es k).any (f k) then none else aget (m.maps a) k)
      (es.foldl (fun m p => if f p.1 p.2 then m.delete (some a) p.1 else m) m) := by
  induction es generalizing m with
  | nil => exact (MMem.Sets.refl h a).congr fun k => by simp [aget]
  | cons p es ih =>
    obtain ⟨k0, v0⟩ := p
    simp only [AWF, List.map_cons, List.nodup_cons] at he
    simp only [List.foldl_cons]
    by_cases hf : f k0 v0
    · simp only [hf, if_true]
      have s1 := m.delete_sets h ha k0
      have s2 := ih s1.wf (by rw [s1.fresh]; exact ha) he.2
      refine (s1.trans s2).congr fun k => ?_
      rw [s1.get]
      by_cases hk : k0 = k
      · subst hk; simp [aget, aget_eq_none.2 he.1, hf]
      · simp [aget, hk]
    · simp only [hf]
      refine (ih h ha he.2).congr fun k => ?_
      by_cases hk : k0 = k
      · subst hk; simp [aget, aget_eq_none.2 he.1, hf]
      · simp [aget, hk]

theorem MMem.order_wf {m : MMem K V} (h : m.WF) (ω : Oracle K V) (r : MRef) :
    AWF (ω.order m.tick (m.at r)) := awf_perm (ω.perm _ _) (h.at_wf r)

theorem MMem.order_get {m : MMem K V} (h : m.WF) (ω : Oracle K V) (r : MRef) (k : K) :
    aget (ω.order m.tick (m.at r)) k = aget (m.at r) k := aget_perm (ω.perm _ _) (h.at_wf r) k

theorem MMem.Sets.of_tick {m m' : MMem K V} {t a : Nat} {g : K → Option V}
    (h : ({ m with tick := t } : MMem K V).Sets a g m') : m.Sets a g m' :=
  ⟨h.wf, h.fresh, h.other, h.get⟩

theorem MMem.copy_sets {m : MMem K V} (h : m.WF) (ω : Oracle K V) {a : Nat} (ha : a < m.fresh)
    (src : MRef) : ∃ m', m.copy ω (some a) src = some m' ∧
      m.Sets a (fun k => (aget (m.at src) k).or (aget (m.maps a) k)) m' := by
  obtain ⟨m', e, s⟩ := MMem.foldStore (h.tick (m.tick + 1)) ha (MMem.order_wf h ω src)
  refine ⟨m', e, s.of_tick.congr fun k => ?_⟩
  rw [MMem.order_get h]

theorem MMem.deleteFunc_sets {m : MMem K V} (h : m.WF) (ω : Oracle K V) {a : Nat}
    (ha : a < m.fresh) (f : K → V → Bool) :
    m.Sets a (fun k => if (aget (m.maps a) k).any (f k) then none else aget (m.maps a) k)
      (m.deleteFunc ω (some a) f) := by
  have s := MMem.foldDelete (h.tick (m.tick + 1)) ha f (MMem.order_wf h ω (some a))
  refine s.of_tick.congr fun k => ?_
  rw [MMem.order_get h]; rfl

theorem MMem.clear_sets {m : MMem K V} (h : m.WF) (ω : Oracle K V) {a : Nat}
    (ha : a < m.fresh) : m.Sets a (fun _ => none) (m.clearMap ω (some a)) := by
  have := m.deleteFunc_sets h ω ha (fun _ _ => true)
  have e : m.clearMap ω (some a) = m.deleteFunc ω (some a) (fun _ _ => true) := by
    simp [MMem.clearMap, MMem.deleteFunc]
  rw [e]
  refine this.congr fun k => ?_
  cases aget (m.maps a) k <;> simp

theorem MMem.clone_sets {m : MMem K V} (h : m.WF) (ω : Oracle K V) {a : Nat} (ha : a < m.fresh) :
    ∃ m', m.clone ω (some a) = some (m', some m.fresh) ∧
      m.make.1.Sets m.fresh (aget (m.maps a)) m' := by
  have hne : a ≠ m.fresh := Nat.ne_of_lt ha
  have hat : m.make.1.at (some a) = m.maps a := by simp [MMem.make, MMem.at, hne]
  obtain ⟨m', e, s⟩ := MMem.foldStore (h.make.tick (m.tick + 1)) (a := m.fresh)
    (by simp [MMem.make]) (MMem.order_wf h.make ω (some a))
  refine ⟨m', ?_, ?_⟩
  · have e' : List.foldlM (fun m' p => MMem.store m' (some m.fresh) p.1 p.2)
        { m.make.1 with tick := m.tick + 1 } (ω.order m.tick (m.make.1.at (some a))) = some m' := e
    simp only [MMem.clone, MMem.range, MMem.make] at e' ⊢
    rw [e']; rfl
  · refine MMem.Sets.of_tick (t := m.tick + 1) (s.congr fun k => ?_)
    rw [MMem.order_get h.make, hat]
    simp [MMem.make, aget]

theorem MMem.equalFunc_spec {m : MMem K V} (h : m.WF) (ω : Oracle K V) (r1 r2 : MRef)
    (eq : V → V → Bool) :
    (m.equalFunc ω r1 r2 eq).2 = true ↔
      ∀ k, match aget (m.at r1) k, aget (m.at r2) k with
        | some a, some b => eq a b = true
        | none, none => True
        | _, _ => False := by
  have hwf1 := h.at_wf r1
  have hwf2 := h.at_wf r2
  unfold MMem.equalFunc
  split
  · next hne =>
    simp only [Bool.false_eq_true, false_iff]
    intro hc
    -- equal key sets would give equal lengths
    have hp : ((m.at r1).map (·.1)).Perm ((m.at r2).map (·.1)) := by
      rw [List.perm_ext_iff_of_nodup hwf1 hwf2]
      intro k
      rw [← aget_isSome, ← aget_isSome]
      have := hc k
      cases h1 : aget (m.at r1) k <;> cases h2 : aget (m.at r2) k <;> simp [h1, h2] at this ⊢
    have := hp.length_eq
    simp at this; exact hne this
  · next heq =>
    simp only [ne_eq, Decidable.not_not] at heq
    simp only [MMem.range, List.all_eq_true]
    have hat : ∀ r, MMem.at ({ m with tick := m.tick + 1 } : MMem K V) r = m.at r := by
      intro r; cases r <;> rfl
    simp only [hat]
    constructor
    · intro hall k
      have sub : ∀ k v, aget (m.at r1) k = some v → ∃ w, aget (m.at r2) k = some w ∧ eq v w = true := by
        intro k v hk
        have := hall (k, v) ((ω.perm _ _).mem_iff.2 (mem_of_aget hk))
        dsimp only at this
        cases h2 : aget (m.at r2) k with
        | none => simp [h2] at this
        | some w => simp [h2] at this; exact ⟨w, rfl, this⟩
      cases h1 : aget (m.at r1) k with
      | some v =>
        obtain ⟨w, hw, he⟩ := sub k v h1
        simp [hw, he]
      | none =>
        cases h2 : aget (m.at r2) k with
        | none => trivial
        | some w =>
          -- keys of r1 are a subset of the keys of r2 without k, but of equal number
          exfalso
          have hsub : (m.at r1).map (·.1) ⊆ ((m.at r2).map (·.1)).erase k := by
            intro x hx
            rw [List.Nodup.mem_erase_iff hwf2]
            have hs := aget_isSome.2 hx
            obtain ⟨v, hv⟩ := Option.isSome_iff_exists.1 hs
            obtain ⟨w', hw', _⟩ := sub x v hv
            refine ⟨?_, aget_isSome.1 (by rw [hw']; rfl)⟩
            rintro rfl; rw [h1] at hv; cases hv
          have hk2 : k ∈ (m.at r2).map (·.1) := aget_isSome.1 (by rw [h2]; rfl)
          have hle := (List.subperm_of_subset hwf1 hsub).length_le
          rw [List.length_erase_of_mem hk2] at hle
          have hpos := List.length_pos_of_mem hk2
          simp only [List.length_map] at hle hpos
          omega
    · intro hc p hp
      have hp' := (ω.perm _ _).mem_iff.1 hp
      have hk := aget_of_mem hwf1 hp'
      have := hc p.1
      rw [hk] at this
      cases h2 : aget (m.at r2) p.1 with
      | none => simp [h2] at this
      | some w => simp [h2] at this; exact this

theorem MMem.keys_spec {m : MMem K V} (h : m.WF) (ω : Oracle K V) (r : MRef) :
    (m.keys ω r).2.Nodup ∧ (∀ k, k ∈ (m.keys ω r).2 ↔ (aget (m.at r) k).isSome) ∧
    (m.keys ω r).2.length = (m.at r).length := by
  have hp : (m.keys ω r).2.Perm ((m.at r).map (·.1)) := (ω.perm _ _).map _
  refine ⟨hp.nodup_iff.2 (h.at_wf r), fun k => by rw [hp.mem_iff, aget_isSome], ?_⟩
  rw [hp.length_eq]; simp
end mem
end Verif
