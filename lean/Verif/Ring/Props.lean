import Verif.Ring.Sim2
/-!
# Properties of `ring` (C39–C43)
-/
namespace Verif.Ring
open Verif.Ring.Spec
variable {T : Type}

/-! ## Histories -/

/-- No ring elements yet. -/
def Mem.empty (dflt : T) : Mem T :=
  { next := fun _ => none, prev := fun _ => none, val := fun _ => dflt, fresh := 0 }

def _root_.Verif.Ring.Spec.St.empty (dflt : T) : St T := { ring := fun _ => [], val := fun _ => dflt }

/-- The `*Ring` arguments of a call point to allocated elements (all a Go program can do), and the
receivers that must not be nil are not nil. -/
def Mem.Args (m : Mem T) : Op T → Prop
  | .new _ | .zero | .len none | .do_ none => True
  | .next x | .prev x | .move x _ | .unlink x _ | .len (some x) | .do_ (some x) | .getValue x
  | .setValue x _ | .link x none => x < m.fresh
  | .link x (some y) => x < m.fresh ∧ y < m.fresh

/-- A program: calls with the results they returned. -/
inductive MRun (dflt : T) : List (Op T × Res T) → Mem T → Prop
  | nil : MRun dflt [] (Mem.empty dflt)
  | snoc {h m op r m'} : MRun dflt h m → m.Args op → MStep dflt m op r m' →
      MRun dflt (h ++ [(op, r)]) m'

/-- The specification runs through a history. -/
inductive SRun (dflt : T) : List (Op T × Res T) → St T → Prop
  | nil : SRun dflt [] (St.empty dflt)
  | snoc {h s op r s'} : SRun dflt h s → s.Valid op → s.Step dflt op r s' →
      SRun dflt (h ++ [(op, r)]) s'

theorem MStep.det {dflt : T} {m m1 m2 : Mem T} {op : Op T} {r1 r2 : Res T}
    (h1 : MStep dflt m op r1 m1) (h2 : MStep dflt m op r2 m2) : r1 = r2 ∧ m1 = m2 := by
  obtain ⟨F1, h1⟩ := h1
  obtain ⟨F2, h2⟩ := h2
  have := (h1 (max F1 F2) (Nat.le_max_left _ _)).symm.trans (h2 (max F1 F2) (Nat.le_max_right _ _))
  injection this with this
  injection this with a b
  exact ⟨b, a⟩

theorem Sim.has_iff {m : Mem T} {s : St T} (h : Sim m s) (x : Nat) : s.Has x ↔ x < m.fresh := by
  refine ⟨h.has, fun hx => ?_⟩
  obtain ⟨t, e⟩ := h.rep.head x hx
  simp [St.Has, e]

theorem Sim.valid {m : Mem T} {s : St T} (h : Sim m s) {op : Op T} (ha : m.Args op) : s.Valid op := by
  cases op with
  | link x y => cases y with
    | none => exact (h.has_iff x).2 ha
    | some y => exact ⟨(h.has_iff x).2 ha.1, (h.has_iff y).2 ha.2⟩
  | len x => cases x with
    | none => trivial
    | some x => exact (h.has_iff x).2 ha
  | do_ x => cases x with
    | none => trivial
    | some x => exact (h.has_iff x).2 ha
  | new n => trivial
  | zero => trivial
  | next x => exact (h.has_iff x).2 ha
  | prev x => exact (h.has_iff x).2 ha
  | move x n => exact (h.has_iff x).2 ha
  | unlink x n => exact (h.has_iff x).2 ha
  | getValue x => exact (h.has_iff x).2 ha
  | setValue x v => exact (h.has_iff x).2 ha

theorem Sim.empty (dflt : T) : Sim (Mem.empty dflt) (St.empty dflt) := by
  refine ⟨⟨?_, ?_, ?_, ?_, ?_, ?_⟩, rfl⟩
  · intro x hx; exact absurd hx (Nat.not_lt_zero _)
  · intro x _; rfl
  · intro x; exact List.nodup_nil
  · intro x y hy; cases hy
  · intro x A y B e; cases A <;> cases e
  · intro x hx; exact absurd hx (Nat.not_lt_zero _)

theorem MRun.sim {dflt : T} {h : List (Op T × Res T)} {m : Mem T} (hr : MRun dflt h m) :
    ∃ s, SRun dflt h s ∧ Sim m s := by
  induction hr with
  | nil => exact ⟨_, .nil, Sim.empty dflt⟩
  | snoc _ ha hs ih =>
    obtain ⟨s, i1, i2⟩ := ih
    obtain ⟨r', m2, s', q1, q2, q3⟩ := sim_step i2 dflt _ (i2.valid ha)
    obtain ⟨e1, e2⟩ := hs.det q1
    subst e1; subst e2
    exact ⟨s', .snoc i1 (i2.valid ha) q2, q3⟩

/-- Any program: the results are those of the specification of cyclic sequences. -/
theorem ring_refines {dflt : T} {h : List (Op T × Res T)} {m : Mem T} (hr : MRun dflt h m) :
    ∃ s, SRun dflt h s := by
  obtain ⟨s, h1, _⟩ := hr.sim
  exact ⟨s, h1⟩

/-- Any program: the next call terminates and does not panic. -/
theorem ring_total {dflt : T} {h : List (Op T × Res T)} {m : Mem T} (hr : MRun dflt h m) (op : Op T)
    (ha : m.Args op) : ∃ r m', MStep dflt m op r m' := by
  obtain ⟨s, _, h1⟩ := hr.sim
  obtain ⟨r, m', _, q, _⟩ := sim_step h1 dflt op (h1.valid ha)
  exact ⟨r, m', q⟩

/-! ## Rings, by what `Next` and `Prev` return -/

/-- What `Next` would return. -/
def nxt (m : Mem T) (x : Nat) : Option Nat := (next m x).2
/-- What `Prev` would return. -/
def prv (m : Mem T) (x : Nat) : Option Nat := (prev m x).2

/-- `C` is a ring of distinct elements: `Next` goes from each to the following one and from the last
to the first, `Prev` the other way. -/
structure IsRing (m : Mem T) (C : List Nat) : Prop where
  nodup : C.Nodup
  alloc : ∀ x ∈ C, x < m.fresh
  ne : C ≠ []
  next : ∀ i x, C[i]? = some x → nxt m x = C[(i + 1) % C.length]?
  prev : ∀ i x, C[(i + 1) % C.length]? = some x → i < C.length → prv m x = C[i]?

theorem cyc_unique {nx pv : Nat → Option Nat} {x : Nat} : ∀ (A B : List Nat) (a : Nat), x ∉ A → x ∉ B →
    Lnk nx pv (a :: (A ++ [x])) → Lnk nx pv (a :: (B ++ [x])) → A = B := by
  intro A
  induction A with
  | nil =>
    intro B a _ hB h1 h2
    cases B with
    | nil => rfl
    | cons b B =>
      have e1 : nx a = some x := h1.1
      have e2 : nx a = some b := h2.1
      rw [e1] at e2; injection e2 with e2
      exact absurd (by simp [e2]) hB
  | cons b A ih =>
    intro B a hA hB h1 h2
    have e1 : nx a = some b := h1.1
    cases B with
    | nil =>
      have e2 : nx a = some x := h2.1
      rw [e1] at e2; injection e2 with e2
      exact absurd (by simp [e2]) hA
    | cons b' B =>
      have e2 : nx a = some b' := h2.1
      rw [e1] at e2; injection e2 with e2
      subst e2
      rw [ih B b (fun h => hA (by simp [h])) (fun h => hB (by simp [h])) h1.2.2 h2.2.2]

theorem Lnk_of_get {nx pv : Nat → Option Nat} : ∀ (l : List Nat), (∀ i x y, l[i]? = some x →
    l[i + 1]? = some y → nx x = some y ∧ pv y = some x) → Lnk nx pv l := by
  intro l
  induction l with
  | nil => intro _; trivial
  | cons a l ih =>
    intro h
    cases l with
    | nil => trivial
    | cons b l =>
      obtain ⟨h1, h2⟩ := h 0 a b rfl rfl
      exact ⟨h1, h2, ih (fun i x y hx hy => h (i + 1) x y (by simpa using hx) (by simpa using hy))⟩

theorem Cyc_iff {nx pv : Nat → Option Nat} {C : List Nat} (hC : C ≠ []) : Cyc nx pv C ↔
    (∀ i x, C[i]? = some x → nx x = C[(i + 1) % C.length]?) ∧
    (∀ i x, C[(i + 1) % C.length]? = some x → i < C.length → pv x = C[i]?) := by
  obtain ⟨a, t, rfl⟩ := List.exists_cons_of_ne_nil hC
  have hlen : (a :: t).length = t.length + 1 := rfl
  have wrap : ∀ i, i < t.length + 1 → (a :: (t ++ [a]))[i]? = (a :: t)[i]? ∧
      (a :: (t ++ [a]))[i + 1]? = (a :: t)[(i + 1) % (t.length + 1)]? := by
    intro i hi
    constructor
    · rw [← List.cons_append, List.getElem?_append_left (by simpa using hi)]
    · by_cases h : i + 1 < t.length + 1
      · rw [Nat.mod_eq_of_lt h, ← List.cons_append, List.getElem?_append_left (by simpa using h)]
      · have : i = t.length := by omega
        subst this
        rw [Nat.mod_self]
        simp
  constructor
  · intro h
    have h : Lnk nx pv (a :: (t ++ [a])) := h
    refine ⟨fun i x hx => ?_, fun i x hx hi => ?_⟩
    · have hi : i < t.length + 1 := (List.getElem?_eq_some_iff.1 hx).1
      have hil : i + 1 < (a :: (t ++ [a])).length := by simp; omega
      obtain ⟨q1, q2⟩ := Lnk_get h hil
      have e1 := (wrap i hi).1
      have e2 := (wrap i hi).2
      rw [List.getElem?_eq_getElem (by omega)] at e1
      rw [List.getElem?_eq_getElem hil] at e2
      rw [hlen, ← e2, ← q1]
      rw [hx] at e1; injection e1 with e1
      rw [e1]
    · rw [hlen] at hx hi
      have hil : i + 1 < (a :: (t ++ [a])).length := by simp; omega
      obtain ⟨q1, q2⟩ := Lnk_get h hil
      have e1 := (wrap i hi).1
      have e2 := (wrap i hi).2
      rw [List.getElem?_eq_getElem (by omega)] at e1
      rw [List.getElem?_eq_getElem hil, hx] at e2
      injection e2 with e2
      rw [← e1, ← e2, q2]
  · rintro ⟨h1, h2⟩
    refine Lnk_of_get _ (fun i x y hx hy => ?_)
    have hi : i < t.length + 1 := by
      have := (List.getElem?_eq_some_iff.1 hy).1
      simp at this; omega
    rw [(wrap i hi).1] at hx
    rw [(wrap i hi).2] at hy
    refine ⟨?_, ?_⟩
    · rw [h1 i x hx, hlen, hy]
    · rw [h2 i y (by rw [hlen]; exact hy) hi, hx]

/-- A ring by its pointers. -/
theorem Sim.cyc {m : Mem T} {s : St T} (h : Sim m s) {x : Nat} (hx : x < m.fresh) :
    Cyc (nxt m) (prv m) (s.ring x) := by
  rcases h.rep.ok x hx with ⟨y, k1, k2⟩ | hc
  · rw [k1]
    refine ⟨?_, ?_, trivial⟩
    · simp [nxt, Ring.next, k2]
    · simp [prv, Ring.prev, k2]
  · refine hc.congr ?_
    intro y hy
    have hne : m.next y ≠ none := by
      obtain ⟨A, B, e⟩ := List.append_of_mem hy
      rw [e] at hc
      have h1 := hc.rot.next_at 0 at_zero
      obtain ⟨_, _, _, h2⟩ := at_some (C := y :: (B ++ A)) (by simp) (0 + 1)
      rw [h1, h2]; simp
    simp [nxt, prv, Ring.next, Ring.prev, hne]

theorem Sim.isRing {m : Mem T} {s : St T} (h : Sim m s) {x : Nat} {A : List Nat} :
    IsRing m (x :: A) ↔ s.ring x = x :: A := by
  constructor
  · intro hr
    have hx := hr.alloc x (by simp)
    obtain ⟨B, e⟩ := h.rep.head x hx
    have h1 := h.cyc hx
    have h2 : Cyc (nxt m) (prv m) (x :: A) := (Cyc_iff (by simp)).2 ⟨hr.next, hr.prev⟩
    have hnd := h.rep.nodup x
    rw [e] at h1 hnd ⊢
    rw [cyc_unique B A x (List.nodup_cons.1 hnd).1 (List.nodup_cons.1 hr.nodup).1 h1 h2]
  · intro e
    have hx : x < m.fresh := h.rep.lt (by rw [e]; simp)
    have hnd := h.rep.nodup x
    have hc := h.cyc hx
    have ha := h.rep.alloc x
    rw [e] at hnd hc ha
    obtain ⟨c1, c2⟩ := (Cyc_iff (by simp)).1 hc
    exact ⟨hnd, ha, by simp, c1, c2⟩

theorem at_mod {x : Nat} {A : List Nat} {n : Int} :
    at_ (x :: A) n = (x :: A)[(n % (A.length + 1 : Nat)).toNat]? := rfl

/-- Elements of a changed ring come first. -/
theorem set_ring_head (s : St T) {x : Nat} {A : List Nat} : (s.set (x :: A)).ring x = x :: A := by
  simp [St.set, rotTo]

theorem set_ring_other (s : St T) {C : List Nat} {x : Nat} (h : x ∉ C) :
    (s.set C).ring x = s.ring x := by simp [St.set, h]

/-- Every element is in a ring. -/
theorem every_ring {dflt : T} {h : List (Op T × Res T)} {m : Mem T} (hr : MRun dflt h m) {x : Nat}
    (hx : x < m.fresh) : ∃ A, IsRing m (x :: A) := by
  obtain ⟨s, _, hs⟩ := hr.sim
  obtain ⟨A, e⟩ := hs.rep.head x hx
  exact ⟨A, hs.isRing.2 e⟩

/-- A call that changes no ring and no value. -/
def Pure (m m' : Mem T) : Prop := (∀ C, IsRing m' C ↔ IsRing m C) ∧ m'.val = m.val

theorem Sim.pure {m m' : Mem T} {s : St T} (h : Sim m s) (h' : Sim m' s) : Pure m m' := by
  refine ⟨fun C => ?_, by rw [h.val, h'.val]⟩
  cases C with
  | nil => exact ⟨fun h => absurd rfl h.ne, fun h => absurd rfl h.ne⟩
  | cons x A => rw [h.isRing, h'.isRing]

/-- `D` is not affected if its elements are not in the changed ring. -/
theorem Sim.keep {m m' : Mem T} {s s' : St T} (h : Sim m s) (h' : Sim m' s')
    {D : List Nat} (hD : IsRing m D) (hs : ∀ x ∈ D, s'.ring x = s.ring x) : IsRing m' D := by
  obtain ⟨d, D', rfl⟩ := List.exists_cons_of_ne_nil hD.ne
  rw [h'.isRing, hs d (by simp)]
  exact h.isRing.1 hD

/-- `Len` and its termination. -/
theorem ring_len {dflt : T} {h : List (Op T × Res T)} {m : Mem T} (hr : MRun dflt h m) {x : Nat}
    {A : List Nat} (hx : IsRing m (x :: A)) :
    ∃ m', MStep dflt m (.len (some x)) (.int (A.length + 1)) m' ∧ Pure m m' := by
  obtain ⟨s, _, hs⟩ := hr.sim
  have e := hs.isRing.1 hx
  obtain ⟨r, m', s', q1, q2, q3⟩ := sim_step hs dflt (.len (some x)) (by simp [St.Valid, St.Has, e])
  obtain ⟨rfl, rfl⟩ := q2
  rw [e] at q1
  exact ⟨m', q1, hs.pure q3⟩

/-! ## C39: `New` -/

/-- `New(n)` for `n ≤ 0` is nil; for `n > 0` it is the first element of a ring of `n` new elements,
all with zero value, whose `Len` is `n`.  Other rings do not change. -/
theorem C39_new {dflt : T} {h : List (Op T × Res T)} {m : Mem T} (hr : MRun dflt h m) (n : Int) :
    (n ≤ 0 → MStep dflt m (.new n) (.elem none) m) ∧
    (0 < n → ∃ m' x A, MStep dflt m (.new n) (.elem (some x)) m' ∧ IsRing m' (x :: A) ∧
      ((x :: A).length : Int) = n ∧ (∀ y ∈ x :: A, ¬ y < m.fresh ∧ m'.val y = dflt) ∧
      (∀ D, IsRing m D → IsRing m' D) ∧ (∀ y, y < m.fresh → m'.val y = m.val y) ∧
      ∃ m'', MStep dflt m' (.len (some x)) (.int n.toNat) m'') := by
  obtain ⟨s, _, hs⟩ := hr.sim
  refine ⟨fun hn => ⟨0, fun _ _ => by simp [exec, Ring.new, hn]⟩, fun hn => ?_⟩
  obtain ⟨k, rfl⟩ : ∃ k : Nat, n = (k : Int) + 1 := ⟨n.toNat - 1, by omega⟩
  obtain ⟨m', h1, h2, h3⟩ := hs.new dflt k
  have hst : MStep dflt m (.new ((k : Int) + 1)) (.elem (some m.fresh)) m' :=
    ⟨0, fun _ _ => by simp [exec, h1]⟩
  have hI : IsRing m' (m.fresh :: List.range' (m.fresh + 1) k) := by
    refine h3.isRing.2 ?_
    rw [List.range'_succ]
    exact set_ring_head s
  obtain ⟨m'', l1, _⟩ := ring_len (MRun.snoc (op := .new ((k : Int) + 1)) hr trivial hst) hI
  refine ⟨m', m.fresh, List.range' (m.fresh + 1) k, hst, hI, by simp, ?_, ?_, ?_, m'', ?_⟩
  · intro y hy
    rw [← List.range'_succ] at hy
    refine ⟨?_, ?_⟩
    · rw [List.mem_range'_1] at hy; omega
    · rw [h3.val]; simp only [hy, if_true]
  · intro D hD
    refine hs.keep h3 hD (fun x hx => set_ring_other s ?_)
    have := hD.alloc x hx
    rw [List.mem_range'_1]; omega
  · intro y hy
    rw [h3.val, hs.val]
    have : y ∉ List.range' m.fresh (k + 1) := by rw [List.mem_range'_1]; omega
    simp only [this, if_false]
  · have : ((k : Int) + 1).toNat = (List.range' (m.fresh + 1) k).length + 1 := by simp
    rw [this]; exact l1

/-- A zero `Ring` is a ring of one element. -/
theorem C39_zero {dflt : T} {h : List (Op T × Res T)} {m : Mem T} (hr : MRun dflt h m) :
    ∃ m' x, MStep dflt m .zero (.elem (some x)) m' ∧ IsRing m' [x] ∧ ¬ x < m.fresh ∧
      m'.val x = dflt ∧ (∀ D, IsRing m D → IsRing m' D) := by
  obtain ⟨s, _, hs⟩ := hr.sim
  have h3 := hs.zero dflt
  refine ⟨_, m.fresh, ⟨0, fun _ _ => rfl⟩, h3.isRing.2 (set_ring_head s), by omega, ?_, ?_⟩
  · simp [upd]
  · intro D hD
    refine hs.keep h3 hD (fun x hx => set_ring_other s ?_)
    have := hD.alloc x hx
    simp; omega

/-- `Next` and `Prev` are inverse to each other. -/
theorem C39_inverse {dflt : T} {h : List (Op T × Res T)} {m : Mem T} (hr : MRun dflt h m) {x : Nat}
    (hx : x < m.fresh) : (∃ y, nxt m x = some y ∧ prv m y = some x) ∧
      (∃ y, prv m x = some y ∧ nxt m y = some x) := by
  obtain ⟨s, _, hs⟩ := hr.sim
  obtain ⟨t, e⟩ := hs.rep.head x hx
  have hc := hs.cyc hx
  rw [e] at hc
  obtain ⟨y, hy⟩ : ∃ y, at_ (x :: t) 1 = some y := by
    obtain ⟨_, _, _, en⟩ := at_some (C := x :: t) (by simp) 1
    exact ⟨_, en⟩
  obtain ⟨z, hz⟩ : ∃ z, at_ (x :: t) (-1) = some z := by
    obtain ⟨_, _, _, en⟩ := at_some (C := x :: t) (by simp) (-1)
    exact ⟨_, en⟩
  refine ⟨⟨y, ?_, ?_⟩, ⟨z, ?_, ?_⟩⟩
  · rw [hc.next_at 0 at_zero]; exact hy
  · rw [hc.prev_at 1 hy]; exact at_zero
  · rw [hc.prev_at 0 at_zero]; exact hz
  · rw [hc.next_at (-1) hz]; exact at_zero

/-! ## C40: `Move` -/

/-- `k` calls of `Next` (or of `Prev`), each on the result of the previous one. -/
inductive Steps (dflt : T) (op : Nat → Op T) : Nat → Mem T → Nat → Mem T → Nat → Prop
  | zero {m x} : Steps dflt op 0 m x m x
  | succ {k m x m1 y m2 z} : MStep dflt m (op x) (.elem (some y)) m1 →
      Steps dflt op k m1 y m2 z → Steps dflt op (k + 1) m x m2 z

theorem at_rot {x : Nat} {A : List Nat} {y : Nat} {s : St T} {m : Mem T} (hs : Sim m s)
    (e : s.ring x = x :: A) {i : Int} (hy : at_ (x :: A) i = some y) (j : Int) :
    at_ (s.ring y) j = at_ (x :: A) (i + j) := by
  have hL : (0 : Int) < ((x :: A).length : Int) := by simp
  have hk0 := Int.emod_nonneg i (Int.ne_of_gt hL)
  have hk1 := Int.emod_lt_of_pos i hL
  obtain ⟨k, hk⟩ : ∃ k : Nat, i % ((x :: A).length : Int) = k := ⟨_, (Int.toNat_of_nonneg hk0).symm⟩
  have hkl : k < (x :: A).length := by omega
  have hy' := hy
  unfold at_ at hy
  rw [hk, Int.toNat_natCast, List.getElem?_eq_getElem hkl] at hy
  injection hy with hy
  have esplit : x :: A = (x :: A).take k ++ y :: (x :: A).drop (k + 1) := by
    rw [← hy, List.getElem_cons_drop, List.take_append_drop]
  have hrot := hs.rep.rot x _ y _ (e.trans esplit)
  have e2 : y :: ((x :: A).drop (k + 1) ++ (x :: A).take k) = (x :: A).drop k ++ (x :: A).take k := by
    rw [← List.cons_append, ← hy, List.getElem_cons_drop]
  rw [hrot, e2]
  unfold at_
  have hlen : ((x :: A).drop k ++ (x :: A).take k).length = (x :: A).length := by
    rw [List.length_append, List.length_drop, List.length_take]; omega
  rw [hlen]
  have hj0 := Int.emod_nonneg j (Int.ne_of_gt hL)
  have hj1 := Int.emod_lt_of_pos j hL
  obtain ⟨l, hl⟩ : ∃ l : Nat, j % ((x :: A).length : Int) = l := ⟨_, (Int.toNat_of_nonneg hj0).symm⟩
  have hsum : (i + j) % ((x :: A).length : Int) = ((k : Int) + l) % ((x :: A).length : Int) := by
    rw [Int.add_emod, hk, hl]
  rw [hsum, hl, Int.toNat_natCast]
  rw [hl] at hj1
  by_cases hlt : k + l < (x :: A).length
  · rw [Int.emod_eq_of_lt (by omega) (by omega), List.getElem?_append_left (by rw [List.length_drop]; omega),
      List.getElem?_drop]
    congr 1
  · have : ((k : Int) + l) % ((x :: A).length : Int) = (k : Int) + l - (x :: A).length := by
      rw [← Int.sub_emod_right, Int.emod_eq_of_lt (by omega) (by omega)]
    rw [this, List.getElem?_append_right (by rw [List.length_drop]; omega), List.length_drop,
      List.getElem?_take_of_lt (by omega)]
    congr 1
    omega

theorem steps_at {dflt : T} {s : St T} {x : Nat} {A : List Nat} (d : Int) (op : Nat → Op T)
    (hop : ∀ m y, Sim m s → y < m.fresh →
      ∃ m', MStep dflt m (op y) (.elem (at_ (s.ring y) d)) m' ∧ Sim m' s) (e : s.ring x = x :: A)
    (k : Nat) : ∀ (m : Mem T) (i : Int) (y : Nat), Sim m s → at_ (x :: A) i = some y →
      ∃ m' z, Steps dflt op k m y m' z ∧ at_ (x :: A) (i + d * k) = some z ∧ Sim m' s := by
  induction k with
  | zero => intro m i y hs hy; exact ⟨m, y, .zero, by simpa using hy, hs⟩
  | succ k ih =>
    intro m i y hs hy
    have hym : y ∈ s.ring x := by rw [e]; exact List.mem_of_getElem? hy
    obtain ⟨m1, q1, q2⟩ := hop m y hs (hs.rep.alloc x y hym)
    rw [at_rot hs e hy d] at q1
    obtain ⟨w, hw⟩ : ∃ w, at_ (x :: A) (i + d) = some w := by
      obtain ⟨_, _, _, en⟩ := at_some (C := x :: A) (by simp) (i + d)
      exact ⟨_, en⟩
    rw [hw] at q1
    obtain ⟨m2, z, q3, q4, q5⟩ := ih m1 (i + d) w q2 hw
    refine ⟨m2, z, .succ q1 q3, ?_, q5⟩
    rw [← q4]
    congr 1
    push_cast
    rw [Int.mul_add]
    omega

theorem Steps.det {dflt : T} {op : Nat → Op T} {k : Nat} {m m1 m2 : Mem T} {x z1 z2 : Nat}
    (h1 : Steps dflt op k m x m1 z1) (h2 : Steps dflt op k m x m2 z2) : z1 = z2 := by
  induction h1 with
  | zero => cases h2; rfl
  | succ a _ ih => cases h2 with
    | succ c d =>
      obtain ⟨e1, rfl⟩ := a.det c
      injection e1 with e1; injection e1 with e1; subst e1
      exact ih d

/-- `Move(n)` returns the element reached by `n` calls of `Next` (`-n` of `Prev`), which is the one
`n mod Len` places after the receiver. -/
theorem C40_move {dflt : T} {h : List (Op T × Res T)} {m : Mem T} (hr : MRun dflt h m) {x : Nat}
    {A : List Nat} (hx : IsRing m (x :: A)) (n : Int) :
    ∃ m' y, MStep dflt m (.move x n) (.elem (some y)) m' ∧ Pure m m' ∧
      (x :: A)[(n % (x :: A).length).toNat]? = some y ∧
      (0 ≤ n → ∃ m1, Steps dflt .next n.toNat m x m1 y) ∧
      (n ≤ 0 → ∃ m1, Steps dflt .prev (-n).toNat m x m1 y) := by
  obtain ⟨s, _, hs⟩ := hr.sim
  have e := hs.isRing.1 hx
  have hxf := hx.alloc x (by simp)
  obtain ⟨y, hy⟩ : ∃ y, at_ (x :: A) n = some y := by
    obtain ⟨_, _, _, en⟩ := at_some (C := x :: A) (by simp) n
    exact ⟨_, en⟩
  refine ⟨Ring.norm m x, y, ⟨0, fun _ _ => ?_⟩, hs.pure (hs.norm hxf), hy, ?_, ?_⟩
  · simp [exec, hs.move hxf, e, hy]
  · intro hn
    obtain ⟨m1, z, q1, q2, _⟩ := steps_at (dflt := dflt) (s := s) 1 .next (fun m y hs hy =>
      ⟨Ring.norm m y, ⟨0, fun _ _ => by simp [exec, hs.next hy]⟩, hs.norm hy⟩) e n.toNat m 0 x hs at_zero
    have : (0 : Int) + 1 * (n.toNat : Int) = n := by omega
    rw [this, hy] at q2
    injection q2 with q2
    exact ⟨m1, q2 ▸ q1⟩
  · intro hn
    obtain ⟨m1, z, q1, q2, _⟩ := steps_at (dflt := dflt) (s := s) (-1) .prev (fun m y hs hy =>
      ⟨Ring.norm m y, ⟨0, fun _ _ => by simp [exec, hs.prev hy]⟩, hs.norm hy⟩) e (-n).toNat m 0 x hs at_zero
    have : (0 : Int) + (-1) * ((-n).toNat : Int) = n := by omega
    rw [this, hy] at q2
    injection q2 with q2
    exact ⟨m1, q2 ▸ q1⟩

/-- `Next` applied `k` times returns to the start exactly when `k` is a multiple of `Len`. -/
theorem C39_period {dflt : T} {h : List (Op T × Res T)} {m : Mem T} (hr : MRun dflt h m) {x : Nat}
    {A : List Nat} (hx : IsRing m (x :: A)) (k : Nat) :
    (∃ m', Steps dflt .next k m x m' x) ↔ (A.length + 1) ∣ k := by
  obtain ⟨m', y, h1, _, h3, h4, _⟩ := C40_move hr hx (k : Int)
  obtain ⟨m1, h4⟩ := h4 (by omega)
  rw [Int.toNat_natCast] at h4
  have hmod : ((k : Int) % ((x :: A).length : Int)).toNat = k % (A.length + 1) := by
    have : ((x :: A).length : Int) = ((A.length + 1 : Nat) : Int) := rfl
    rw [this, ← Int.natCast_emod, Int.toNat_natCast]
  rw [hmod] at h3
  constructor
  · rintro ⟨m2, h5⟩
    have := h5.det h4
    subst this
    have hlt : k % (A.length + 1) < (x :: A).length := Nat.mod_lt _ (by omega)
    rw [List.getElem?_eq_getElem hlt] at h3
    injection h3 with h3
    have h0 : (x :: A)[0]'(by simp) = x := rfl
    have := (List.getElem_inj hx.nodup).1 (h3.trans h0.symm)
    exact Nat.dvd_of_mod_eq_zero this
  · intro hd
    rw [Nat.mod_eq_zero_of_dvd hd] at h3
    simp at h3
    subst h3
    exact ⟨m1, h4⟩

/-! ## C41: `Link` -/

/-- Different rings: `s`'s ring is inserted after `r`, and the old `r.Next()` is returned. -/
theorem C41_join {dflt : T} {h : List (Op T × Res T)} {m : Mem T} (hr : MRun dflt h m) {r s : Nat}
    {A B : List Nat} (h1 : IsRing m (r :: A)) (h2 : IsRing m (s :: B)) (hd : s ∉ r :: A) :
    ∃ m', MStep dflt m (.link r (some s)) (.elem (A ++ [r]).head?) m' ∧
      IsRing m' (r :: s :: (B ++ A)) ∧ m'.val = m.val ∧
      (∀ D, IsRing m D → r ∉ D → s ∉ D → IsRing m' D) := by
  obtain ⟨S, _, hs⟩ := hr.sim
  have e1 := hs.isRing.1 h1
  have e2 := hs.isRing.1 h2
  obtain ⟨m', q1, q2⟩ := hs.link (h1.alloc r (by simp)) (h2.alloc s (by simp))
  have el : S.linked r s = S.set (r :: (s :: B ++ A)) := by
    simp only [St.linked, e1, e2, hd, if_false, List.tail_cons]
  rw [el] at q2
  rw [e1, at_one] at q1
  refine ⟨m', ⟨0, fun _ _ => by simp [exec, q1]⟩, q2.isRing.2 (set_ring_head S), ?_, ?_⟩
  · rw [q2.val, hs.val]; rfl
  · intro D hD hrD hsD
    refine hs.keep q2 hD (fun x hx => set_ring_other S ?_)
    intro hx'
    -- rings that share an element have the same elements
    obtain ⟨d, D', rfl⟩ := List.exists_cons_of_ne_nil hD.ne
    have e3 := hs.isRing.1 hD
    have hxd : x ∈ S.ring d := by rw [e3]; exact hx
    have hx2 : x ∈ r :: A ∨ x ∈ s :: B := by
      simp only [List.mem_cons, List.mem_append] at hx' ⊢; tauto
    rcases hx2 with h | h
    · have : x ∈ S.ring r := by rw [e1]; exact h
      have h5 := (hs.rep.mem_iff hxd r).1 ((hs.rep.mem_iff this r).2 (by rw [e1]; simp))
      rw [e3] at h5; exact hrD h5
    · have : x ∈ S.ring s := by rw [e2]; exact h
      have h5 := (hs.rep.mem_iff hxd s).1 ((hs.rep.mem_iff this s).2 (by rw [e2]; simp))
      rw [e3] at h5; exact hsD h5

/-- A cut: `A` is cut out of `r :: (A ++ R)`. -/
def CutOut (m m' : Mem T) (r : Nat) (A R : List Nat) : Prop :=
  IsRing m' (r :: R) ∧ (A ≠ [] → IsRing m' A) ∧ m'.val = m.val ∧
    (∀ D, IsRing m D → r ∉ D → IsRing m' D)

theorem Sim.cutOut {m m' : Mem T} {S : St T} (hs : Sim m S) {r : Nat} {A R : List Nat}
    (h1 : IsRing m (r :: (A ++ R))) (h' : Sim m' ((S.set A).set (r :: R))) : CutOut m m' r A R := by
  have hnd := h1.nodup
  refine ⟨h'.isRing.2 (set_ring_head _), ?_, ?_, ?_⟩
  · intro hA
    obtain ⟨a, A', rfl⟩ := List.exists_cons_of_ne_nil hA
    refine h'.isRing.2 ?_
    rw [set_ring_other, set_ring_head]
    rw [List.nodup_cons, List.nodup_append] at hnd
    simp only [List.mem_cons, not_or]
    refine ⟨?_, fun h => hnd.2.2.2 a (by simp) a h rfl⟩
    rintro rfl; exact hnd.1 (by simp)
  · rw [h'.val, hs.val]; rfl
  · intro D hD hrD
    refine hs.keep h' hD (fun x hx => ?_)
    have e1 := hs.isRing.1 h1
    obtain ⟨d, D', rfl⟩ := List.exists_cons_of_ne_nil hD.ne
    have e3 := hs.isRing.1 hD
    have hxd : x ∈ S.ring d := by rw [e3]; exact hx
    have hnot : x ∉ r :: (A ++ R) := by
      intro h
      have : x ∈ S.ring r := by rw [e1]; exact h
      have h5 := (hs.rep.mem_iff hxd r).1 ((hs.rep.mem_iff this r).2 (by rw [e1]; simp))
      rw [e3] at h5; exact hrD h5
    simp only [List.mem_cons, List.mem_append, not_or] at hnot
    rw [set_ring_other, set_ring_other]
    · exact hnot.2.1
    · simp only [List.mem_cons, not_or]; exact ⟨hnot.1, hnot.2.2⟩

/-- Same ring: the elements strictly between `r` and `s` are cut out and form a ring; the old
`r.Next()` is returned. -/
theorem C41_split {dflt : T} {h : List (Op T × Res T)} {m : Mem T} (hr : MRun dflt h m) {r s : Nat}
    {A B : List Nat} (h1 : IsRing m (r :: (A ++ s :: B))) :
    ∃ m', MStep dflt m (.link r (some s)) (.elem (A ++ [s]).head?) m' ∧
      CutOut m m' r A (s :: B) := by
  obtain ⟨S, _, hs⟩ := hr.sim
  have e1 := hs.isRing.1 h1
  obtain ⟨m', q1, q2⟩ := hs.link (h1.alloc r (by simp)) (h1.alloc s (by simp))
  have hsA : s ∉ A := by
    have := h1.nodup
    rw [List.nodup_cons, List.nodup_append] at this
    intro h; exact this.2.2.2 s h s (by simp) rfl
  obtain ⟨t1, t2⟩ := takeWhile_ne (B := B) hsA
  have el : S.linked r s = (S.set A).set (r :: s :: B) := by
    unfold St.linked
    rw [if_pos (by rw [e1]; simp), e1]
    simp only [List.tail_cons]
    rw [t1, t2]
  rw [el] at q2
  rw [e1, at_one] at q1
  refine ⟨m', ⟨0, fun _ _ => ?_⟩, hs.cutOut h1 q2⟩
  have : (A ++ s :: B ++ [r]).head? = (A ++ [s]).head? := by cases A <;> simp
  rw [this] at q1
  simp [exec, q1]

/-- `r.Link(r)`: everything but `r` is cut out. -/
theorem C41_self {dflt : T} {h : List (Op T × Res T)} {m : Mem T} (hr : MRun dflt h m) {r : Nat}
    {A : List Nat} (h1 : IsRing m (r :: A)) :
    ∃ m', MStep dflt m (.link r (some r)) (.elem (A ++ [r]).head?) m' ∧ CutOut m m' r A [] := by
  obtain ⟨S, _, hs⟩ := hr.sim
  have e1 := hs.isRing.1 h1
  obtain ⟨m', q1, q2⟩ := hs.link (h1.alloc r (by simp)) (h1.alloc r (by simp))
  obtain ⟨t1, t2⟩ := takeWhile_not_mem (List.nodup_cons.1 h1.nodup).1
  have el : S.linked r r = (S.set A).set [r] := by
    unfold St.linked
    rw [if_pos (by rw [e1]; simp), e1]
    simp only [List.tail_cons]
    rw [t1, t2]
  rw [el] at q2
  rw [e1, at_one] at q1
  exact ⟨m', ⟨0, fun _ _ => by simp [exec, q1]⟩, hs.cutOut (by simpa using h1) q2⟩

/-- `r.Link(nil)` changes nothing. -/
theorem C41_nil {dflt : T} {h : List (Op T × Res T)} {m : Mem T} (hr : MRun dflt h m) {r : Nat}
    {A : List Nat} (h1 : IsRing m (r :: A)) :
    ∃ m', MStep dflt m (.link r none) (.elem (A ++ [r]).head?) m' ∧ Pure m m' := by
  obtain ⟨S, _, hs⟩ := hr.sim
  have e1 := hs.isRing.1 h1
  have hrf := h1.alloc r (by simp)
  refine ⟨Ring.norm m r, ⟨0, fun _ _ => ?_⟩, hs.pure (hs.norm hrf)⟩
  simp [exec, Ring.link, hs.next hrf, e1, at_one]

/-! ## C42: `Unlink` -/

/-- `Unlink(n)`, `n > 0`, cuts out the `n mod Len` elements after `r` and returns `r`'s old next;
`n ≤ 0`: nil, and nothing changes. -/
theorem C42_unlink {dflt : T} {h : List (Op T × Res T)} {m : Mem T} (hr : MRun dflt h m) {r : Nat}
    {A : List Nat} (h1 : IsRing m (r :: A)) (n : Int) :
    (n ≤ 0 → MStep dflt m (.unlink r n) (.elem none) m) ∧
    (0 < n → ∀ k, k = (n % (r :: A).length).toNat →
      ∃ m', MStep dflt m (.unlink r n) (.elem (A ++ [r]).head?) m' ∧
        CutOut m m' r (A.take k) (A.drop k)) := by
  obtain ⟨S, _, hs⟩ := hr.sim
  have e1 := hs.isRing.1 h1
  refine ⟨fun hn => ⟨0, fun _ _ => by simp [exec, Ring.unlink, hn]⟩, fun hn k hk => ?_⟩
  obtain ⟨m', q1, q2⟩ := hs.unlink (h1.alloc r (by simp)) hn
  rw [e1, at_one] at q1
  rw [e1, List.tail_cons, ← hk] at q2
  refine ⟨m', ⟨0, fun _ _ => by simp [exec, q1]⟩, hs.cutOut (by rwa [List.take_append_drop]) q2⟩

/-! ## C43: `Do` -/

/-- `Do` calls `f` once with the value of each element, forward from the receiver, and terminates. -/
theorem C43_do {dflt : T} {h : List (Op T × Res T)} {m : Mem T} (hr : MRun dflt h m) {x : Nat}
    {A : List Nat} (hx : IsRing m (x :: A)) :
    ∃ m', MStep dflt m (.do_ (some x)) (.vals ((x :: A).map m.val)) m' ∧ Pure m m' ∧
      ∀ y, MStep dflt m (.getValue y) (.val (m.val y)) m := by
  obtain ⟨s, _, hs⟩ := hr.sim
  have e := hs.isRing.1 hx
  obtain ⟨r, m', s', q1, q2, q3⟩ := sim_step hs dflt (.do_ (some x)) (by simp [St.Valid, St.Has, e])
  obtain ⟨rfl, rfl⟩ := q2
  rw [e, ← hs.val] at q1
  exact ⟨m', q1, hs.pure q3, fun y => ⟨0, fun _ _ => rfl⟩⟩

theorem C43_nil (dflt : T) (m : Mem T) : MStep dflt m (.do_ none) (.vals []) m ∧
    MStep dflt m (.len none) (.int 0) m :=
  ⟨⟨0, fun _ _ => rfl⟩, ⟨0, fun _ _ => rfl⟩⟩

/-! ## Examples -/

section Examples

def demo : List (Op Nat) := [.new 5, .setValue 0 10, .setValue 1 11, .setValue 2 12, .setValue 3 13,
  .setValue 4 14]

def runs (dflt : T) (fuel : Nat) : Mem T → List (Op T) → Option (Mem T × List (Res T))
  | m, [] => some (m, [])
  | m, op :: ops => do
    let (m, r) ← exec dflt fuel m op
    let (m, rs) ← runs dflt fuel m ops
    some (m, r :: rs)

def outs (ops : List (Op Nat)) : Option (List (Res Nat)) :=
  (runs 0 20 (Mem.empty 0) (demo ++ ops)).map (fun p => p.2.drop 6)

/-- `Unlink(7)` of a ring of 5 removes 2 elements. -/
example : outs [.unlink 0 7, .do_ (some 0), .do_ (some 1)] =
    some [.elem (some 1), .vals [10, 13, 14], .vals [11, 12]] := rfl

/-- `Link` in the same ring. -/
example : outs [.link 3 (some 1), .do_ (some 3), .do_ (some 4)] =
    some [.elem (some 4), .vals [13, 11, 12], .vals [14, 10]] := rfl

/-- `Link` of different rings. -/
example : outs [.new 2, .link 1 (some 5), .do_ (some 0), .len (some 6), .move 0 (-7)] =
    some [.elem (some 5), .elem (some 2), .vals [10, 11, 0, 0, 12, 13, 14], .int 7, .elem (some 0)] := rfl

example : outs [.new 0, .zero, .len (some 5), .next 5, .move 0 (-6)] =
    some [.elem none, .elem (some 5), .int 1, .elem (some 5), .elem (some 4)] := rfl

/-- A run as in the theorems. -/
example : ∃ m, MRun (0 : Nat) [(.new 3, .elem (some 0)), (.unlink 1 1, .elem (some 2)),
    (.do_ (some 1), .vals [0, 0])] m :=
  ⟨_, .snoc (op := .do_ (some 1)) (.snoc (op := .unlink 1 1)
    (.snoc (op := .new 3) .nil trivial ⟨0, fun _ _ => rfl⟩) (show 1 < 3 by decide)
    ⟨0, fun _ _ => rfl⟩) (show 1 < 3 by decide) ⟨3, fun fuel hf => by
      obtain ⟨k, rfl⟩ := Nat.exists_eq_add_of_le hf
      rw [Nat.add_comm]; rfl⟩⟩

end Examples

end Verif.Ring
