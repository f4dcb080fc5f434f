import Verif.Dllist.Stale
/-!
# Pushing a whole list, whatever calls were made before (C190)

As in `Model.lean`, but with the value of sentinels, which these calls can read after calls with elements left behind by `Clear` or `Sort`.
-/
namespace Verif.Dllist.Push
open Verif.Dllist
variable {T : Type}

/-- `p.Value`: element.go:8.  The package never writes the sentinel's, so it is the zero value `z` (a client that
gets the sentinel from `Front` could write it, which is left out), as are those of elements that do not exist. -/
def valueZ (z : T) (m : Mem T) : Ptr → T
  | .node n => (m.val n).getD z
  | .root _ => z

/-- Where the elements are put: `&l.root`, `l.root.prev` or `mark`: dllist.go:176, 185, 192, 201. -/
inductive At
  | front | back | behind (mark : Nat)

def At.ptr (m : Mem T) (l : Nat) : At → Option Ptr
  | .front => some (.root l)
  | .back => m.prev (.root l)
  | .behind n => some (.node n)

/-- `e.Next()` or `e.Prev()`. -/
def step (fwd : Bool) (m : Mem T) (p : Ptr) : Option Ptr := if fwd then elNext m p else elPrev m p

/-- The loops, `i` iterations left: dllist.go:175-177, 184-186, 191-193, 200-202. -/
def loop (z : T) (l : Nat) (w : At) (fwd : Bool) : Nat → Mem T → Option Ptr → Option (Mem T)
  | 0, m, _ => some m
  | i + 1, m, e => do
    let p ← e
    let (m, _) ← insertValue m l (valueZ z m p) (w.ptr m l)
    loop z l w fwd i m (step fwd m p)

/-- `PushBackList(other)`: dllist.go:173-178. -/
def pushBackList (z : T) (m : Mem T) (l o : Nat) : Option (Mem T) :=
  let m := lazyInit m l
  loop z l .back true (m.len o).toNat (front m o).1 (front m o).2

/-- `PushBackListTo(other, mark)`: dllist.go:180-187. -/
def pushBackListTo (z : T) (m : Mem T) (l o mark : Nat) : Option (Mem T) :=
  if m.owner (.node mark) ≠ some l then some m
  else loop z l (.behind mark) true (m.len o).toNat (front m o).1 (front m o).2

/-- `PushFrontList(other)`: dllist.go:189-194. -/
def pushFrontList (z : T) (m : Mem T) (l o : Nat) : Option (Mem T) :=
  let m := lazyInit m l
  loop z l .front false (m.len o).toNat (back m o).1 (back m o).2

/-- `PushFrontListTo(other, mark)`: dllist.go:196-203. -/
def pushFrontListTo (z : T) (m : Mem T) (l o mark : Nat) : Option (Mem T) :=
  if m.owner (.node mark) ≠ some l then some m
  else loop z l (.behind mark) false (m.len o).toNat (back m o).1 (back m o).2

/-! ## Where the model of `Model.lean` returns, it is this one -/

theorem valueZ_of {z v : T} {m : Mem T} {p : Ptr} (h : value m p = some v) : valueZ z m p = v := by
  cases p with
  | node n => simp only [value] at h; simp [valueZ, h]
  | root l => cases h

theorem backLoop_of (z : T) (l : Nat) : ∀ (i : Nat) (m : Mem T) (e : Option Ptr) (m' : Mem T), pushBackListLoop l i m e = some m' → loop z l .back true i m e = some m'
  | 0, _, _, _, h => h
  | i + 1, m, e, m', h => by
    simp only [pushBackListLoop, Option.bind_eq_bind, Option.bind_eq_some_iff] at h
    obtain ⟨p, rfl, v, hv, ⟨m1, n⟩, h1, h2⟩ := h
    simp only [loop, valueZ_of hv, At.ptr, Option.bind_eq_bind, Option.bind_some, h1, step, if_true]
    exact backLoop_of z l i _ _ _ h2

theorem frontLoop_of (z : T) (l : Nat) : ∀ (i : Nat) (m : Mem T) (e : Option Ptr) (m' : Mem T), pushFrontListLoop l i m e = some m' → loop z l .front false i m e = some m'
  | 0, _, _, _, h => h
  | i + 1, m, e, m', h => by
    simp only [pushFrontListLoop, Option.bind_eq_bind, Option.bind_eq_some_iff] at h
    obtain ⟨p, rfl, v, hv, ⟨m1, n⟩, h1, h2⟩ := h
    simp only [loop, valueZ_of hv, At.ptr, Option.bind_eq_bind, Option.bind_some, h1, step, Bool.false_eq_true, if_false]
    exact frontLoop_of z l i _ _ _ h2

theorem backToLoop_of (z : T) (l mark : Nat) : ∀ (i : Nat) (m : Mem T) (e : Option Ptr) (m' : Mem T), pushBackListToLoop l mark i m e = some m' → loop z l (.behind mark) true i m e = some m'
  | 0, _, _, _, h => h
  | i + 1, m, e, m', h => by
    simp only [pushBackListToLoop, Option.bind_eq_bind, Option.bind_eq_some_iff] at h
    obtain ⟨p, rfl, v, hv, ⟨m1, n⟩, h1, h2⟩ := h
    simp only [loop, valueZ_of hv, At.ptr, Option.bind_eq_bind, Option.bind_some, h1, step, if_true]
    exact backToLoop_of z l mark i _ _ _ h2

theorem frontToLoop_of (z : T) (l mark : Nat) : ∀ (i : Nat) (m : Mem T) (e : Option Ptr) (m' : Mem T), pushFrontListToLoop l mark i m e = some m' → loop z l (.behind mark) false i m e = some m'
  | 0, _, _, _, h => h
  | i + 1, m, e, m', h => by
    simp only [pushFrontListToLoop, Option.bind_eq_bind, Option.bind_eq_some_iff] at h
    obtain ⟨p, rfl, v, hv, ⟨m1, n⟩, h1, h2⟩ := h
    simp only [loop, valueZ_of hv, At.ptr, Option.bind_eq_bind, Option.bind_some, h1, step, Bool.false_eq_true, if_false]
    exact frontToLoop_of z l mark i _ _ _ h2

/-- **C190**: where the calls of `Model.lean` return, these do the same. -/
theorem C190_model (z : T) (m m' : Mem T) (l o mark : Nat) :
    (Dllist.pushBackList m l o = some m' → pushBackList z m l o = some m') ∧ (Dllist.pushFrontList m l o = some m' → pushFrontList z m l o = some m') ∧
    (Dllist.pushBackListTo m l o mark = some m' → pushBackListTo z m l o mark = some m') ∧
    (Dllist.pushFrontListTo m l o mark = some m' → pushFrontListTo z m l o mark = some m') := by
  refine ⟨fun h => backLoop_of z l _ _ _ _ h, fun h => frontLoop_of z l _ _ _ _ h, fun h => ?_, fun h => ?_⟩
  · unfold Dllist.pushBackListTo at h
    unfold pushBackListTo
    split at h
    next ho => rw [if_pos ho]; exact h
    next ho => rw [if_neg ho]; exact backToLoop_of z l mark _ _ _ _ h
  · unfold Dllist.pushFrontListTo at h
    unfold pushFrontListTo
    split at h
    next ho => rw [if_pos ho]; exact h
    next ho => rw [if_neg ho]; exact frontToLoop_of z l mark _ _ _ _ h

/-! ## What they do -/

/-- The first `k` pointers of a walk, if there are so many. -/
def follow (f : Ptr → Option Ptr) : Nat → Option Ptr → Option (List Ptr)
  | 0, _ => some []
  | _ + 1, none => none
  | k + 1, some p => (follow f k (f p)).map (p :: ·)

theorem insertValue_frame {m : Mem T} (h : Sound m) {l : Nat} (hi : m.inited l = true) (v : T) {a : Ptr} (ha : Mine m l a) :
    ∃ m1, insertValue m l v (some a) = some (m1, m.fresh) ∧ Sound m1 ∧ m1.inited = m.inited ∧ (∀ p, p ≠ .node m.fresh → m1.owner p = m.owner p) ∧
      m1.owner (.node m.fresh) = some l ∧ (∀ p, ¬ Mine m l p → p ≠ .node m.fresh → m1.next p = m.next p ∧ m1.prev p = m.prev p) ∧
      m1.len = upd m.len l (m.len l + 1) ∧ m1.fresh = m.fresh + 1 ∧ m1.val = upd m.val m.fresh (some v) := by
  obtain ⟨m1, h1, h2, h3, h4⟩ := h.insertValue hi v ha
  refine ⟨m1, h1, h2, h3, h4, ?_⟩
  obtain ⟨rank, hk⟩ := h.lk l hi
  obtain ⟨b, hb, eb, _⟩ := hk.fw a ha
  have hne : a ≠ .node m.fresh := by
    rintro rfl
    rcases ha with ha | ha
    · cases ha
    · exact absurd (h.alloc _ _ ha) (by omega)
  have hne' : ¬ Ptr.node m.fresh = a := fun h => hne h.symm
  simp only [insertValue, Dllist.insert, Option.bind_eq_bind, Option.bind_some, Mem.setPrev, Mem.setNext, upd, if_true, if_false, hne', eb,
    Option.some.injEq, Prod.mk.injEq, and_true] at h1
  subst h1
  simp only [Mem.setOwner, Mem.setLen, upd, if_true, and_self, and_true, true_and]
  intro p hp hp'
  have h5 : ¬ p = a := by rintro rfl; exact hp ha
  have h6 : ¬ p = b := by rintro rfl; exact hp hb
  simp only [h5, h6, hp', if_false, and_self]

theorem step_mine {m : Mem T} (h : Sound m) {o : Nat} {fwd : Bool} {p q : Ptr} (hp : Mine m o p) (hs : step fwd m p = some q) : Mine m o q := by
  rcases hp with rfl | hp
  · cases fwd <;> simp [step, elNext, elPrev, h.rootOwner] at hs
  · obtain ⟨rank, hk⟩ := h.lk o (h.ini _ _ hp)
    cases fwd with
    | true =>
      obtain ⟨q', hq, e, _⟩ := hk.fw p (.inr hp)
      simp only [step, elNext, hp, if_true, e] at hs
      split at hs
      · cases hs
      · cases hs; exact hq
    | false =>
      obtain ⟨q', hq, e, _⟩ := hk.bw p (.inr hp)
      simp only [step, elPrev, hp, e, Bool.false_eq_true, if_false] at hs
      split at hs
      · cases hs
      · cases hs; exact hq

def At.ok (m : Mem T) (l : Nat) : At → Prop
  | .behind n => m.owner (.node n) = some l
  | _ => True

theorem At.ok.ptr {m : Mem T} (h : Sound m) {l : Nat} (hi : m.inited l = true) {w : At} (hw : w.ok m l) : ∃ a, w.ptr m l = some a ∧ Mine m l a := by
  cases w with
  | front => exact ⟨_, rfl, .inl rfl⟩
  | back => exact h.before hi (p := .root l) (.inl rfl)
  | behind n => exact ⟨_, rfl, .inr hw⟩

theorem follow_congr {f g : Ptr → Option Ptr} {P : Ptr → Prop} (h1 : ∀ p, P p → f p = g p) (h2 : ∀ p q, P p → f p = some q → P q) :
    ∀ (k : Nat) (e : Option Ptr), (∀ p, e = some p → P p) → follow f k e = follow g k e
  | 0, _, _ => by simp only [follow]
  | _ + 1, none, _ => rfl
  | k + 1, some p, he => by
    have hp := he p rfl
    simp only [follow]
    rw [← h1 p hp, follow_congr h1 h2 k (f p) (fun q hq => h2 p q hp hq)]

theorem follow_mine {f : Ptr → Option Ptr} {P : Ptr → Prop} (h2 : ∀ p q, P p → f p = some q → P q) :
    ∀ (k : Nat) (e : Option Ptr) (ps : List Ptr), (∀ p, e = some p → P p) → follow f k e = some ps → ∀ p, p ∈ ps → P p
  | 0, _, _, _, h => by cases h; simp
  | _ + 1, none, _, _, h => by cases h
  | k + 1, some p, ps, he, h => by
    simp only [follow, Option.map_eq_some_iff] at h
    obtain ⟨qs, h, rfl⟩ := h
    intro q hq
    rcases List.mem_cons.1 hq with rfl | hq
    · exact he _ rfl
    · exact follow_mine h2 k _ qs (fun r hr => h2 p r (he p rfl) hr) h q hq

/-- What a push of `k` values leaves. -/
structure Pushed (m m' : Mem T) (l : Nat) (vs : List T) : Prop where
  fresh : m'.fresh = m.fresh + vs.length
  len : m'.len = upd m.len l (m.len l + vs.length)
  new : ∀ j v, vs[j]? = some v → m'.val (m.fresh + j) = some v ∧ m'.owner (.node (m.fresh + j)) = some l
  old : ∀ n, n < m.fresh → m'.val n = m.val n ∧ m'.owner (.node n) = m.owner (.node n)
  others : ∀ p, ¬ Mine m l p → (∀ n, p = .node n → n < m.fresh) → m'.next p = m.next p ∧ m'.prev p = m.prev p

theorem loop_spec (z : T) {l o : Nat} (hlo : l ≠ o) (w : At) (fwd : Bool) : ∀ (i : Nat) (m : Mem T) (e : Option Ptr), Sound m → m.inited l = true → w.ok m l →
    (∀ p, e = some p → Mine m o p) → (follow (step fwd m) i e = none → loop z l w fwd i m e = none) ∧
    ∀ ps, follow (step fwd m) i e = some ps → ∃ m', loop z l w fwd i m e = some m' ∧ Sound m' ∧ Pushed m m' l (ps.map (valueZ z m))
  | 0, m, e, h, _, _, _ => by
    refine ⟨fun h => (by simp only [follow, reduceCtorEq] at h), fun ps hps => ?_⟩
    simp only [follow, Option.some.injEq] at hps
    subst hps
    refine ⟨m, rfl, h, rfl, ?_, by simp, fun _ _ => ⟨rfl, rfl⟩, fun _ _ _ => ⟨rfl, rfl⟩⟩
    funext x
    simp only [upd, List.map_nil, List.length_nil]
    split
    next hx => subst hx; simp
    next => rfl
  | i + 1, m, none, _, _, _, _ => ⟨fun _ => rfl, fun ps hps => (by cases hps)⟩
  | i + 1, m, some p, h, hi, hw, he => by
    have hp := he p rfl
    obtain ⟨a, ha, hma⟩ := hw.ptr h hi
    obtain ⟨m1, h1, hs1, hin, hown, hnew, hfr, hlen, hfresh, hval⟩ := insertValue_frame h hi (valueZ z m p) hma
    have hfree : ∀ q, Mine m o q → q ≠ .node m.fresh := by
      rintro q hq rfl
      rcases hq with hq | hq
      · cases hq
      · exact absurd (h.alloc _ _ hq) (by omega)
    have hstep : ∀ q, Mine m o q → step fwd m q = step fwd m1 q := by
      intro q hq
      obtain ⟨n1, n2⟩ := hfr q (Mine.disj h hlo.symm hq) (hfree q hq)
      cases fwd <;> simp only [step, elNext, elPrev, n1, n2, hown q (hfree q hq)]
    have hmine : ∀ q, Mine m o q → Mine m1 o q := by
      intro q hq
      rcases hq with hq | hq
      · exact .inl hq
      · exact .inr (by rw [hown q (hfree q (.inr hq))]; exact hq)
    have hclosed : ∀ q r, Mine m o q → step fwd m q = some r → Mine m o r := fun q r hq hr => step_mine h hq hr
    have hfol : follow (step fwd m) i (step fwd m p) = follow (step fwd m1) i (step fwd m1 p) := by
      rw [← hstep p hp]
      exact follow_congr hstep hclosed i _ (fun r hr => hclosed p r hp hr)
    have hw1 : w.ok m1 l := by
      cases w with
      | front => trivial
      | back => trivial
      | behind n =>
        simp only [At.ok] at hw ⊢
        rw [hown _ ?_]; · exact hw
        intro hc; injection hc with hc
        exact absurd (h.alloc _ _ hw) (by omega)
    obtain ⟨ih1, ih2⟩ := loop_spec z hlo w fwd i m1 (step fwd m1 p) hs1 (by rw [hin]; exact hi) hw1
      (fun r hr => hmine r (hclosed p r hp (by rw [hstep p hp]; exact hr)))
    have hloop : loop z l w fwd (i + 1) m (some p) = loop z l w fwd i m1 (step fwd m1 p) := by
      simp only [loop, Option.bind_eq_bind, Option.bind_some, ha, h1]
    rw [hloop]
    constructor
    · intro hn
      simp only [follow, Option.map_eq_none_iff] at hn
      exact ih1 (by rw [← hfol]; exact hn)
    · intro ps hps
      simp only [follow, Option.map_eq_some_iff] at hps
      obtain ⟨qs, hqs, rfl⟩ := hps
      obtain ⟨m', h2, h3, h4⟩ := ih2 qs (by rw [← hfol]; exact hqs)
      have hvals : qs.map (valueZ z m1) = qs.map (valueZ z m) := by
        refine List.map_congr_left fun q hq => ?_
        have := hfree q (follow_mine hclosed i _ qs (fun r hr => hclosed p r hp hr) hqs q hq)
        cases q with
        | root _ => rfl
        | node n =>
          have : n ≠ m.fresh := by rintro rfl; exact this rfl
          simp only [valueZ, hval, upd, this, if_false]
      rw [hvals] at h4
      refine ⟨m', h2, h3, ?_⟩
      refine ⟨?_, ?_, ?_, ?_, ?_⟩
      · rw [h4.fresh, hfresh]; simp only [List.map_cons, List.length_cons]; omega
      · rw [h4.len, hlen]
        funext x
        simp only [upd, List.map_cons, List.length_cons, if_true]
        split
        · push_cast; omega
        · rfl
      · intro j v hj
        cases j with
        | zero =>
          simp only [List.map_cons, List.getElem?_cons_zero, Option.some.injEq] at hj
          subst hj
          obtain ⟨o1, o2⟩ := h4.old m.fresh (by omega)
          rw [Nat.add_zero, o1, o2, hval]
          exact ⟨by simp [upd], hnew⟩
        | succ j =>
          simp only [List.map_cons, List.getElem?_cons_succ] at hj
          have := h4.new j v hj
          rw [hfresh] at this
          rw [show m.fresh + (j + 1) = m.fresh + 1 + j by omega]
          exact this
      · intro n hn
        obtain ⟨o1, o2⟩ := h4.old n (by omega)
        have : n ≠ m.fresh := by omega
        rw [o1, o2, hval, hown _ (by intro hc; injection hc with hc; exact this hc)]
        exact ⟨by simp [upd, this], rfl⟩
      · intro q hq hqn
        have hqf : q ≠ .node m.fresh := fun hc => absurd (hqn _ hc) (by omega)
        obtain ⟨n1, n2⟩ := hfr q hq hqf
        have hq1 : ¬ Mine m1 l q := by
          rintro (hc | hc)
          · exact hq (.inl hc)
          · exact hq (.inr (by rw [← hown q hqf]; exact hc))
        obtain ⟨k1, k2⟩ := h4.others q hq1 (fun n hc => by have := hqn n hc; omega)
        rw [k1, k2, n1, n2]
        exact ⟨rfl, rfl⟩

theorem step_true (m : Mem T) : step true m = elNext m := rfl
theorem step_false (m : Mem T) : step false m = elPrev m := rfl

theorem front_inited {m : Mem T} {l : Nat} (o : Nat) (hi : m.inited l = true) : (front m o).1.inited l = true := by
  unfold front
  split
  · exact hi
  · exact lazyInit_keeps o hi

theorem back_inited {m : Mem T} {l : Nat} (o : Nat) (hi : m.inited l = true) : (back m o).1.inited l = true := by
  unfold back
  split
  · exact hi
  · exact lazyInit_keeps o hi

theorem front_owner {m : Mem T} (h : Sound m) (o : Nat) : (front m o).1.owner = m.owner := by
  unfold front
  split
  · rfl
  · exact (h.lazyInit o).2.2

theorem back_owner {m : Mem T} (h : Sound m) (o : Nat) : (back m o).1.owner = m.owner := by
  unfold back
  split
  · rfl
  · exact (h.lazyInit o).2.2

/-- A call panics if the walk is too short, and otherwise pushes the values it meets. -/
def Does (z : T) (m : Mem T) (l : Nat) (walk : Option (List Ptr)) (res : Option (Mem T)) : Prop :=
  match walk with
  | none => res = none
  | some ps => ∃ m', res = some m' ∧ Pushed m m' l (ps.map (valueZ z m))

theorem does_of {z : T} {m : Mem T} {l o : Nat} (hlo : l ≠ o) {w : At} {fwd : Bool} {i : Nat} {e : Option Ptr} (h : Sound m) (hi : m.inited l = true)
    (hw : w.ok m l) (he : ∀ p, e = some p → Mine m o p) : Does z m l (follow (step fwd m) i e) (loop z l w fwd i m e) := by
  obtain ⟨h1, h2⟩ := loop_spec z hlo w fwd i m e h hi hw he
  cases hf : follow (step fwd m) i e with
  | none => exact h1 hf
  | some ps =>
    obtain ⟨m', h3, _, h4⟩ := h2 ps hf
    exact ⟨m', h3, h4⟩

/-- The list is initialised before the length of the other one is read. -/
theorem lazyInit_len {m : Mem T} {l o : Nat} (hlo : l ≠ o) : (lazyInit m l).len o = m.len o := by
  unfold lazyInit
  split
  · rfl
  · simp [clear, Mem.setInited, Mem.setLen, Mem.setPrev, Mem.setNext, upd, Ne.symm hlo]

/-- **C190**: `PushBackList` of another list, whatever calls were made before: it panics if fewer than `Len` elements are reached by `Next` from
`Front`; otherwise that many elements are new, with the values met on the way, the zero value for the sentinel. -/
theorem C190_pushBackList (z : T) {m : Mem T} (h : Any m) {l o : Nat} (hlo : l ≠ o) :
    let r := front (lazyInit m l) o
    Does z r.1 l (follow (elNext r.1) (m.len o).toNat r.2) (pushBackList z m l o) := by
  obtain ⟨h1, h2, _⟩ := h.sound.lazyInit l
  have h3 := h1.front o
  simp only [← step_true, pushBackList, lazyInit_len hlo]
  exact does_of hlo h3.1 (front_inited o h2) trivial (fun p hp => (h3.2 p hp).2)

/-- **C190**: `PushFrontList`, the same with `Prev` from `Back`. -/
theorem C190_pushFrontList (z : T) {m : Mem T} (h : Any m) {l o : Nat} (hlo : l ≠ o) :
    let r := back (lazyInit m l) o
    Does z r.1 l (follow (elPrev r.1) (m.len o).toNat r.2) (pushFrontList z m l o) := by
  obtain ⟨h1, h2, _⟩ := h.sound.lazyInit l
  have h3 := h1.back o
  simp only [← step_false, pushFrontList, lazyInit_len hlo]
  exact does_of hlo h3.1 (back_inited o h2) trivial (fun p hp => (h3.2 p hp).2)

/-- **C190**: `PushBackListTo` does nothing if the mark is not in the list, and else the same as `PushBackList`. -/
theorem C190_pushBackListTo (z : T) {m : Mem T} (h : Any m) {l o mark : Nat} (hlo : l ≠ o) :
    (m.owner (.node mark) ≠ some l → pushBackListTo z m l o mark = some m) ∧
    (m.owner (.node mark) = some l → Does z (front m o).1 l (follow (elNext (front m o).1) (m.len o).toNat (front m o).2) (pushBackListTo z m l o mark)) := by
  refine ⟨fun ho => if_pos ho, fun ho => ?_⟩
  have h3 := h.sound.front o
  rw [pushBackListTo, if_neg (by simp [ho]), ← step_true]
  refine does_of hlo h3.1 (front_inited o (h.sound.ini _ _ ho)) ?_ (fun p hp => (h3.2 p hp).2)
  simp only [At.ok, front_owner h.sound, ho]

/-- **C190**: `PushFrontListTo`. -/
theorem C190_pushFrontListTo (z : T) {m : Mem T} (h : Any m) {l o mark : Nat} (hlo : l ≠ o) :
    (m.owner (.node mark) ≠ some l → pushFrontListTo z m l o mark = some m) ∧
    (m.owner (.node mark) = some l → Does z (back m o).1 l (follow (elPrev (back m o).1) (m.len o).toNat (back m o).2) (pushFrontListTo z m l o mark)) := by
  refine ⟨fun ho => if_pos ho, fun ho => ?_⟩
  have h3 := h.sound.back o
  rw [pushFrontListTo, if_neg (by simp [ho]), ← step_false]
  refine does_of hlo h3.1 (back_inited o (h.sound.ini _ _ ho)) ?_ (fun p hp => (h3.2 p hp).2)
  simp only [At.ok, back_owner h.sound, ho]

/-- List 1 with element 0; list 0, in which an element was put behind element 1 that `Clear` left behind: it counts one element, and its
`Front` is the sentinel. -/
def sample : Option (Mem Nat) := do
  let (m, _) ← exec 0 Mem.empty .new
  let (m, _) ← exec 0 m .new
  let (m, _) ← exec 0 m (.pushBack 1 9)
  let (m, _) ← exec 0 m (.pushBack 0 1)
  let (m, _) ← exec 0 m (.clear 0)
  let (m, _) ← exec 0 m (.insertAfter 0 4 1)
  pure m

example (m : Mem Nat) (h : sample = some m) : Any m := by
  simp only [sample, Option.bind_eq_bind, Option.bind_eq_some_iff, Prod.exists, Option.pure_def, Option.some.injEq] at h
  obtain ⟨_, _, h0, _, _, h1, _, _, h2, _, _, h3, _, _, h4, _, _, h5, rfl⟩ := h
  exact .call (.call (.call (.call (.call (.call .start rfl h0) rfl h1) rfl h2) rfl h3) rfl h4) rfl h5

example : (sample.map fun m => (m.len 0, (front m 0).2)) = some (1, some (.root 0)) := rfl
/-- It pushes 77, the zero value here. -/
example : (sample.bind fun m => (pushBackList 77 m 1 0).map fun m' => (m'.len 1, m'.next (.node 0), m'.val 3)) = some (2, some (.node 3), some 77) := rfl
example : (sample.bind fun m => (pushFrontListTo 77 m 1 0 0).map fun m' => (m'.len 1, m'.next (.node 0), m'.val 3)) = some (2, some (.node 3), some 4) := rfl
example : (sample.map fun m => (Dllist.pushBackList m 1 0).isNone) = some true := rfl
example : (sample.map fun m => match exec 0 m (.insertAfter 0 5 1) with
  | some (m, _) => (m.len 0, (pushBackList 77 m 1 0).isNone)
  | none => (0, false)) = some (2, true) := rfl

end Verif.Dllist.Push
