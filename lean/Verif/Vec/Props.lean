import Verif.Vec.Sim
import Mathlib.Data.List.Forall2
import Mathlib.Tactic.Common
/-!
# Properties of `vec`: sequence behaviour (C52–C54, C74)
-/
namespace Verif.Vec
variable {T : Type} (E : Elt T) (g : Nat → Nat) (P : SortImpl T)

/-- The receiver of a call. -/
def Mut.recv : Mut T → Option Nat
  | .new _ _ => none
  | .setCmpLess v _ | .setCmpEqual v _ | .push v _ | .pop v | .remove v _ | .set v _ _ | .clear v | .cut v _ _
  | .splitOff v _ | .swap v _ _ | .compareAndRemove v _ _ | .grow v _ | .clip v | .clone v | .compact v
  | .compactFunc v _ | .delete v _ _ | .insert v _ _ | .replace v _ _ _ | .reverse v | .sort v | .sortFunc v _ _
  | .sortStable v | .sortStableFunc v _ _ => some v

/-- A program of calls on existing vectors, with their results. -/
inductive Run : List (Mut T) → List (Res T) → VMem T → Prop
  | nil : Run [] [] VMem.empty
  | snoc {h rs m op m' r} : Run h rs m → (∀ v, op.recv = some v → v < m.nv) → exec E g P m op = some (m', r) →
      Run (h ++ [op]) (rs ++ [r]) m'

/-- The same program on sequences, with what is required of the results. -/
inductive SRun : List (Mut T) → List (Res T → Prop) → SState T → Prop
  | nil : SRun [] [] SState.empty
  | snoc {h ps s op s' p} : SRun h ps s → spec E P s op = some (s', p) → SRun (h ++ [op]) (ps ++ [p]) s'

/-- `l` is what one sees of vector `v` through `Len`, `IsEmpty`, `Get`, `First`, `Last`, `Slice`, `SliceCut`,
`CloneToSlice`, `Range`, `Cap`. -/
structure Shows (m : VMem T) (v : Nat) (l : List T) : Prop where
  len : m.len v = l.length
  isEmpty : m.isEmpty v = l.isEmpty
  get : ∀ i : Nat, ∀ x, l[i]? = some x → m.get E v i = (x, true)
  get_out : ∀ i : Int, (i < 0 ∨ i ≥ l.length) → m.get E v i = (E.zero, false)
  first : m.first E v = match l.head? with | some x => (x, true) | none => (E.zero, false)
  last : m.last E v = match l.getLast? with | some x => (x, true) | none => (E.zero, false)
  slice : m.mem.read (m.slice v) = l
  sliceCut : ∀ i j : Int, (0 ≤ i ∧ i ≤ j ∧ j ≤ l.length → ∃ s, m.sliceCut v i j = some s ∧
      m.mem.read s = (l.take j.toNat).drop i.toNat) ∧
    (¬ (0 ≤ i ∧ i ≤ j ∧ j ≤ l.length) → m.sliceCut v i j = none)
  cloneToSlice : (m.cloneToSlice E g v).1.mem.read (m.cloneToSlice E g v).2 = l
  range : ∀ c : Nat → T → Bool, ∃ n, n ≤ l.length ∧ m.range v c = some ((l.zipIdx.take n).map (fun p => (p.2, p.1))) ∧
    (∀ k x, k + 1 < n → l[k]? = some x → c k x = true) ∧
    (n < l.length → ∃ k x, n = k + 1 ∧ l[k]? = some x ∧ c k x = false)
  cap : l.length ≤ m.cap v

variable {E g P} {m : VMem T} {s : SState T}

theorem step' (h : Rel m s) (op : Mut T) (hok : ∀ v, op.recv = some v → v < m.nv) :
    (exec E g P m op = none ∧ spec E P s op = none) ∨
    ∃ m' r s' p, exec E g P m op = some (m', r) ∧ spec E P s op = some (s', p) ∧ Rel m' s' ∧ p r := by
  apply step h op
  cases op <;> first | trivial | exact hok _ rfl

theorem rangeLoop_spec (c : Nat → T → Bool) : ∀ (l : List T) (i : Nat), ∃ n, n ≤ l.length ∧
    rangeLoop (fun i x => some (c i x)) l i = some (((l.zipIdx i).take n).map (fun p => (p.2, p.1))) ∧
    (∀ k x, k + 1 < n → l[k]? = some x → c (i + k) x = true) ∧
    (n < l.length → ∃ k x, n = k + 1 ∧ l[k]? = some x ∧ c (i + k) x = false) := by
  intro l
  induction l with
  | nil => intro i; exact ⟨0, by simp, rfl, by simp, by simp⟩
  | cons a l ih =>
    intro i
    obtain ⟨n, h1, h2, h3, h4⟩ := ih (i + 1)
    by_cases hc : c i a
    · by_cases hn : n = 0
      · subst hn
        have hl : l = [] := by
          rcases Nat.eq_zero_or_pos l.length with h | h
          · exact List.length_eq_zero_iff.1 h
          · obtain ⟨k, _, h5, _⟩ := h4 h; omega
        subst hl
        exact ⟨1, by simp, by simp [rangeLoop, hc], by intro k x h; omega, by simp⟩
      · refine ⟨n + 1, by simp; omega, ?_, ?_, ?_⟩
        · simp [rangeLoop, hc, h2, List.zipIdx_cons]
        · intro k x hk hx
          cases k with
          | zero => simp at hx; subst hx; exact hc
          | succ k =>
            have := h3 k x (by omega) (by simpa using hx)
            rw [show i + (k + 1) = i + 1 + k by omega]; exact this
        · intro hlt
          obtain ⟨k, x, e, hx, hcx⟩ := h4 (by simpa using hlt)
          exact ⟨k + 1, x, by omega, by simpa using hx, by rw [show i + (k + 1) = i + 1 + k by omega]; exact hcx⟩
    · refine ⟨1, by simp, by simp [rangeLoop, hc], by intro k x h; omega, ?_⟩
      intro _
      exact ⟨0, a, rfl, by simp, by simpa using hc⟩

theorem Rel.shows (h : Rel m s) {v : Nat} (hv : v < m.nv) : Shows E g m v (s.l v) := by
  obtain ⟨w1, o1, l1⟩ := h.wf v hv
  have hlen := h.len hv
  have hml : m.len v = (m.d v).len := rfl
  have hle : m.mem.read (m.d v) = s.l v := h.list v hv
  refine ⟨hlen, ?_, ?_, ?_, ?_, ?_, hle, ?_, ?_, ?_, ?_⟩
  · simp only [VMem.isEmpty, hlen]
    cases s.l v <;> simp
  · intro i x hx
    have hi : i < (s.l v).length := by
      rcases Nat.lt_or_ge i (s.l v).length with h | h
      · exact h
      · rw [List.getElem?_eq_none h] at hx; cases hx
    unfold VMem.get
    rw [if_neg (by omega)]
    have := h.at_eq (E := E) hv hi
    rw [hx] at this
    simp only [Int.toNat_natCast, this, Option.getD_some]
  · intro i hi
    unfold VMem.get
    rw [if_pos (by omega)]
  · unfold VMem.first
    cases hl : s.l v with
    | nil => rw [hl] at hlen; rw [if_pos (by simpa using hlen)]; rfl
    | cons a l =>
      rw [hl] at hlen
      have := h.at_eq (E := E) hv (i := 0) (by rw [hl]; simp)
      rw [hl] at this
      rw [if_neg (by rw [hlen]; simp), this]; rfl
  · unfold VMem.last
    cases hl : (s.l v).getLast? with
    | none =>
      rw [List.getLast?_eq_none_iff] at hl
      rw [hl] at hlen; rw [if_pos (by simpa using hlen)]
    | some x =>
      have hne : s.l v ≠ [] := by intro e; rw [e] at hl; cases hl
      have hpos := List.length_pos_iff.2 hne
      rw [if_neg (by omega)]
      have := h.at_eq (E := E) hv (i := m.len v - 1) (by omega)
      rw [List.getLast?_eq_getElem?] at hl
      rw [hlen, hl] at this
      rw [hlen, this]; rfl
  · intro i j
    constructor
    · intro hs
      unfold VMem.sliceCut
      rw [if_neg (by omega)]
      refine ⟨_, rfl, ?_⟩
      rw [← hle]
      apply List.ext_getElem?
      intro k
      simp only [Mem.read, sub, List.getElem?_take, List.getElem?_drop]
      by_cases hk : k < j.toNat - i.toNat
      · rw [if_pos hk, if_pos (by omega), if_pos (by omega), Nat.add_assoc]
      · rw [if_neg hk, if_neg (by omega)]
    · intro hs
      unfold VMem.sliceCut
      rw [if_pos (by omega)]
  · unfold VMem.cloneToSlice cloneS
    rw [hle]
    unfold append
    split
    · next hz =>
      simp only at hz
      have : s.l v = [] := List.length_eq_zero_iff.1 (by omega)
      rw [this]
      simp [Mem.read]
    · simp [Mem.read, Mem.alloc]
  · intro c
    have := rangeLoop_spec c (s.l v) 0
    simp only [VMem.range, VMem.list, hle]
    simpa using this
  · have := w1.len
    simp only [VMem.cap]; omega

theorem empty_rel : Rel (VMem.empty (T := T)) SState.empty :=
  ⟨rfl, fun _ => rfl, fun _ => rfl, fun v h => absurd h (Nat.not_lt_zero v), fun v h => absurd h (Nat.not_lt_zero v)⟩

theorem Run.rel {h : List (Mut T)} {rs : List (Res T)} (hr : Run E g P h rs m) :
    ∃ ps s, SRun E P h ps s ∧ List.Forall₂ (fun r p => p r) rs ps ∧ Rel m s := by
  induction hr with
  | nil => exact ⟨[], _, .nil, .nil, empty_rel⟩
  | @snoc h rs m op m' r _ hok he ih =>
    obtain ⟨ps, s, i1, i2, i3⟩ := ih
    rcases step' (E := E) (g := g) (P := P) i3 op hok with ⟨e, _⟩ | ⟨m'', r'', s', p, e1, e2, e3, e4⟩
    · rw [e] at he; cases he
    · rw [e1] at he
      injection he with he
      injection he with he1 he2
      subst he1; subst he2
      refine ⟨ps ++ [p], s', .snoc i1 e2, ?_, e3⟩
      exact List.rel_append i2 (.cons e4 .nil)

/-- C52: every program of calls has on the vectors the results it has on sequences, and the vectors
show those sequences — for all growth decisions `g` of the allocator. -/
theorem C52_history {h : List (Mut T)} {rs : List (Res T)} (hr : Run E g P h rs m) :
    ∃ ps s, SRun E P h ps s ∧ List.Forall₂ (fun r p => p r) rs ps ∧ m.nv = s.n ∧
      ∀ v, v < m.nv → Shows E g m v (s.l v) := by
  obtain ⟨ps, s, h1, h2, h3⟩ := hr.rel
  exact ⟨ps, s, h1, h2, h3.n, fun v hv => h3.shows hv⟩

theorem SRun.det {h : List (Mut T)} {ps ps' : List (Res T → Prop)} {s s' : SState T} (h1 : SRun E P h ps s)
    (h2 : SRun E P h ps' s') : ps = ps' ∧ s = s' := by
  induction h1 generalizing ps' s' with
  | nil =>
    generalize hh : ([] : List (Mut T)) = hh' at h2
    cases h2 with
    | nil => exact ⟨rfl, rfl⟩
    | snoc _ _ => simp at hh
  | @snoc h ps s op t p r1 e1 ih =>
    generalize hh : h ++ [op] = hh' at h2
    cases h2 with
    | nil => simp at hh
    | @snoc h' ps' s' op' t' p' r2 e2 =>
      obtain ⟨ea, eb⟩ := List.append_inj' hh rfl
      injection eb with eb
      subst ea; subst eb
      obtain ⟨a1, a2⟩ := ih r2
      subst a1; subst a2
      rw [e1] at e2
      injection e2 with e2
      injection e2 with e3 e4
      subst e3; subst e4
      exact ⟨rfl, rfl⟩

/-- C52: a call panics exactly when it does in the specification. -/
theorem C52_panic {h : List (Mut T)} {rs : List (Res T)} (hr : Run E g P h rs m) (op : Mut T)
    (hok : ∀ v, op.recv = some v → v < m.nv) {ps : List (Res T → Prop)} {s : SState T} (hs : SRun E P h ps s) :
    exec E g P m op = none ↔ spec E P s op = none := by
  obtain ⟨ps', s', h1, h2, h3⟩ := hr.rel
  obtain ⟨rfl, rfl⟩ := hs.det h1
  rcases step' (E := E) (g := g) (P := P) h3 op hok with ⟨e1, e2⟩ | ⟨m'', r'', s', p, e1, e2, e3, e4⟩
  · simp [e1, e2]
  · simp [e1, e2]

/-- `Grow` makes room. -/
theorem C52_grow {h : List (Mut T)} {rs : List (Res T)} (hr : Run E g P h rs m) {v : Nat} (hv : v < m.nv) (n : Nat) :
    ∃ m', exec E g P m (.grow v n) = some (m', .unit) ∧ m.len v + n ≤ m'.cap v := by
  obtain ⟨_, s, _, _, h⟩ := hr.rel
  obtain ⟨w1, o1, l1⟩ := h.wf v hv
  refine ⟨_, by simp only [exec]; rw [if_neg (by omega)], ?_⟩
  have := (eff_grow E g w1 o1 l1 n).2
  simpa [VMem.cap, setD_d, VMem.len] using this

/-- `Clip` removes unused capacity. -/
theorem C52_clip (m : VMem T) (v : Nat) :
    ∃ m', exec E g P m (.clip v) = some (m', .unit) ∧ m'.cap v = m.len v :=
  ⟨_, rfl, by simp [VMem.cap, setD_d, clipS, VMem.len]⟩

/-! ## C53: `Cut` -/

/-- What `Cut` returns: the place of the removed elements is in part overwritten by the elements
behind them.  Element `k` of the result is the old element `j + k` where there is one, and the right
one, `i + k`, only behind that. -/
theorem C53_exact {h : List (Mut T)} {rs : List (Res T)} (hr : Run E g P h rs m) {v : Nat} (hv : v < m.nv)
    {l : List T} (hl : Shows E g m v l) (i j : Nat) (hij : i ≤ j) (hj : j ≤ l.length) :
    ∃ m' sl, exec E g P m (.cut v i j) = some (m', .slice (some sl)) ∧ Shows E g m' v (l.take i ++ l.drop j) ∧
      (m'.mem.read sl).length = j - i ∧
      ∀ k, k < j - i → (m'.mem.read sl)[k]? = if j + k < l.length then l[j + k]? else l[i + k]? := by
  obtain ⟨_, s, _, _, h⟩ := hr.rel
  obtain ⟨w1, o1, l1⟩ := h.wf v hv
  have hml : m.len v = (m.d v).len := rfl
  have hle : m.mem.read (m.d v) = l := hl.slice
  have hsl : s.l v = l := by rw [← h.list v hv]; exact hle
  have hlen := hl.len
  have hcp := w1.len
  have hsp : span (i : Int) (j : Int) (s.l v).length := by rw [hsl]; simp only [span]; omega
  obtain ⟨c1, c2⟩ := (h.cut (E := E) (g := g) hv i j).1 hsp
  have hroom : (sub (m.d v) 0 i).len + ((m.mem.read (m.d v)).drop j).length ≤ (sub (m.d v) 0 i).cap := by
    rw [hle, List.length_drop]; simp [sub]; omega
  have hcell : ∀ k, k < j - i → ((cut E g m v i j).1.mem.read (sub (m.d v) i j))[k]? =
      if j + k < l.length then l[j + k]? else l[i + k]? := by
    intro k hk
    unfold Vec.cut
    rw [if_neg (by omega)]
    simp only [setD_mem, Int.toNat_natCast]
    rw [append_room E g _ hroom]
    rw [read_get, if_pos (show k < (sub (m.d v) i j).len from hk)]
    simp only [sub, Nat.sub_zero, Nat.add_zero]
    rw [hle, Nat.add_assoc, write_cell w1 i (l.drop j) (by rw [List.length_drop]; omega)]
    rw [if_neg (by omega), List.length_drop]
    by_cases h2 : j + k < l.length
    · rw [if_pos (by omega), if_pos h2, List.getElem?_drop]; congr 1; omega
    · rw [if_neg (by omega), if_neg h2, ← hle, read_get, if_pos (by omega)]
  have hc1 : (cut E g m v ↑i ↑j).2 = some (sub (m.d v) i j) := by rw [c2]; rfl
  refine ⟨(cut E g m v i j).1, sub (m.d v) i j, by simp only [exec]; rw [hc1], ?_, ?_, hcell⟩
  · have hnv : (cut E g m v i j).1.nv = m.nv := by unfold Vec.cut; split <;> rfl
    have := c1.shows (E := E) (g := g) (v := v) (by rw [hnv]; exact hv)
    simpa [SState.put, hsl] using this
  · have : ∀ k, k < j - i → ((cut E g m v i j).1.mem.read (sub (m.d v) i j))[k]? ≠ none := by
      intro k hk
      rw [hcell k hk]
      split
      · next h2 => rw [List.getElem?_eq_getElem h2]; simp
      · rw [List.getElem?_eq_getElem (by omega)]; simp
    have hle2 : ((cut E g m v i j).1.mem.read (sub (m.d v) i j)).length ≤ j - i := by
      simp [Mem.read, sub, List.length_take]; omega
    rcases Nat.lt_or_ge ((cut E g m v i j).1.mem.read (sub (m.d v) i j)).length (j - i) with h2 | h2
    · exact absurd (List.getElem?_eq_none (Nat.le_refl _)) (this _ h2)
    · omega

/-- C53 for cuts at the end (what `SplitOff` uses) and empty cuts.  Missing: every cut with elements
behind it, whose result shows other elements (`C53_exact`). -/
theorem C53_cut_partial {h : List (Mut T)} {rs : List (Res T)} (hr : Run E g P h rs m) {v : Nat} (hv : v < m.nv)
    {l : List T} (hl : Shows E g m v l) (i j : Nat) (hij : i ≤ j) (hj : j = l.length ∨ (i = j ∧ j ≤ l.length)) :
    ∃ m' sl, exec E g P m (.cut v i j) = some (m', .slice (some sl)) ∧ Shows E g m' v (l.take i ++ l.drop j) ∧
      m'.mem.read sl = (l.take j).drop i := by
  obtain ⟨m', sl, h1, h2, h3, h4⟩ := C53_exact hr hv hl i j hij (by omega)
  refine ⟨m', sl, h1, h2, ?_⟩
  apply List.ext_getElem?
  intro k
  rw [List.getElem?_drop, List.getElem?_take]
  by_cases hk : k < j - i
  · rw [h4 k hk, if_neg (by omega), if_pos (by omega)]
  · rw [List.getElem?_eq_none (by omega), if_neg (by omega)]

/-! ## C54: independence -/

/-- Slice `sl` is a view obtained from vector `v`: it lies in memory allocated for `v`. -/
def View (m : VMem T) (v : Nat) (sl : Slice) : Prop := m.mem.own sl.a = some v ∧ sl.a < m.mem.na

/-- `sl[k] = x`, by the user. -/
def poke (m : VMem T) (sl : Slice) (k : Nat) (x : T) : VMem T := { m with mem := m.mem.write sl.a (sl.off + k) [x] }

/-- Programs that besides calling methods write to slices obtained from vectors. -/
inductive ARun (E : Elt T) (g : Nat → Nat) (P : SortImpl T) : VMem T → Prop
  | nil : ARun E g P VMem.empty
  | call {m op m' r} : ARun E g P m → (∀ v, op.recv = some v → v < m.nv) → exec E g P m op = some (m', r) → ARun E g P m'
  | poke {m v sl k x} : ARun E g P m → View m v sl → sl.off + k < (m.mem.arr sl.a).length → ARun E g P (poke m sl k x)

theorem poke_rel (h : Rel m s) {v : Nat} {sl : Slice} (hvw : View m v sl) (k : Nat) (x : T)
    (hk : sl.off + k < (m.mem.arr sl.a).length) : ∃ l', Rel (poke m sl k x) (s.put v l') := by
  refine ⟨(poke m sl k x).list v, h.n, h.less, h.eq, ?_, ?_⟩
  · intro w hw
    by_cases e : w = v
    · simp [SState.put, e]
    · simp only [SState.put, if_neg e]
      rw [← h.list w hw]
      obtain ⟨_, o1, _⟩ := h.wf w hw
      have hne : (m.d w).a ≠ sl.a := by
        intro e'
        rw [e', hvw.1] at o1
        injection o1 with o1
        exact e o1.symm
      simp only [VMem.list, poke, Mem.read]
      show (((m.mem.write sl.a (sl.off + k) [x]).arr (m.d w).a).drop _).take _ = _
      rw [write_other _ _ _ _ hne]; rfl
  · intro w hw
    obtain ⟨w1, o1, l1⟩ := h.wf w hw
    exact ⟨WF.write w1 (by simp; omega), o1, l1⟩

theorem ARun.rel (hr : ARun E g P m) : ∃ s, Rel m s := by
  induction hr with
  | nil => exact ⟨_, empty_rel⟩
  | call _ hok he ih =>
    obtain ⟨s, i3⟩ := ih
    rcases step' (E := E) (g := g) (P := P) i3 _ hok with ⟨e, _⟩ | ⟨m'', r'', s', p, e1, e2, e3, e4⟩
    · rw [e] at he; cases he
    · rw [e1] at he
      injection he with he
      injection he with he1 he2
      subst he1
      exact ⟨s', e3⟩
  | poke _ hvw hk ih =>
    obtain ⟨s, i3⟩ := ih
    obtain ⟨l', h⟩ := poke_rel i3 hvw _ _ hk
    exact ⟨_, h⟩

theorem remAt_frame (E : Elt T) (s : SState T) (v : Nat) (i : Int) {w : Nat} (h : w ≠ v) :
    (remAt E s v i).1.l w = s.l w := by
  unfold remAt; split
  · simp [SState.put, h]
  · rfl

theorem remAt_frame' {E : Elt T} {s : SState T} {v : Nat} {i : Int} {s' : SState T} {p : Res T → Prop}
    (he : some (remAt E s v i) = some (s', p)) : (∀ w, w ≠ v → s'.l w = s.l w) ∧ s'.n = s.n := by
  injection he with he
  have : s' = (remAt E s v i).1 := by rw [he]
  subst this
  exact ⟨fun w hw => remAt_frame E s v i hw, by unfold remAt; split <;> rfl⟩

theorem spec_frame (op : Mut T) {s' : SState T} {p : Res T → Prop} (he : spec E P s op = some (s', p)) {w : Nat}
    (hw : w < s.n) (hne : op.recv ≠ some w) : s'.l w = s.l w := by
  have hput : ∀ v l, v ≠ w → (s.put v l).l w = s.l w := by
    intro v l h; simp [SState.put, Ne.symm h]
  have hadd : ∀ (t : SState T) v l, t.n = s.n → (t.addLike v l).l w = t.l w := by
    intro t v l ht; simp only [SState.addLike]; rw [if_neg (by omega)]
  have hne' : ∀ v, op.recv = some v → v ≠ w := fun v h e => hne (by rw [h, e])
  cases op <;> simp only [spec] at he <;> (repeat' split at he) <;>
    (try cases he) <;> (try rfl) <;>
    first
    | exact hput _ _ (hne' _ rfl)
    | exact (remAt_frame' he).1 _ (Ne.symm (hne' _ rfl))
    | exact remAt_frame _ _ _ _ (Ne.symm (hne' _ rfl))
    | exact (hadd (s.put _ _) _ _ rfl).trans (hput _ _ (hne' _ rfl))
    | exact hadd s _ _ rfl
    | (simp only; rw [if_neg (by omega)])
    | (obtain ⟨l, _, he⟩ := Option.map_eq_some_iff.1 he; cases he; exact hput _ _ (hne' _ rfl))
    | skip

/-- C54: a call of a method of vector `v`, or a write through a slice obtained from `v`, does not
change what any other vector shows — in particular not a clone, the other half of a `SplitOff`, or
the original. -/
theorem C54_independent (hr : ARun E g P m) {w : Nat} (hw : w < m.nv) {l : List T} (hl : Shows E g m w l) :
    (∀ op m' r, op.recv ≠ some w → (∀ v, op.recv = some v → v < m.nv) → exec E g P m op = some (m', r) →
      Shows E g m' w l) ∧
    (∀ v sl k x, v ≠ w → View m v sl → sl.off + k < (m.mem.arr sl.a).length → Shows E g (poke m sl k x) w l) := by
  obtain ⟨s, h⟩ := hr.rel
  have hsl : s.l w = l := by rw [← h.list w hw]; exact hl.slice
  constructor
  · intro op m' r hne hok he
    rcases step' (E := E) (g := g) (P := P) h op hok with ⟨e, _⟩ | ⟨m'', r'', s', p, e1, e2, e3, e4⟩
    · rw [e] at he; cases he
    · rw [e1] at he
      injection he with he
      injection he with he1 he2
      subst he1
      have hw' : w < s.n := by rw [← h.n]; exact hw
      have := spec_frame op e2 hw' hne
      have hlt : w < m''.nv := by
        rw [e3.n]
        -- the number of vectors does not decrease
        have : s.n ≤ s'.n := by
          cases op <;> simp only [spec] at e2 <;> (repeat' split at e2) <;> (try cases e2) <;>
            first
            | exact Nat.le_refl _
            | exact Nat.le_succ _
            | (obtain ⟨l, _, he⟩ := Option.map_eq_some_iff.1 e2; cases he; exact Nat.le_refl _)
            | exact Nat.le_of_eq (remAt_frame' e2).2.symm
            | exact Nat.le_of_eq (remAt_frame' (E := E) (s := s) rfl).2.symm
        omega
      rw [← hsl, ← this]
      exact e3.shows hlt
  · intro v sl k x hne hvw hk
    obtain ⟨l', h'⟩ := poke_rel h hvw k x hk
    have := h'.shows (E := E) (g := g) (v := w) hw
    simpa [SState.put, Ne.symm hne, hsl] using this

/-- The slices handed out by `Slice`, `SliceCut` and `Cut` of vector `v` are views obtained from
`v`; they stay so; and an array of one vector never becomes a view of another. -/
theorem C54_views (hr : ARun E g P m) {v : Nat} (hv : v < m.nv) :
    View m v (m.slice v) ∧ (∀ i j sl, m.sliceCut v i j = some sl → View m v sl) ∧
    (∀ i j m' sl, exec E g P m (.cut v i j) = some (m', .slice (some sl)) → View m v sl ∧ View m' v sl) ∧
    (∀ w sl, View m v sl → View m w sl → v = w) := by
  obtain ⟨s, h⟩ := hr.rel
  obtain ⟨w1, o1, l1⟩ := h.wf v hv
  refine ⟨⟨o1, l1⟩, ?_, ?_, ?_⟩
  · intro i j sl hsl
    unfold VMem.sliceCut at hsl
    split at hsl
    · cases hsl
    · injection hsl with hsl
      subst hsl
      exact ⟨o1, l1⟩
  · intro i j m' sl he
    simp only [exec] at he
    injection he with he
    injection he with he1 he2
    injection he2 with he2
    subst he1
    have hml : m.len v = (m.d v).len := rfl
    have hcp := w1.len
    unfold Vec.cut at he2 ⊢
    split at he2
    · cases he2
    · next hs =>
      injection he2 with he2
      subst he2
      refine ⟨⟨o1, l1⟩, ?_⟩
      rw [if_neg hs]
      have := eff_append E g w1 o1 l1 i.toNat (by omega) ((m.mem.read (m.d v)).drop j.toNat)
      exact ⟨by simp only [setD_mem]; rw [show (sub (m.d v) i.toNat j.toNat).a = (m.d v).a from rfl,
        this.own _ l1]; exact o1, Nat.lt_of_lt_of_le l1 this.na⟩
  · intro w sl h1 h2
    have := h1.1.symm.trans h2.1
    injection this

theorem Shows.list {v : Nat} {l : List T} (h : Shows E g m v l) : m.list v = l := h.slice

/-- The new vector shows the elements of the old one. -/
theorem C54_clone (hr : ARun E g P m) {v : Nat} (hv : v < m.nv) {l : List T} (hl : Shows E g m v l) :
    ∃ m', exec E g P m (.clone v) = some (m', .vec m.nv) ∧ m.nv < m'.nv ∧ Shows E g m' m.nv l ∧ Shows E g m' v l := by
  obtain ⟨s, h⟩ := hr.rel
  have hsl : s.l v = l := by rw [← h.list v hv]; exact hl.slice
  rcases step' (E := E) (g := g) (P := P) h (.clone v) (by intro w hw; injection hw with hw; omega) with
    ⟨e, _⟩ | ⟨m', r, s', p, e1, e2, e3, e4⟩
  · cases e
  · simp only [spec, Option.some.injEq, Prod.mk.injEq] at e2
    obtain ⟨e2, e5⟩ := e2
    have hn := h.n
    subst e2; subst e5
    have hnv : m'.nv = s.n + 1 := e3.n
    refine ⟨m', ?_, by omega, ?_, ?_⟩
    · rw [e1, e4, hn]
    · have := e3.shows (E := E) (g := g) (v := m.nv) (by omega)
      simpa [SState.addLike, hn, hsl] using this
    · have := e3.shows (E := E) (g := g) (v := v) (by omega)
      simpa [SState.addLike, hsl, show ¬ v = s.n by omega] using this

/-- `SplitOff(i)`: the first `i` elements stay, the new vector shows the others. -/
theorem C54_splitOff (hr : ARun E g P m) {v : Nat} (hv : v < m.nv) {l : List T} (hl : Shows E g m v l) (i : Nat)
    (hi : i ≤ l.length) :
    ∃ m', exec E g P m (.splitOff v i) = some (m', .vec m.nv) ∧ m.nv < m'.nv ∧ Shows E g m' m.nv (l.drop i) ∧
      Shows E g m' v (l.take i) := by
  obtain ⟨s, h⟩ := hr.rel
  have hsl : s.l v = l := by rw [← h.list v hv]; exact hl.slice
  rcases step' (E := E) (g := g) (P := P) h (.splitOff v i) (by intro w hw; injection hw with hw; omega) with
    ⟨e, _⟩ | ⟨m', r, s', p, e1, e2, e3, e4⟩
  · cases e
  · simp only [spec, hsl] at e2
    rw [if_pos (by omega)] at e2
    simp only [Option.some.injEq, Prod.mk.injEq] at e2
    obtain ⟨e2, e5⟩ := e2
    have hn := h.n
    subst e2; subst e5
    have hnv : m'.nv = s.n + 1 := e3.n
    refine ⟨m', ?_, by omega, ?_, ?_⟩
    · rw [e1, e4, hn]
    · have := e3.shows (E := E) (g := g) (v := m.nv) (by omega)
      simpa [SState.addLike, SState.put, hn] using this
    · have := e3.shows (E := E) (g := g) (v := v) (by omega)
      simpa [SState.addLike, SState.put, show ¬ v = s.n by omega] using this

end Verif.Vec
