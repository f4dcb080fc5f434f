import Verif.Vec.Order
/-!
# Properties of `vec`: views over time, comparison functions of clones (C74), counterexamples, examples
-/
namespace Verif.Vec
variable {T : Type} {E : Elt T} {g : Nat → Nat} {P : SortImpl T} {m : VMem T} {s : SState T}

/-! ## Views stay views -/

/-- Arrays keep their owners. -/
structure Keeps (m m' : Mem T) : Prop where
  na : m.na ≤ m'.na
  own : ∀ a, a < m.na → m'.own a = m.own a

theorem Keeps.refl (m : Mem T) : Keeps m m := ⟨Nat.le_refl _, fun _ _ => rfl⟩
theorem Keeps.trans {m m' m'' : Mem T} (h1 : Keeps m m') (h2 : Keeps m' m'') : Keeps m m'' :=
  ⟨Nat.le_trans h1.na h2.na, fun a ha => (h2.own a (Nat.lt_of_lt_of_le ha h1.na)).trans (h1.own a ha)⟩
theorem keeps_write (m : Mem T) (a off : Nat) (xs : List T) : Keeps m (m.write a off xs) := ⟨Nat.le_refl _, fun _ _ => rfl⟩
theorem keeps_alloc (m : Mem T) (o : Option Nat) (xs : List T) : Keeps m (m.alloc o xs) :=
  ⟨Nat.le_succ _, fun a ha => by simp only [Mem.alloc]; rw [if_neg (by omega)]⟩
theorem keeps_append (o : Option Nat) (m : Mem T) (s : Slice) (xs : List T) : Keeps m (append E g o m s xs).1 := by
  unfold append; split
  · exact keeps_write ..
  · exact keeps_alloc ..
theorem keeps_grow (o : Option Nat) (m : Mem T) (s : Slice) (n : Nat) : Keeps m (growS E g o m s n).1 := by
  unfold growS; split
  · exact keeps_append ..
  · exact .refl _
theorem keeps_insert (o : Option Nat) (m : Mem T) (s : Slice) (i : Nat) (xs : List T) : Keeps m (insertS E g o m s i xs).1 := by
  unfold insertS; (repeat' split)
  · exact .refl _
  · exact keeps_append ..
  · exact (keeps_append ..).trans ((keeps_write ..).trans (keeps_write ..))
  · exact (keeps_write ..).trans (keeps_write ..)
theorem keeps_delete (o : Option Nat) (m : Mem T) (s : Slice) (i j : Nat) : Keeps m (deleteS E g o m s i j).1 := by
  unfold deleteS; split
  · exact .refl _
  · exact (keeps_append ..).trans (keeps_write ..)
theorem keeps_replace (o : Option Nat) (m : Mem T) (s : Slice) (i j : Nat) (xs : List T) :
    Keeps m (replaceS E g o m s i j xs).1 := by
  unfold replaceS; split
  · exact keeps_insert ..
  · split
    · dsimp only
      split
      · exact (keeps_append ..).trans (keeps_write ..)
      · exact keeps_append ..
    · dsimp only
      split
      · exact (keeps_append ..).trans ((keeps_write ..).trans (keeps_write ..))
      · split
        · exact (keeps_write ..).trans ((keeps_write ..).trans (keeps_write ..))
        · exact (keeps_write ..).trans (keeps_write ..)
theorem keeps_compact (m : Mem T) (s : Slice) (eq : T → T → Bool) : Keeps m (compactS E m s eq).1 := by
  unfold compactS; split
  · exact .refl _
  · exact (keeps_write ..).trans (keeps_write ..)
theorem keeps_push (m : VMem T) (v : Nat) (xs : List T) : Keeps m.mem (push E g m v xs).mem := by
  unfold push; dsimp only; split
  · exact (keeps_grow ..).trans (keeps_append ..)
  · exact keeps_append ..
theorem keeps_remove (m : VMem T) (v : Nat) (i : Int) : Keeps m.mem (remove E m v i).1.mem := by
  unfold remove; dsimp only; split
  · exact .refl _
  · split
    · exact .refl _
    · exact keeps_write ..
theorem keeps_cut (m : VMem T) (v : Nat) (i j : Int) : Keeps m.mem (cut E g m v i j).1.mem := by
  unfold cut; split
  · exact .refl _
  · exact keeps_append ..

theorem keeps_new (m : VMem T) (l e : Cmp T) : Keeps m.mem (m.new l e).mem := keeps_alloc ..

theorem exec_keeps (op : Mut T) {m' : VMem T} {r : Res T} (he : exec E g P m op = some (m', r)) : Keeps m.mem m'.mem := by
  cases op with
  | new => cases he; exact keeps_alloc ..
  | setCmpLess => cases he; exact .refl _
  | setCmpEqual => cases he; exact .refl _
  | push => cases he; exact keeps_push ..
  | pop v => simp only [exec] at he; injection he with he; have := keeps_remove (E := E) m v (m.len v - 1); rwa [he] at this
  | remove v i => simp only [exec] at he; injection he with he; have := keeps_remove (E := E) m v i; rwa [he] at this
  | set => simp only [exec] at he; split at he <;> cases he <;> first | exact .refl _ | exact keeps_write ..
  | clear => cases he; exact .refl _
  | cut => cases he; exact keeps_cut ..
  | splitOff => cases he; exact (keeps_new ..).trans ((keeps_cut ..).trans (keeps_push ..))
  | swap =>
    simp only [exec, swap] at he
    split at he <;> cases he <;> first | exact .refl _ | exact (keeps_write ..).trans (keeps_write ..)
  | compareAndRemove v i x =>
    simp only [exec, compareAndRemove] at he
    split at he
    · cases he; exact .refl _
    · split at he
      · cases he
      · split at he
        · injection he with he; have := keeps_remove (E := E) m v i; rwa [he] at this
        · cases he; exact .refl _
  | grow => simp only [exec] at he; split at he <;> cases he; exact keeps_grow ..
  | clip => cases he; exact .refl _
  | clone => cases he; exact (keeps_new ..).trans (keeps_push ..)
  | compact =>
    simp only [exec] at he
    split at he
    · cases he; exact .refl _
    · split at he
      · cases he
      · cases he; exact keeps_compact ..
  | compactFunc => cases he; exact keeps_compact ..
  | delete => simp only [exec] at he; split at he <;> cases he; exact keeps_delete ..
  | insert => simp only [exec] at he; split at he <;> cases he; exact keeps_insert ..
  | replace => simp only [exec] at he; split at he <;> cases he; exact keeps_replace ..
  | reverse => cases he; exact keeps_write ..
  | sort =>
    obtain ⟨l, _, he⟩ := Option.map_eq_some_iff.1 he
    cases he; exact keeps_write ..
  | sortFunc =>
    obtain ⟨l, _, he⟩ := Option.map_eq_some_iff.1 he
    cases he; exact keeps_write ..
  | sortStable =>
    obtain ⟨l, _, he⟩ := Option.map_eq_some_iff.1 he
    cases he; exact keeps_write ..
  | sortStableFunc =>
    obtain ⟨l, _, he⟩ := Option.map_eq_some_iff.1 he
    cases he; exact keeps_write ..

/-- C54: a slice obtained from `v` remains one during all later calls (so that a later write through it
does not reach other vectors either, `C54_independent`). -/
theorem C54_views_stay {v : Nat} {sl : Slice} (h : View m v sl) (op : Mut T) {m' : VMem T} {r : Res T}
    (he : exec E g P m op = some (m', r)) : View m' v sl := by
  have hk := exec_keeps op he
  exact ⟨(hk.own _ h.2).trans h.1, Nat.lt_of_lt_of_le h.2 hk.na⟩

/-- The slice made by `CloneToSlice` belongs to no vector, and making it changes no vector. -/
theorem C54_cloneToSlice (hr : ARun E g P m) (v : Nat) {w : Nat} (hw : w < m.nv) {l : List T} (hl : Shows E g m w l) :
    (∀ u, ¬ View (m.cloneToSlice E g v).1 u (m.cloneToSlice E g v).2) ∧
    (m.cloneToSlice E g v).1.list w = l := by
  obtain ⟨s, h⟩ := hr.rel
  obtain ⟨w1, o1, l1⟩ := h.wf w hw
  have hlist : m.mem.read (m.d w) = l := hl.slice
  have hne : (m.d w).a ≠ m.mem.na := Nat.ne_of_lt l1
  have hne' : (m.d w).a ≠ m.mem.na + 1 := Nat.ne_of_lt (Nat.lt_succ_of_lt l1)
  unfold VMem.cloneToSlice cloneS append
  constructor
  · intro u hu
    have hu := hu.1
    revert hu
    dsimp only
    split
    · simp [Mem.write, Mem.alloc]
    · simp [Mem.alloc]
  · rw [← hlist]
    dsimp only
    split
    · simp [VMem.list, VMem.d, Mem.read, Mem.write, Mem.alloc]; simp only [VMem.d] at hne; simp [hne]
    · simp [VMem.list, VMem.d, Mem.read, Mem.alloc]; simp only [VMem.d] at hne hne'; simp [hne, hne']

/-! ## C74: comparison functions of clones -/

/-- Clones refer to older vectors only. -/
structure Older (s : SState T) : Prop where
  less : ∀ v w, s.less v = .same w → w < v
  eq : ∀ v w, s.eq v = .same w → w < v

theorem resolve_fuel (d : Option (T → T → Bool)) (c : Nat → Cmp T) (h : ∀ v w, c v = .same w → w < v) :
    ∀ f v, v < f → resolve d c f v = resolve d c (v + 1) v := by
  intro f
  induction f using Nat.strongRecOn with
  | _ f ih =>
    intro v hv
    cases f with
    | zero => omega
    | succ f =>
      simp only [resolve]
      cases hc : c v with
      | auto => rfl
      | fn f => rfl
      | same w =>
        have := h v w hc
        dsimp only
        rw [ih f (by omega) w (by omega)]
        rcases Nat.eq_or_lt_of_le (show v ≤ f by omega) with e | e
        · subst e; rw [ih v (by omega) w this]
        · rw [ih v (by omega) w this]

/-- Comparing with `CmpLess` resp. `CmpEqual` of two vectors is the same. -/
def SameCmp (E : Elt T) (m : VMem T) (v : Nat) (m' : VMem T) (w : Nat) : Prop :=
  m.less E v = m'.less E w ∧ m.eq E v = m'.eq E w

def isSetCmp : Mut T → Bool
  | .setCmpLess _ _ | .setCmpEqual _ _ => true
  | _ => false

theorem remAt_cmp (E : Elt T) (s : SState T) (v : Nat) (i : Int) :
    (remAt E s v i).1.less = s.less ∧ (remAt E s v i).1.eq = s.eq ∧ (remAt E s v i).1.n = s.n := by
  unfold remAt; split <;> exact ⟨rfl, rfl, rfl⟩

theorem remAt_cmp' {E : Elt T} {s : SState T} {v : Nat} {i : Int} {s' : SState T} {p : Res T → Prop}
    (he : some (remAt E s v i) = some (s', p)) : s'.less = s.less ∧ s'.eq = s.eq ∧ s'.n = s.n := by
  injection he with he
  have : s' = (remAt E s v i).1 := by rw [he]
  subst this
  exact remAt_cmp E s v i

/-- Only `SetCmpLess` and `SetCmpEqual` change comparison functions. -/
theorem spec_cmp (op : Mut T) {s' : SState T} {p : Res T → Prop} (he : spec E P s op = some (s', p))
    (hop : isSetCmp op = false) : ∀ w, w < s.n → s'.less w = s.less w ∧ s'.eq w = s.eq w := by
  intro w hw
  have hr := fun v i => @remAt_cmp T E s v i
  cases op <;> simp only [spec] at he <;> (repeat' split at he) <;>
    (try cases he) <;> (try cases hop) <;> (try exact ⟨rfl, rfl⟩) <;>
    first
    | exact ⟨congrFun (remAt_cmp' he).1 w, congrFun (remAt_cmp' he).2.1 w⟩
    | exact ⟨congrFun (hr _ _).1 w, congrFun (hr _ _).2.1 w⟩
    | (simp only [SState.addLike, SState.put]; rw [if_neg (by omega), if_neg (by omega)]; exact ⟨rfl, rfl⟩)
    | exact ⟨if_neg (Nat.ne_of_lt hw), if_neg (Nat.ne_of_lt hw)⟩
    | (obtain ⟨l, _, he⟩ := Option.map_eq_some_iff.1 he; cases he; exact ⟨rfl, rfl⟩)

theorem spec_older (op : Mut T) {s' : SState T} {p : Res T → Prop} (he : spec E P s op = some (s', p))
    (hop : ∀ v, op.recv = some v → v < s.n) (h : Older s) : Older s' := by
  have hadd : ∀ (t : SState T) v l, t.less = s.less → t.eq = s.eq → t.n = s.n → v < s.n → Older (t.addLike v l) := by
    intro t v l e1 e2 e3 hv
    constructor
    · intro u w
      simp only [SState.addLike, e1, e3]
      split
      · intro e; injection e with e; omega
      · exact h.less u w
    · intro u w
      simp only [SState.addLike, e2, e3]
      split
      · intro e; injection e with e; omega
      · exact h.eq u w
  have hsame : ∀ t : SState T, t.less = s.less → t.eq = s.eq → Older t := by
    intro t e1 e2; exact ⟨by rw [e1]; exact h.less, by rw [e2]; exact h.eq⟩
  have hr := fun v i => @remAt_cmp T E s v i
  have hof : ∀ (c : Option (T → T → Bool)) w, ofOpt c ≠ .same w := by intro c w; cases c <;> simp [ofOpt]
  cases op with
  | new =>
    cases he
    constructor <;> intro u w <;> dsimp only <;> split
    · intro e; exact absurd e (hof _ _)
    · exact h.less u w
    · intro e; exact absurd e (hof _ _)
    · exact h.eq u w
  | setCmpLess =>
    cases he
    refine ⟨?_, h.eq⟩
    intro u w; dsimp only; split
    · intro e; exact absurd e (hof _ _)
    · exact h.less u w
  | setCmpEqual =>
    cases he
    refine ⟨h.less, ?_⟩
    intro u w; dsimp only; split
    · intro e; exact absurd e (hof _ _)
    · exact h.eq u w
  | clone v => cases he; exact hadd _ _ _ rfl rfl rfl (hop v rfl)
  | splitOff v =>
    simp only [spec] at he
    split at he <;> cases he
    · exact hadd (s.put _ _) _ _ rfl rfl rfl (hop v rfl)
    · exact hadd s _ _ rfl rfl rfl (hop v rfl)
  | _ =>
    simp only [spec] at he <;> (repeat' split at he) <;> (try cases he) <;>
      first
      | exact hsame _ rfl rfl
      | exact hsame _ (remAt_cmp' he).1 (remAt_cmp' he).2.1
      | exact hsame _ (hr _ _).1 (hr _ _).2.1
      | (obtain ⟨l, _, he⟩ := Option.map_eq_some_iff.1 he; cases he; exact hsame _ rfl rfl)

theorem Run.older {h : List (Mut T)} {rs : List (Res T)} (hr : Run E g P h rs m) : ∃ s, Rel m s ∧ Older s := by
  induction hr with
  | nil => exact ⟨_, empty_rel, ⟨nofun, nofun⟩⟩
  | @snoc h rs m op m' r _ hok he ih =>
    obtain ⟨s, i3, i4⟩ := ih
    rcases step' (E := E) (g := g) (P := P) i3 op hok with ⟨e, _⟩ | ⟨m'', r'', s', p, e1, e2, e3, e4⟩
    · rw [e] at he; cases he
    · rw [e1] at he
      injection he with he
      injection he with he1 he2
      subst he1
      exact ⟨s', e3, spec_older op e2 (by intro v hv; rw [← i3.n]; exact hok v hv) i4⟩

theorem resolve_congr (d : Option (T → T → Bool)) (c c' : Nat → Cmp T) (n : Nat) (hc : ∀ w, w < n → c w = c' w)
    (h : ∀ v w, c v = .same w → w < v) : ∀ f v, v < n → resolve d c f v = resolve d c' f v := by
  intro f
  induction f with
  | zero => intro v _; rfl
  | succ f ih =>
    intro v hv
    simp only [resolve]
    rw [← hc v hv]
    cases e : c v with
    | auto => rfl
    | fn f => rfl
    | same w => exact ih w (by have := h v w e; omega)

/-- C74, as far as it holds: a clone (or split-off part) starts with the comparison functions of the
original, and no call but `SetCmpLess` and `SetCmpEqual` changes the comparison functions of any
vector.  Missing: `SetCmp…` on the *original* (`C74_false`). -/
theorem C74_partial {h : List (Mut T)} {rs : List (Res T)} (hr : Run E g P h rs m) {v : Nat} (hv : v < m.nv) :
    (∀ m' n, exec E g P m (.clone v) = some (m', .vec n) → SameCmp E m v m' n) ∧
    (∀ i m' n, exec E g P m (.splitOff v i) = some (m', .vec n) → SameCmp E m v m' n) ∧
    (∀ op m' r, (∀ w, op.recv = some w → w < m.nv) → isSetCmp op = false → exec E g P m op = some (m', r) →
      SameCmp E m v m' v) := by
  obtain ⟨s, h, ho⟩ := hr.older
  have hn := h.n
  have hkeep : ∀ op m' r, (∀ w, op.recv = some w → w < m.nv) → isSetCmp op = false → exec E g P m op = some (m', r) →
      ∃ s' p, Rel m' s' ∧ spec E P s op = some (s', p) ∧ p r ∧ Older s' ∧
      ∀ u, u < m.nv → SameCmp E m u m' u := by
    intro op m' r hok hop he
    rcases step' (E := E) (g := g) (P := P) h op hok with ⟨e, _⟩ | ⟨m'', r'', s', p, e1, e2, e3, e4⟩
    · rw [e] at he; cases he
    · rw [e1] at he
      injection he with he
      injection he with he1 he2
      subst he1; subst he2
      refine ⟨s', p, e3, e2, e4, spec_older op e2 (by intro v hv; rw [← h.n]; exact hok v hv) ho, ?_⟩
      intro u hu
      have hc := spec_cmp op e2 hop
      constructor
      · rw [h.lessOf, e3.lessOf]
        exact resolve_congr _ _ _ s.n (fun w hw => (hc w hw).1.symm) ho.less _ u (by omega)
      · rw [h.eqOf, e3.eqOf]
        exact resolve_congr _ _ _ s.n (fun w hw => (hc w hw).2.symm) ho.eq _ u (by omega)
  -- a new vector that refers to `v` compares like `v`
  have hnew : ∀ m' s', Rel m' s' → Older s' → s'.less m.nv = .same v → s'.eq m.nv = .same v →
      SameCmp E m v m' v → SameCmp E m v m' m.nv := by
    intro m' s' h' ho' e1 e2 hs
    refine ⟨hs.1.trans ?_, hs.2.trans ?_⟩
    · rw [h'.lessOf, h'.lessOf]
      simp only [SState.lessOf]
      rw [show resolve E.less s'.less (m.nv + 1) m.nv = resolve E.less s'.less m.nv v by simp only [resolve, e1]]
      exact (resolve_fuel _ _ ho'.less _ v hv).symm
    · rw [h'.eqOf, h'.eqOf]
      simp only [SState.eqOf]
      rw [show resolve E.eq s'.eq (m.nv + 1) m.nv = resolve E.eq s'.eq m.nv v by simp only [resolve, e2]]
      exact (resolve_fuel _ _ ho'.eq _ v hv).symm
  refine ⟨?_, ?_, ?_⟩
  · intro m' n he
    obtain ⟨s', p, h', e2, e4, ho', hk⟩ := hkeep (.clone v) m' (.vec n) (by intro w hw; injection hw with hw; omega) rfl he
    simp only [spec, Option.some.injEq, Prod.mk.injEq] at e2
    obtain ⟨e2, e5⟩ := e2
    subst e2; subst e5
    injection e4 with e4
    rw [e4, ← hn]
    exact hnew m' _ h' ho' (by simp [SState.addLike, hn]) (by simp [SState.addLike, hn]) (hk v hv)
  · intro i m' n he
    obtain ⟨s', p, h', e2, e4, ho', hk⟩ := hkeep (.splitOff v i) m' (.vec n) (by intro w hw; injection hw with hw; omega) rfl he
    simp only [spec] at e2
    split at e2 <;> simp only [Option.some.injEq, Prod.mk.injEq] at e2 <;> obtain ⟨e2, e5⟩ := e2 <;> subst e2 <;>
      subst e5 <;> injection e4 with e4 <;> rw [e4, ← hn]
    · exact hnew m' _ h' ho' (by simp [SState.addLike, SState.put, hn]) (by simp [SState.addLike, SState.put, hn]) (hk v hv)
    · exact hnew m' _ h' ho' (by simp [SState.addLike, hn]) (by simp [SState.addLike, hn]) (hk v hv)
  · intro op m' r hok hop he
    obtain ⟨_, _, _, _, _, _, hk⟩ := hkeep op m' r hok hop he
    exact hk v hv

/-! ## A sorting function with the contract -/

section
variable (cmp : T → T → Int)

def leOf (a b : T) : Bool := decide (¬ cmp b a < 0)

theorem leOf_trans (h : SWO cmp) (a b c : T) : leOf cmp a b = true → leOf cmp b c = true → leOf cmp a c = true := by
  simp only [leOf, decide_eq_true_eq]
  intro h1 h2 h3
  by_cases hab : cmp a b < 0
  · exact h2 (h.trans c a b h3 hab)
  · by_cases hbc : cmp b c < 0
    · exact h1 (h.trans b c a hbc h3)
    · exact (h.incomp a b c hab h1 hbc h2).2 h3

theorem leOf_total (h : SWO cmp) (a b : T) : (leOf cmp a b || leOf cmp b a) = true := by
  simp only [leOf, Bool.or_eq_true, decide_eq_true_eq]
  by_cases hab : cmp b a < 0
  · exact .inr fun h' => h.irrefl a (h.trans a b a h' hab)
  · exact .inl hab

theorem equiv_le (x a b : T) (h : SWO cmp) (ha : equivB cmp x a = true) (hb : equivB cmp x b = true) : leOf cmp a b = true := by
  simp only [equivB, Bool.and_eq_true, decide_eq_true_eq] at ha hb
  simp only [leOf, decide_eq_true_eq]
  exact (h.incomp a x b ha.2 ha.1 hb.1 hb.2).2
end

/-- A list sorted as a list of its own elements. -/
theorem mergeSort_attach (cmp : T → T → Int) (l : List T) :
    l.mergeSort (leOf cmp) = (l.attach.mergeSort (leOf fun a b : {x // x ∈ l} => cmp a b)).map Subtype.val := by
  have := List.map_mergeSort (r := leOf fun a b : {x // x ∈ l} => cmp a b) (s := leOf cmp) (f := Subtype.val)
    (l := l.attach) (fun _ _ _ _ => rfl)
  rw [this, List.attach_map_subtype_val]

theorem mergeSort_sorted (cmp : T → T → Int) (l : List T) (h : SWO (fun a b : {x // x ∈ l} => cmp a b)) :
    (l.mergeSort (leOf cmp)).Pairwise (fun a b => ¬ cmp b a < 0) := by
  rw [mergeSort_attach, List.pairwise_map]
  have := List.pairwise_mergeSort (le := leOf fun a b : {x // x ∈ l} => cmp a b) (leOf_trans _ h) (leOf_total _ h) l.attach
  exact this.imp (by intro a b hab; simpa [leOf] using hab)

theorem mergeSort_stable (cmp : T → T → Int) (l : List T) (h : SWO (fun a b : {x // x ∈ l} => cmp a b)) (x : T) (hx : x ∈ l) :
    (l.mergeSort (leOf cmp)).filter (equivB cmp x) = l.filter (equivB cmp x) := by
  have hp : (l.attach.filter (equivB (fun a b : {x // x ∈ l} => cmp a b) ⟨x, hx⟩)).Pairwise
      (fun a b => leOf (fun a b : {x // x ∈ l} => cmp a b) a b = true) := by
    rw [List.pairwise_filter]
    rw [List.pairwise_iff_forall_sublist]
    intro a b _ ha hb
    exact equiv_le _ _ a b h ha hb
  have h1 := List.sublist_mergeSort (le := leOf fun a b : {x // x ∈ l} => cmp a b) (leOf_trans _ h) (leOf_total _ h) hp
    List.filter_sublist
  have h2 := h1.filter (equivB (fun a b : {x // x ∈ l} => cmp a b) ⟨x, hx⟩)
  rw [List.filter_filter] at h2
  simp only [Bool.and_self] at h2
  have h3 := h2.eq_of_length ((List.mergeSort_perm _ _).filter _).length_eq.symm
  have h4 := congrArg (List.map Subtype.val) h3
  have hc : (equivB (fun a b : {x // x ∈ l} => cmp a b) ⟨x, hx⟩) = equivB cmp x ∘ Subtype.val := rfl
  rw [hc, ← List.filter_map, ← List.filter_map, List.attach_map_subtype_val, ← mergeSort_attach] at h4
  exact h4.symm

/-- From a sorting function for comparisons that do not panic one that first compares everything with everything. -/
def checked (f : (T → T → Int) → List T → List T) (cmp : T → T → Option Int) (l : List T) : Option (List T) :=
  if l.length < 2 then some l
  else if l.all (fun a => l.all fun b => (cmp a b).isSome) then some (f (fun a b => (cmp a b).getD 0) l)
  else none

theorem checked_some {f : (T → T → Int) → List T → List T} {cmp : T → T → Int} {l l' : List T}
    (h : checked f (fun a b => some (cmp a b)) l = some l') : (l.length < 2 ∧ l' = l) ∨ l' = f cmp l := by
  unfold checked at h
  split at h
  · next h' => injection h with h; exact .inl ⟨h', h.symm⟩
  · split at h
    · injection h with h; exact .inr h.symm
    · cases h

theorem checked_sorts {f : (T → T → Int) → List T → List T} (hp : ∀ cmp l, (f cmp l).Perm l)
    (hs : ∀ cmp l, SWO (fun a b : {x // x ∈ l} => cmp a b) → (f cmp l).Pairwise (fun a b => ¬ cmp b a < 0)) :
    Sorts (checked f) := by
  refine ⟨?_, ?_, ?_, ?_, ?_⟩
  · intro cmp l h; simp [checked, h]
  · intro cmp l l' h
    unfold checked at h
    split at h
    · injection h with h; rw [h]
    · split at h
      · injection h with h; rw [← h]; exact hp _ _
      · cases h
  · intro cmp l h
    unfold checked
    split
    · simp
    · rw [if_pos ?_]
      · simp
      · simp only [List.all_eq_true]
        intro a ha b hb
        exact Option.isSome_iff_ne_none.2 (h a ha b hb)
  · intro cmp l h hn
    unfold checked
    rw [if_neg (by omega), if_neg ?_]
    match l, h with
    | a :: l, _ => simp [hn]
  · intro cmp l l' hw h
    rcases checked_some h with ⟨h', rfl⟩ | rfl
    · exact perm_short h'
    · exact hs cmp l hw

/-- Merge sort, of the Lean library. -/
def mergeImpl (T : Type) : SortImpl T where
  sort := checked fun cmp l => l.mergeSort (leOf cmp)
  sort_ok := checked_sorts (fun _ l => List.mergeSort_perm l _) mergeSort_sorted
  stable := checked fun cmp l => l.mergeSort (leOf cmp)
  stable_ok := checked_sorts (fun _ l => List.mergeSort_perm l _) mergeSort_sorted
  stable_stable cmp l l' h he x hx := by
    rcases checked_some he with ⟨_, rfl⟩ | rfl
    · rfl
    · exact mergeSort_stable cmp l h x hx

/-! ## Counterexamples -/

def EInt : Elt Int := { zero := 0, less := some fun a b => decide (a < b), eq := some fun a b => decide (a = b) }

theorem EInt_order : Order (fun a b : Int => decide (a < b)) (fun a b => decide (a = b)) := by
  refine ⟨by simp, ?_, ?_, ?_⟩
  · intro a b c; simp only [decide_eq_true_eq]; omega
  · intro a b; simp only [decide_eq_true_eq, decide_eq_false_iff_not]; omega
  · intro a b; simp only [decide_eq_true_eq, decide_eq_false_iff_not]; omega

/-- Execute calls in order; the final state and the results. -/
def okRecv (m : VMem Int) (op : Mut Int) : Bool :=
  match op.recv with | none => true | some v => decide (v < m.nv)

def play (g : Nat → Nat) (P : SortImpl Int) : VMem Int → List (Mut Int) → Option (VMem Int × List (Res Int))
  | m, [] => some (m, [])
  | m, op :: h => do
    if okRecv m op = false then none
    else
      let r ← exec EInt g P m op
      let r' ← play g P r.1 h
      some (r'.1, r.2 :: r'.2)

theorem play_run (g : Nat → Nat) (P : SortImpl Int) : ∀ (h : List (Mut Int)) (m m' : VMem Int) (rs : List (Res Int))
    (h0 : List (Mut Int)) (rs0 : List (Res Int)), Run EInt g P h0 rs0 m → play g P m h = some (m', rs) →
    Run EInt g P (h0 ++ h) (rs0 ++ rs) m' := by
  intro h
  induction h with
  | nil => intro m m' rs h0 rs0 hr hp; cases hp; simpa using hr
  | cons op h ih =>
    intro m m' rs h0 rs0 hr hp
    simp only [play] at hp
    by_cases hok : okRecv m op = false
    · rw [if_pos hok] at hp; cases hp
    · rw [if_neg hok] at hp
      cases he : exec EInt g P m op with
      | none => simp [he] at hp
      | some r =>
        simp only [he, Option.bind_eq_bind, Option.bind_some] at hp
        cases hq : play g P r.1 h with
        | none => simp [hq] at hp
        | some r' =>
          simp only [hq, Option.bind_some, Option.some.injEq, Prod.mk.injEq] at hp
          obtain ⟨e1, e2⟩ := hp
          subst e1; subst e2
          have := ih r.1 r'.1 r'.2 (h0 ++ [op]) (rs0 ++ [r.2])
            (.snoc hr (by intro v hv; simpa [okRecv, hv] using hok) he) hq
          simpa using this

/-- C53 is false of the code: `Cut` in the middle returns elements that are still in the vector. -/
theorem C53_false : ¬ ∀ (g : Nat → Nat) (P : SortImpl Int) (h : List (Mut Int)) (rs : List (Res Int)) (m : VMem Int)
    (v : Nat) (l : List Int) (i j : Nat) (m' : VMem Int) (sl : Slice), Run EInt g P h rs m → v < m.nv →
    Shows EInt g m v l → i ≤ j → j ≤ l.length → exec EInt g P m (.cut v i j) = some (m', .slice (some sl)) →
    m'.mem.read sl = (l.take j).drop i := by
  intro hall
  let m := ((play (fun _ => 0) (mergeImpl Int) .empty [.new none none, .push 0 [10, 11, 12, 13]]).get rfl).1
  have hr : Run EInt (fun _ => 0) (mergeImpl Int) _ _ m :=
    play_run _ _ [.new none none, .push 0 [10, 11, 12, 13]] .empty m [.vec 0, .unit] [] [] .nil rfl
  obtain ⟨_, s, _, _, h⟩ := hr.rel
  have hsh := h.shows (E := EInt) (g := fun _ => 0) (v := 0) (by decide)
  have hl : s.l 0 = [10, 11, 12, 13] := by rw [← h.list 0 (by decide)]; decide
  rw [hl] at hsh
  have := hall _ _ _ _ m 0 _ 0 2 _ _ hr (by decide) hsh (by decide) (by decide) rfl
  revert this
  decide

/-- C74 is false of the code: `SetCmpLess` on the original changes the order of the clone. -/
theorem C74_false : ¬ ∀ (g : Nat → Nat) (P : SortImpl Int) (h : List (Mut Int)) (rs : List (Res Int)) (m : VMem Int)
    (v w : Nat) (f : Option (Int → Int → Bool)) (m' : VMem Int) (r : Res Int), Run EInt g P h rs m → v < m.nv → w < m.nv → v ≠ w →
    exec EInt g P m (.setCmpLess v f) = some (m', r) → m'.isSorted EInt w = m.isSorted EInt w := by
  intro hall
  let hist : List (Mut Int) := [.new none none, .push 0 [1, 2], .clone 0]
  let m := ((play (fun _ => 0) (mergeImpl Int) .empty hist).get rfl).1
  have hr : Run EInt (fun _ => 0) (mergeImpl Int) _ _ m :=
    play_run _ _ hist .empty m [.vec 0, .unit, .vec 1] [] [] .nil rfl
  have := hall _ _ _ _ m 0 1 (some fun a b => decide (b < a)) _ _ hr (by decide) (by decide) (by decide) rfl
  revert this
  decide

/-! ## Examples -/

/-- The contents of vector `v` after some calls, for an allocator that gives one spare element. -/
def show1 (h : List (Mut Int)) (v : Nat) : Option (List Int) :=
  (play (fun _ => 1) (mergeImpl Int) .empty h).map fun r => r.1.mem.read (r.1.slice v)

def cutRes (m : VMem Int) : Option (Res Int) → List Int
  | some (.slice (some sl)) => m.mem.read sl
  | _ => []

-- C52
example : show1 [.new none none, .push 0 [1, 2, 3], .insert 0 1 [7, 8], .remove 0 0, .swap 0 0 3, .pop 0,
    .replace 0 1 2 [4, 5, 6], .reverse 0] 0 = some [2, 6, 5, 4, 3] := by decide
example : show1 [.new none none, .push 0 [1, 2, 3], .delete 0 1 5] 0 = none := by decide
example : show1 [.new none none, .push 0 [1, 2, 3], .set 0 3 9, .cut 0 2 1, .compareAndRemove 0 0 2] 0 = some [1, 2, 3] := by
  decide
example : show1 [.new none none, .push 0 [1, 2, 3], .compareAndRemove 0 1 2] 0 = some [1, 3] := by decide
example : (play (fun _ => 1) (mergeImpl Int) .empty [.new none none, .push 0 [5], .pop 0, .pop 0]).map (·.2) =
    some [.vec 0, .unit, .elem 5 true, .elem 0 false] := by rfl
-- C53: a cut in the middle and one at the end
example : (play (fun _ => 1) (mergeImpl Int) .empty [.new none none, .push 0 [1, 2, 3, 4, 5], .cut 0 1 3]).map
    (fun r => cutRes r.1 r.2[2]?) = some [4, 5] := by decide
example : (play (fun _ => 1) (mergeImpl Int) .empty [.new none none, .push 0 [1, 2, 3, 4, 5], .cut 0 3 5]).map
    (fun r => cutRes r.1 r.2[2]?) = some [4, 5] := by decide
-- C54: the vectors go their own ways after SplitOff and Clone
example : (show1 [.new none none, .push 0 [1, 2, 3, 4], .splitOff 0 2, .push 0 [9, 9], .set 1 0 7] 0,
    show1 [.new none none, .push 0 [1, 2, 3, 4], .splitOff 0 2, .push 0 [9, 9], .set 1 0 7] 1) =
    (some [1, 2, 9, 9], some [7, 4]) := by decide
example : show1 [.new none none, .push 0 [1, 2], .clone 0, .set 0 0 7] 1 = some [1, 2] := by decide

/-- A state to look at: one vector with the elements `l`. -/
def one (l : List Int) : VMem Int := push EInt (fun _ => 0) (VMem.empty.new .auto .auto) 0 l

theorem one_run (l : List Int) : Run EInt (fun _ => 0) (mergeImpl Int) [.new none none, .push 0 l] [.vec 0, .unit] (one l) :=
  play_run _ _ [.new none none, .push 0 l] .empty (one l) [.vec 0, .unit] [] [] .nil rfl

theorem one_shows (l : List Int) : 0 < (one l).nv ∧ Shows EInt (fun _ => 0) (one l) 0 l := by
  obtain ⟨ps, s, h1, h2, h3⟩ := (one_run l).rel
  have hn : 0 < (one l).nv := by
    have : (one l).nv = 1 := by unfold one push; dsimp only; split <;> rfl
    omega
  have hs : SRun EInt (mergeImpl Int) [.new none none, .push 0 l] _ _ :=
    .snoc (h := [_]) (.snoc (h := []) .nil rfl) rfl
  obtain ⟨_, rfl⟩ := h1.det hs
  refine ⟨hn, ?_⟩
  have := h3.shows (E := EInt) (g := fun _ => 0) hn
  simpa [SState.put, SState.empty] using this

-- C55
example : (one [1, 3, 3, 5]).binarySearch EInt 0 3 = some (1, true) ∧ (one [1, 3, 3, 5]).binarySearch EInt 0 4 = some (3, false) ∧
    (one [1, 3, 3, 5]).binarySearch EInt 0 9 = some (4, false) := by decide
example : ∃ r b, (one [1, 3, 3, 5]).binarySearch EInt 0 3 = some (r, b) ∧ (b = true ↔ ∃ x ∈ [1, 3, 3, 5], decide (x = (3 : Int)) = true) := by
  obtain ⟨r, b, h1, _, _, h4, _⟩ := C55_binarySearch (one_shows [1, 3, 3, 5]).2 EInt_order rfl rfl (by decide) 3
  exact ⟨r, b, h1, h4⟩
-- C56
example : (one [4, 2, 4]).search EInt 0 2 = some 1 ∧ (one [4, 2, 4]).search EInt 0 7 = some (-1) ∧
    (one [4, 2, 4]).searchAll EInt 0 4 = some [0, 2] ∧ (one [4, 2, 4]).contains EInt 0 2 = some true := by decide
-- C57
example : ∃ m' l', exec EInt (fun _ => 0) (mergeImpl Int) (one [3, 1, 2]) (.sort 0) = some (m', .unit) ∧
    Shows EInt (fun _ => 0) m' 0 l' ∧ l'.Perm [3, 1, 2] ∧ l'.Pairwise (fun a b => decide (b < a) = false) := by
  obtain ⟨m', l', h1, h2, h3, h4, _⟩ := C57_sort (one_run [3, 1, 2]) (one_shows [3, 1, 2]).1 (one_shows [3, 1, 2]).2
    EInt_order rfl rfl false
  exact ⟨m', l', h1, h2, h3, h4⟩
example : (one [1, 2, 2]).isSorted EInt 0 = some true ∧ (one [1, 3, 2]).isSorted EInt 0 = some false := by decide
-- C58
example : (one [3, 7, 2]).max EInt 0 = some 7 ∧ (one [3, 7, 2]).min EInt 0 = some 2 ∧ (one []).max EInt 0 = none := by decide
-- C59
example : show1 [.new none none, .push 0 [1, 1, 2, 1, 1, 1], .compact 0] 0 = some [1, 2, 1] := by decide
-- C60
example : LexLt (fun a b : Int => decide (a < b)) (fun a b => decide (a = b)) [1, 2] [1, 2, 0] :=
  .tail (by decide) (.tail (by decide) (.nil _ _))
example : (play (fun _ => 0) (mergeImpl Int) .empty [.new none none, .push 0 [1, 5], .new none none, .push 1 [1, 4, 9]]).map
    (fun r => (r.1.compare EInt 0 1, r.1.compare EInt 1 0, r.1.equalVec EInt 0 1, r.1.equalSlice EInt 0 [1, 5])) =
    some (some 1, some (-1), some false, some true) := by decide
-- C74
example : (play (fun _ => 0) (mergeImpl Int) .empty
    [.new none none, .push 0 [1, 2], .splitOff 0 0, .setCmpLess 1 (some fun a b => decide (b < a))]).map
    (fun r => (r.1.isSorted EInt 0, r.1.isSorted EInt 1)) = some (some true, some false) := by decide
example : (play (fun _ => 0) (mergeImpl Int) .empty
    [.new (some fun a b => decide (b < a)) none, .push 0 [1, 2], .setCmpLess 0 none]).map
    (fun r => r.1.isSorted EInt 0) = some (some true) := by decide

end Verif.Vec
