import Verif.Dllist.Hist
/-!
# Properties C28–C36: doubly linked lists
-/
namespace Verif.Dllist
open Spec (Op Res St Client SRun Safe valsOf insBefore insAfter nextOf prevOf exchange StableSorted)
variable {T : Type} {m : Mem T} {s : St T} {S : Nat → List Nat}

/-! ## C28 -/

/-- C28: against the pointer-level model, a client that uses its handles properly (`Safe`: existing
lists, elements that were not in a list when it was cleared or sorted) never sees anything but what
plain sequences allow, and none of its calls panics or fails to terminate.  The calls include all
the mutating methods, `Len`, `Front`, `Back`, `Get`, `Slice`, `Element.Next` and `Element.Prev`, so
forward and backward iteration are covered. -/
theorem C28_sequence {c : Client T} (hc : Safe c) {rs : List (Res T)} (h : MRun c rs m) :
    (∃ s, SRun c rs s) ∧ ∀ op, c rs = some op → ∃ r m', MStep m op r m' := by
  obtain ⟨s, S, h1, h2⟩ := run_sim hc h
  refine ⟨⟨s, h1⟩, fun op ho => ?_⟩
  obtain ⟨r, m', _, _, h3, _, _⟩ := sim_step h2 op (hc _ _ _ h1 ho)
  exact ⟨r, m', h3⟩

/-! ### A large class of safe clients -/

/-- The list and element arguments of a call. -/
def listArgs : Op T → List Nat
  | .clear l | .pushFront l _ | .pushBack l _ | .insertBefore l _ _ | .insertAfter l _ _
  | .remove l _ | .moveToFront l _ | .moveToBack l _ | .moveBefore l _ _ | .moveAfter l _ _
  | .swap l _ _ | .len l | .front l | .back l | .get l _ | .slice l | .sort l _ => [l]
  | .pushBackList l o | .pushFrontList l o | .pushBackListTo l o _ | .pushFrontListTo l o _ => [l, o]
  | _ => []
def elemArgs : Op T → List Nat
  | .insertBefore _ _ e | .insertAfter _ _ e | .remove _ e | .moveToFront _ e | .moveToBack _ e
  | .elRemove e | .elInsertBefore e _ | .elInsertAfter e _ | .elNext e | .elPrev e
  | .getValue e | .setValue e _ | .pushBackListTo _ _ e | .pushFrontListTo _ _ e => [e]
  | .moveBefore _ a b | .moveAfter _ a b | .swap _ a b => [a, b]
  | _ => []
def isReset : Op T → Bool
  | .clear _ | .sort _ _ => true
  | _ => false
def selfTo : Op T → Bool
  | .pushBackListTo l o _ | .pushFrontListTo l o _ => l == o
  | _ => false

/-- A client that only uses handles it was given, and neither clears nor sorts a list. -/
def Tracks (c : Client T) : Prop := ∀ rs op, c rs = some op →
  (∀ l ∈ listArgs op, Res.list l ∈ rs) ∧ (∀ e ∈ elemArgs op, Res.elem (some e) ∈ rs) ∧
  isReset op = false ∧ selfTo op = false

def WF (s : St T) : Prop := ∀ l, ∀ n ∈ s.seq l, s.val n ≠ none

theorem mem_insBefore {mark n x : Nat} {xs : List Nat} (h : x ∈ insBefore mark n xs) :
    x = n ∨ x ∈ xs := by
  induction xs with
  | nil => simp [insBefore] at h
  | cons a l ih =>
    simp only [insBefore] at h
    split at h
    · simp at h ⊢; tauto
    · simp at h ⊢; tauto
theorem mem_insAfter {mark x : Nat} {ns xs : List Nat} (h : x ∈ insAfter mark ns xs) :
    x ∈ ns ∨ x ∈ xs := by
  induction xs with
  | nil => simp [insAfter] at h
  | cons a l ih =>
    simp only [insAfter] at h
    split at h
    · simp at h ⊢; tauto
    · simp at h ⊢; tauto
theorem mem_nextOf {e x : Nat} {xs : List Nat} (h : nextOf e xs = some x) : x ∈ xs := by
  induction xs with
  | nil => simp [nextOf] at h
  | cons a l ih =>
    simp only [nextOf] at h
    split at h
    · exact List.mem_cons_of_mem _ (List.mem_of_mem_head? (by simpa using h))
    · exact List.mem_cons_of_mem _ (ih h)
theorem mem_prevOf {e x : Nat} {xs : List Nat} (h : prevOf e xs = some x) : x ∈ xs := by
  have := mem_nextOf h; simpa using this

theorem alloc_wf {s s' : St T} {l : Nat} {ns vs xs} (h : s.Alloc ns vs l xs s') (hw : WF s)
    (hx : ∀ x ∈ xs, x ∈ ns ∨ ∃ l', x ∈ s.seq l') :
    WF s' ∧ (∀ n, s.val n ≠ none → s'.val n ≠ none) ∧ (∀ n ∈ ns, s'.val n ≠ none) ∧
      s'.stale = s.stale := by
  have hnew : ∀ n ∈ ns, s'.val n ≠ none := fun n hn => by
    have := h.2.2.2.2.2.1 n hn; intro e; rw [e] at this; simp at this
  have hold : ∀ n, s.val n ≠ none → s'.val n ≠ none := fun n hn => by rw [h.old hn]; exact hn
  refine ⟨?_, hold, hnew, h.2.2.1⟩
  intro l' n hn
  by_cases e : l' = l
  · subst e; rw [h.seq_self] at hn
    rcases hx n hn with h1 | ⟨l'', h1⟩
    · exact hnew n h1
    · exact hold n (hw l'' n h1)
  · rw [h.seq_other e] at hn; exact hold n (hw l' n hn)

theorem reseq_wf {s : St T} {l : Nat} {xs : List Nat} (hw : WF s)
    (hx : ∀ x ∈ xs, ∃ l', x ∈ s.seq l') : WF { s with seq := Spec.set s.seq l xs } := by
  intro l' n hn
  simp only [Spec.set] at hn
  split at hn
  · obtain ⟨l'', h⟩ := hx n hn; exact hw l'' n h
  · exact hw l' n hn

theorem step_wf {op : Op T} {r : Res T} {s' : St T} (h : s.Step op r s') (hw : WF s)
    (hr : isReset op = false) :
    WF s' ∧ (∀ n, s.val n ≠ none → s'.val n ≠ none) ∧
      (∀ n, r = .elem (some n) → s'.val n ≠ none) ∧ s'.stale = s.stale := by
  cases op <;> simp only [St.Step] at h <;> simp only [isReset, reduceCtorEq] at hr
  case new | zero =>
    obtain ⟨l0, h3, rfl, rfl⟩ := h
    exact ⟨reseq_wf hw (by simp), fun _ h => h, by simp, rfl⟩
  case pushFront l _ | pushBack l _ =>
    obtain ⟨n, rfl, h⟩ := h
    obtain ⟨h1, h2, h3, h4⟩ := alloc_wf h hw (by
      intro x hx; simp at hx
      rcases hx with hx | hx
      · first | exact Or.inr ⟨l, hx⟩ | exact Or.inl (by simp [hx])
      · first | exact Or.inr ⟨l, hx⟩ | exact Or.inl (by simp [hx]))
    exact ⟨h1, h2, by simpa using h3, h4⟩
  case insertBefore l _ _ =>
    split at h
    · obtain ⟨n, rfl, h⟩ := h
      obtain ⟨h1, h2, h3, h4⟩ := alloc_wf h hw (by
        intro x hx
        rcases mem_insBefore hx with h | h
        · exact Or.inl (by simp [h])
        · exact Or.inr ⟨l, h⟩)
      exact ⟨h1, h2, by simpa using h3, h4⟩
    · obtain ⟨rfl, rfl⟩ := h; exact ⟨hw, fun _ h => h, by simp, rfl⟩
  case insertAfter l _ _ =>
    split at h
    · obtain ⟨n, rfl, h⟩ := h
      obtain ⟨h1, h2, h3, h4⟩ := alloc_wf h hw (by
        intro x hx
        rcases mem_insAfter hx with h | h
        · exact Or.inl h
        · exact Or.inr ⟨l, h⟩)
      exact ⟨h1, h2, by simpa using h3, h4⟩
    · obtain ⟨rfl, rfl⟩ := h; exact ⟨hw, fun _ h => h, by simp, rfl⟩
  case remove l e =>
    obtain ⟨rfl, rfl⟩ := h
    exact ⟨reseq_wf hw fun x hx => ⟨l, List.mem_of_mem_erase hx⟩, fun _ h => h, by simp, rfl⟩
  case moveToFront l e =>
    obtain ⟨rfl, h⟩ := h
    split at h
    · next he =>
      subst h
      refine ⟨reseq_wf hw fun x hx => ⟨l, ?_⟩, fun _ h => h, by simp, rfl⟩
      rcases List.mem_cons.1 hx with rfl | hx
      · exact he
      · exact List.mem_of_mem_erase hx
    · subst h; exact ⟨hw, fun _ h => h, by simp, rfl⟩
  case moveToBack l e =>
    obtain ⟨rfl, h⟩ := h
    split at h
    · next he =>
      subst h
      refine ⟨reseq_wf hw fun x hx => ⟨l, ?_⟩, fun _ h => h, by simp, rfl⟩
      rcases List.mem_append.1 hx with hx | hx
      · exact List.mem_of_mem_erase hx
      · simp at hx; rw [hx]; exact he
    · subst h; exact ⟨hw, fun _ h => h, by simp, rfl⟩
  case moveBefore l e _ =>
    obtain ⟨rfl, h⟩ := h
    split at h
    · next he =>
      subst h
      refine ⟨reseq_wf hw fun x hx => ⟨l, ?_⟩, fun _ h => h, by simp, rfl⟩
      rcases mem_insBefore hx with rfl | hx
      · exact he.1
      · exact List.mem_of_mem_erase hx
    · subst h; exact ⟨hw, fun _ h => h, by simp, rfl⟩
  case moveAfter l e _ =>
    obtain ⟨rfl, h⟩ := h
    split at h
    · next he =>
      subst h
      refine ⟨reseq_wf hw fun x hx => ⟨l, ?_⟩, fun _ h => h, by simp, rfl⟩
      rcases mem_insAfter hx with hx | hx
      · simp at hx; rw [hx]; exact he.1
      · exact List.mem_of_mem_erase hx
    · subst h; exact ⟨hw, fun _ h => h, by simp, rfl⟩
  case swap l a b =>
    obtain ⟨rfl, h⟩ := h
    split at h
    · next he =>
      subst h
      refine ⟨reseq_wf hw fun x hx => ⟨l, ?_⟩, fun _ h => h, by simp, rfl⟩
      simp only [exchange, List.mem_map] at hx
      obtain ⟨y, hy, rfl⟩ := hx
      split
      · exact he.2
      · split
        · exact he.1
        · exact hy
    · subst h; exact ⟨hw, fun _ h => h, by simp, rfl⟩
  case elRemove e =>
    obtain ⟨rfl, rfl⟩ := h
    exact ⟨fun l n hn => hw l n (List.mem_of_mem_erase hn), fun _ h => h, by simp, rfl⟩
  case elInsertBefore =>
    rcases h with ⟨l, hm, n, rfl, h⟩ | ⟨_, rfl, rfl⟩
    · obtain ⟨h1, h2, h3, h4⟩ := alloc_wf h hw (by
        intro x hx
        rcases mem_insBefore hx with h | h
        · exact Or.inl (by simp [h])
        · exact Or.inr ⟨l, h⟩)
      exact ⟨h1, h2, by simpa using h3, h4⟩
    · exact ⟨hw, fun _ h => h, by simp, rfl⟩
  case elInsertAfter =>
    rcases h with ⟨l, hm, n, rfl, h⟩ | ⟨_, rfl, rfl⟩
    · obtain ⟨h1, h2, h3, h4⟩ := alloc_wf h hw (by
        intro x hx
        rcases mem_insAfter hx with h | h
        · exact Or.inl h
        · exact Or.inr ⟨l, h⟩)
      exact ⟨h1, h2, by simpa using h3, h4⟩
    · exact ⟨hw, fun _ h => h, by simp, rfl⟩
  case elNext | elPrev =>
    obtain ⟨rfl, ⟨l, _, rfl⟩ | ⟨_, rfl⟩⟩ := h
    · refine ⟨hw, fun _ h => h, fun n hn => ?_, rfl⟩
      injection hn with hn
      first | exact hw l n (mem_nextOf hn) | exact hw l n (mem_prevOf hn)
    · exact ⟨hw, fun _ h => h, by simp, rfl⟩
  case setValue e v =>
    obtain ⟨rfl, rfl⟩ := h
    have : ∀ n, s.val n ≠ none → Spec.set s.val e (some v) n ≠ none := by
      intro n hn; simp only [Spec.set]; split
      · simp
      · exact hn
    exact ⟨fun l n hn => this n (hw l n hn), this, by simp, rfl⟩
  case front l =>
    obtain ⟨rfl, rfl⟩ := h
    exact ⟨hw, fun _ h => h, fun n hn => hw l n (List.mem_of_mem_head? (by simpa using hn)), rfl⟩
  case back l =>
    obtain ⟨rfl, rfl⟩ := h
    exact ⟨hw, fun _ h => h, fun n hn => hw l n (List.mem_of_mem_getLast? (by simpa using hn)), rfl⟩
  case get l i =>
    obtain ⟨rfl, rfl⟩ := h
    refine ⟨hw, fun _ h => h, fun n hn => ?_, rfl⟩
    injection hn with hn
    split at hn
    · exact hw l n (List.mem_of_getElem? hn)
    · simp at hn
  case pushBackList l o | pushFrontList l o =>
    obtain ⟨rfl, ns, h⟩ := h
    obtain ⟨h1, h2, h3, h4⟩ := alloc_wf h hw (by
      intro x hx
      rcases List.mem_append.1 hx with h | h
      · first | exact Or.inl h | exact Or.inr ⟨l, h⟩
      · first | exact Or.inl h | exact Or.inr ⟨l, h⟩)
    exact ⟨h1, h2, by simp, h4⟩
  case pushBackListTo l o _ | pushFrontListTo l o _ =>
    obtain ⟨rfl, h⟩ := h
    split at h
    · obtain ⟨ns, h⟩ := h
      obtain ⟨h1, h2, h3, h4⟩ := alloc_wf h hw (by
        intro x hx
        rcases mem_insAfter hx with h | h
        · exact Or.inl h
        · exact Or.inr ⟨l, h⟩)
      exact ⟨h1, h2, by simp, h4⟩
    · subst h; exact ⟨hw, fun _ h => h, by simp, rfl⟩
  all_goals (obtain ⟨rfl, rfl⟩ := h; exact ⟨hw, fun _ h => h, by simp, rfl⟩)

theorem tracks_inv {c : Client T} (hc : Tracks c) {rs : List (Res T)} (h : SRun c rs s) :
    WF s ∧ (∀ n, Res.elem (some n) ∈ rs → s.val n ≠ none) ∧ ∀ n, ¬ s.stale n := by
  induction h with
  | nil => exact ⟨fun l n hn => by simp [St.empty] at hn, by simp, fun n h => h⟩
  | snoc hr ho hs ih =>
    obtain ⟨h1, h2, h3⟩ := ih
    obtain ⟨h4, h5, h6, h7⟩ := step_wf hs h1 (hc _ _ ho).2.2.1
    refine ⟨h4, ?_, by rw [h7]; exact h3⟩
    intro n hn
    rcases List.mem_append.1 hn with hn | hn
    · exact h5 n (h2 n hn)
    · simp at hn; exact h6 n hn.symm

/-- Such clients are safe, so C28 and the following theorems apply to all of them. -/
theorem tracks_safe {c : Client T} (hc : Tracks c) : Safe c := by
  intro rs s op hs ho
  obtain ⟨_, h2, h3⟩ := tracks_inv hc hs
  obtain ⟨h4, h5, h6, h7⟩ := hc rs op ho
  have hl : ∀ l ∈ listArgs op, s.lists l := fun l h => srun_lists hs (h4 l h)
  have he : ∀ e ∈ elemArgs op, s.Usable e := fun e h => ⟨h2 e (h5 e h), h3 e⟩
  cases op <;> simp_all [St.Valid, listArgs, elemArgs, isReset, selfTo]

/-- The demonstration client of the examples: two pushes, a swap, a removal used twice. -/
def demo : Client Nat
  | [] => some .zero
  | [.list l] => some (.pushBack l 1)
  | [.list l, .elem (some _)] => some (.pushBack l 2)
  | [.list l, .elem (some a), .elem (some b)] => some (.swap l a b)
  | [.list l, .elem (some a), .elem (some _), .unit] => some (.remove l a)
  | [.list l, .elem (some a), .elem (some _), .unit, .val _] => some (.remove l a)
  | [.list l, .elem (some _), .elem (some b), .unit, .val _, .val _] => some (.insertAfter l 3 b)
  | [.list l, .elem (some _), .elem (some _), .unit, .val _, .val _, .elem _] => some (.slice l)
  | _ => none

theorem demo_safe : Safe demo := tracks_safe (by
  intro rs op h
  unfold demo at h
  split at h <;> (first | (injection h with h; subst h) | contradiction) <;>
    simp [listArgs, elemArgs, isReset, selfTo])

example : (do
    let (m, _) ← exec 9 (Mem.empty : Mem Nat) .zero
    let (m, _) ← exec 9 m (.pushBack 0 1)
    let (m, _) ← exec 9 m (.pushBack 0 2)
    let (m, _) ← exec 9 m (.swap 0 0 1)
    let (m, _) ← exec 9 m (.remove 0 0)
    let (m, _) ← exec 9 m (.remove 0 0)
    let (m, _) ← exec 9 m (.insertAfter 0 3 1)
    let (_, r) ← exec 9 m (.slice 0)
    some r) = some (.vals [2, 3]) := by rfl

/-! ## C29 -/

/-- C29, first half: calling a list method with an element that is not in the list (an element of
another list, or a removed one) changes nothing at all in memory. -/
theorem C29_foreign_noop {c : Client T} (hc : Safe c) {rs : List (Res T)} (h : MRun c rs m)
    {op : Op T} (ho : c rs = some op) {r : Res T} {m' : Mem T} (hm : MStep m op r m')
    {l e : Nat} (hl : recvList op = some l) (he : e ∈ elemArgs op) {xs : List (Nat × T)}
    (hx : Shows m l xs) (hn : e ∉ xs.map (·.1)) : m' = m := by
  obtain ⟨s, S, h1, h2⟩ := run_sim hc h
  have hv := hc _ _ _ h1 ho
  have key : ∀ l e, s.lists l → s.Usable e → Shows m l xs → e ∉ xs.map (·.1) →
      m.owner (.node e) ≠ some l := by
    intro l e hl he hx hn
    rw [Ne, h2.owner_iff he hl]
    rw [h2.shows_eq hl hx, pairs_fst (h2.elems l)] at hn
    exact hn
  obtain ⟨F, hm⟩ := hm
  have hm := hm F (Nat.le_refl _)
  cases op <;> simp only [recvList, elemArgs, Option.some.injEq, reduceCtorEq, List.mem_cons,
    List.not_mem_nil, or_false] at hl he <;> subst hl
  case insertBefore | insertAfter | moveToFront | moveToBack | pushBackListTo | pushFrontListTo |
      remove =>
    subst he
    have := key _ _ hv.1 (by first | exact hv.2 | exact hv.2.2.2) hx hn
    simp [exec, Dllist.insertBefore, Dllist.insertAfter, Dllist.moveToFront, Dllist.moveToBack,
      Dllist.pushBackListTo, Dllist.pushFrontListTo, Dllist.lRemove, this] at hm
    exact hm.1.symm
  case moveBefore | moveAfter | swap =>
    rcases he with rfl | rfl
    · have := key _ _ hv.1 hv.2.1 hx hn
      simp [exec, Dllist.moveBefore, Dllist.moveAfter, Dllist.swap, this] at hm
      exact hm.1.symm
    · have := key _ _ hv.1 hv.2.2 hx hn
      simp [exec, Dllist.moveBefore, Dllist.moveAfter, Dllist.swap, this] at hm
      exact hm.1.symm

/-- C29, second half: a call leaves every list other than the one it is called on (for methods of
`Element`: other than the one containing the element) exactly as it was. -/
theorem C29_frame {c : Client T} (hc : Safe c) {rs : List (Res T)} (h : MRun c rs m)
    {op : Op T} (ho : c rs = some op) {r : Res T} {m' : Mem T} (hm : MStep m op r m')
    {l : Nat} (hl : Res.list l ∈ rs) {xs : List (Nat × T)} (hx : Shows m l xs)
    (h1 : recvList op ≠ some l) (h2 : ∀ e, recvElem op = some e → e ∉ xs.map (·.1)) :
    Shows m' l xs := by
  obtain ⟨s, S, h3, h4⟩ := run_sim hc h
  obtain ⟨r', m'', s', S', h5, h6, h7⟩ := sim_step h4 op (hc _ _ _ h3 ho)
  obtain ⟨rfl, rfl⟩ := h5.det hm
  have hll := srun_lists h3 hl
  have hxe := h4.shows_eq hll hx
  have hll' : s'.lists l := srun_lists (.snoc h3 ho h6) (List.mem_append_left _ hl)
  have := step_frame h6 hll (h4.elems l) h1 (fun e he => by
    have := h2 e he; rwa [hxe, pairs_fst (h4.elems l)] at this)
  rw [hxe, ← pairs_congr this.2, ← this.1]
  exact h7.shows hll'

/-! ## C30, C31 -/

theorem pairs_exchange {a b : Nat} {va vb : T} (ha : s.val a = some va) (hb : s.val b = some vb)
    (xs : List Nat) : pairs s (exchange a b xs) =
      (pairs s xs).map fun p => if p.1 = a then (b, vb) else if p.1 = b then (a, va) else p := by
  induction xs with
  | nil => rfl
  | cons x xs ih =>
    have e : exchange a b (x :: xs) = [if x = a then b else if x = b then a else x] ++ exchange a b xs := rfl
    rw [e, pairs_append, ih, show x :: xs = [x] ++ xs from rfl, pairs_append, List.map_append]
    congr 1
    by_cases h1 : x = a
    · subst h1; simp [pairs, ha, hb]
    · by_cases h2 : x = b
      · subst h2; simp [pairs, ha, hb, h1]
      · cases hv : s.val x <;> simp [pairs, h1, h2, hv]

/-- Elements that are in a list can be treated as not stale. -/
theorem Sim.unstale (h : Sim m s S) :
    Sim m { s with stale := fun n => s.stale n ∧ ∀ l, n ∉ s.seq l } S := by
  refine ⟨h.rep, h.seq, h.listAlloc, h.val, h.alloc, h.elems, ?_, h.noList⟩
  intro n l hn ho
  rcases h.owner n l hn ho with h' | h'
  · exact Or.inl h'
  · rcases Classical.em (∃ l, n ∈ s.seq l) with ⟨l', hl'⟩ | h''
    · have e := h.rep.owner l' n (h.memS hl')
      rw [ho] at e; injection e with e; subst e
      exact Or.inl ⟨h.mem_lists hl', hl'⟩
    · exact Or.inr ⟨h', fun l hl => h'' ⟨l, hl⟩⟩

/-- C30: `Swap(a, b)` exchanges the positions of two elements of the list and nothing else; in
particular this includes adjacent elements and `a = b`. -/
theorem C30_swap {c : Client T} (hc : Safe c) {rs : List (Res T)} (h : MRun c rs m) {l a b : Nat}
    (hl : Res.list l ∈ rs) {xs : List (Nat × T)} (hx : Shows m l xs) {va vb : T}
    (ha : (a, va) ∈ xs) (hb : (b, vb) ∈ xs) :
    ∃ m', MStep m (.swap l a b) .unit m' ∧
      Shows m' l (xs.map fun p => if p.1 = a then (b, vb) else if p.1 = b then (a, va) else p) ∧
      ∀ l', Res.list l' ∈ rs → l' ≠ l → ∀ ys, Shows m l' ys → Shows m' l' ys := by
  obtain ⟨s, S, h1, h2⟩ := run_sim hc h
  have hll := srun_lists h1 hl
  have hxe := h2.shows_eq hll hx
  subst hxe
  obtain ⟨ha, ha'⟩ := mem_pairs.1 ha
  obtain ⟨hb, hb'⟩ := mem_pairs.1 hb
  obtain ⟨m', s', S', e, ⟨_, hs⟩, h3⟩ := h2.unstale.swap hll ⟨by rw [ha']; simp, fun hc => hc.2 l ha⟩
    ⟨by rw [hb']; simp, fun hc => hc.2 l hb⟩
  rw [if_pos ⟨ha, hb⟩] at hs
  subst hs
  refine ⟨m', .of_exec fun _ => by simp only [exec, e]; rfl, ?_, ?_⟩
  · have := h3.shows hll
    simp only [Spec.set, if_true] at this
    rw [← pairs_exchange ha' hb']
    exact this
  · intro l' hl' hne ys hys
    have hll' := srun_lists h1 hl'
    have := h3.shows hll'
    rw [h2.shows_eq hll' hys]
    simpa [Spec.set, hne, pairs] using this

/-- C31: `Get(i)` is the `i`-th element in iteration order, or nil if there is none. -/
theorem C31_get {c : Client T} (hc : Safe c) {rs : List (Res T)} (h : MRun c rs m) {l : Nat}
    (hl : Res.list l ∈ rs) {xs : List (Nat × T)} (hx : Shows m l xs) (i : Int) :
    ∃ m', MStep m (.get l i) (.elem (if 0 ≤ i then xs[i.toNat]?.map (·.1) else none)) m' ∧
      ∀ l', Res.list l' ∈ rs → ∀ ys, Shows m l' ys → Shows m' l' ys := by
  obtain ⟨s, S, h1, h2⟩ := run_sim hc h
  have hll := srun_lists h1 hl
  have hxe := h2.shows_eq hll hx
  obtain ⟨m', e, h3⟩ := h2.get hll i
  refine ⟨m', .of_exec fun _ => ?_, ?_⟩
  · have : xs[i.toNat]?.map (·.1) = (s.seq l)[i.toNat]? := by
      rw [← List.getElem?_map, hxe, pairs_fst (h2.elems l)]
    simp only [exec, e, this, ← resPtr_map]; rfl
  · intro l' hl' ys hys
    have hll' := srun_lists h1 hl'
    rw [h2.shows_eq hll' hys]
    exact h3.shows hll'

/-! ## C32, C33 -/

/-- What a client sees after an allocation into list `l`. -/
theorem shows_alloc {s s' : St T} {m' : Mem T} {S' : Nat → List Nat} {l : Nat} {xs ns ys : List Nat}
    {vs : List T} (hw : WF s) (hs : Sim m' s' S') (hl : s.lists l) (he : s.seq l = xs ++ ys)
    (ha : s.Alloc ns vs l (xs ++ (ns ++ ys)) s') :
    (∃ zs, zs.map (·.2) = vs ∧ Shows m' l (pairs s xs ++ (zs ++ pairs s ys))) ∧
    ∀ l', s.lists l' → l' ≠ l → Shows m' l' (pairs s (s.seq l')) := by
  have old : ∀ us : List Nat, (∀ n ∈ us, s.val n ≠ none) → pairs s' us = pairs s us :=
    fun us hu => pairs_congr fun n hn => ha.old (hu n hn)
  constructor
  · refine ⟨pairs s' ns, by rw [pairs_snd]; exact ha.2.2.2.2.1, ?_⟩
    have := hs.shows (l := l) (by rw [ha.2.1]; exact hl)
    rw [ha.seq_self, pairs_append, pairs_append, old xs, old ys] at this
    · exact this
    · intro n hn; exact hw l n (by rw [he]; simp [hn])
    · intro n hn; exact hw l n (by rw [he]; simp [hn])
  · intro l' hl' hne
    have := hs.shows (l := l') (by rw [ha.2.1]; exact hl')
    rwa [ha.seq_other hne, old _ (hw l')] at this

/-- C32: `PushBackList(other)` appends other's values in order; all lists but the receiver are
unchanged.  `other` may be the receiver, in which case its content is doubled. -/
theorem C32_pushBackList {c : Client T} (hc : Safe c) {rs : List (Res T)} (h : MRun c rs m)
    {l o : Nat} (hl : Res.list l ∈ rs) (ho : Res.list o ∈ rs) {xs ys : List (Nat × T)}
    (hx : Shows m l xs) (hy : Shows m o ys) :
    ∃ m' zs, MStep m (.pushBackList l o) .unit m' ∧ zs.map (·.2) = ys.map (·.2) ∧
      Shows m' l (xs ++ zs) ∧
      ∀ l', Res.list l' ∈ rs → l' ≠ l → ∀ us, Shows m l' us → Shows m' l' us := by
  obtain ⟨s, S, h1, h2⟩ := run_sim hc h
  have hll := srun_lists h1 hl
  obtain ⟨m', s', S', e, ⟨_, ns, ha⟩, h3⟩ := h2.pushBackList hll (srun_lists h1 ho)
  obtain ⟨⟨zs, hz, hz'⟩, ho'⟩ := shows_alloc (xs := s.seq l) (ys := []) h2.elems h3 hll
    (by simp) (by simpa using ha)
  refine ⟨m', zs, .of_exec fun _ => by simp only [exec, e]; rfl, ?_, ?_, ?_⟩
  · rw [hz, h2.shows_eq (srun_lists h1 ho) hy, pairs_snd]
  · rw [h2.shows_eq hll hx]; simpa [pairs] using hz'
  · intro l' hl' hne us hus
    rw [h2.shows_eq (srun_lists h1 hl') hus]; exact ho' l' (srun_lists h1 hl') hne

/-- C32 for `PushFrontList`. -/
theorem C32_pushFrontList {c : Client T} (hc : Safe c) {rs : List (Res T)} (h : MRun c rs m)
    {l o : Nat} (hl : Res.list l ∈ rs) (ho : Res.list o ∈ rs) {xs ys : List (Nat × T)}
    (hx : Shows m l xs) (hy : Shows m o ys) :
    ∃ m' zs, MStep m (.pushFrontList l o) .unit m' ∧ zs.map (·.2) = ys.map (·.2) ∧
      Shows m' l (zs ++ xs) ∧
      ∀ l', Res.list l' ∈ rs → l' ≠ l → ∀ us, Shows m l' us → Shows m' l' us := by
  obtain ⟨s, S, h1, h2⟩ := run_sim hc h
  have hll := srun_lists h1 hl
  obtain ⟨m', s', S', e, ⟨_, ns, ha⟩, h3⟩ := h2.pushFrontList hll (srun_lists h1 ho)
  obtain ⟨⟨zs, hz, hz'⟩, ho'⟩ := shows_alloc (xs := []) (ys := s.seq l) h2.elems h3 hll
    (by simp) (by simpa using ha)
  refine ⟨m', zs, .of_exec fun _ => by simp only [exec, e]; rfl, ?_, ?_, ?_⟩
  · rw [hz, h2.shows_eq (srun_lists h1 ho) hy, pairs_snd]
  · rw [h2.shows_eq hll hx]; simpa [pairs] using hz'
  · intro l' hl' hne us hus
    rw [h2.shows_eq (srun_lists h1 hl') hus]; exact ho' l' (srun_lists h1 hl') hne

theorem split_pairs {xs : List Nat} {ps qs : List (Nat × T)} {e : Nat} {v : T}
    (hn : ∀ n ∈ xs, s.val n ≠ none) (h : pairs s xs = ps ++ (e, v) :: qs) :
    ∃ us ws, xs = us ++ e :: ws ∧ pairs s us = ps ∧ pairs s ws = qs ∧ s.val e = some v := by
  induction xs generalizing ps with
  | nil => simp [pairs] at h
  | cons x xs ih =>
    obtain ⟨w, hw⟩ := Option.ne_none_iff_exists'.1 (hn x (by simp))
    have hp : pairs s (x :: xs) = (x, w) :: pairs s xs := by simp [pairs, hw]
    rw [hp] at h
    cases ps with
    | nil =>
      simp at h
      obtain ⟨⟨rfl, rfl⟩, h⟩ := h
      exact ⟨[], xs, rfl, rfl, h, hw⟩
    | cons p ps =>
      simp at h
      obtain ⟨us, ws, h1, h2, h3, h4⟩ := ih (fun n h => hn n (by simp [h])) h.2
      refine ⟨x :: us, ws, by rw [h1]; rfl, ?_, h3, h4⟩
      rw [← h.1, ← h2]; simp [pairs, hw]

/-- C33 for `other ≠ l`: `PushFrontListTo(other, mark)` inserts the values of `other` directly after
`mark`, in order.  The full property also claims this for `other = l`, which is false, see
`C33_self_false`. -/
theorem C33_pushFrontListTo_partial {c : Client T} (hc : Safe c) {rs : List (Res T)}
    (h : MRun c rs m) {l o mark : Nat} (hl : Res.list l ∈ rs) (ho : Res.list o ∈ rs) (hlo : l ≠ o)
    {xs ys us : List (Nat × T)} {v : T} (hx : Shows m l (xs ++ (mark, v) :: ys))
    (hy : Shows m o us) :
    ∃ m' zs, MStep m (.pushFrontListTo l o mark) .unit m' ∧ zs.map (·.2) = us.map (·.2) ∧
      Shows m' l (xs ++ (mark, v) :: (zs ++ ys)) ∧
      ∀ l', Res.list l' ∈ rs → l' ≠ l → ∀ us, Shows m l' us → Shows m' l' us := by
  obtain ⟨s, S, h1, h2⟩ := run_sim hc h
  have hll := srun_lists h1 hl
  obtain ⟨ps, qs, he, hp, hq, hv⟩ := split_pairs (h2.elems l) (h2.shows_eq hll hx).symm
  have hm : mark ∈ s.seq l := by rw [he]; simp
  have hnd := h2.nodup l
  have hps : mark ∉ ps := by
    rw [he, List.nodup_append] at hnd
    exact fun hc => hnd.2.2 mark hc mark (by simp) rfl
  obtain ⟨m', s', S', e, ⟨_, ha⟩, h3⟩ := h2.unstale.pushFrontListTo hll (srun_lists h1 ho) hlo
    ⟨by rw [hv]; simp, fun hc => hc.2 l hm⟩
  rw [if_pos hm] at ha
  obtain ⟨ns, ha⟩ := ha
  dsimp only at ha
  rw [he, insAfter_eq hps] at ha
  obtain ⟨⟨zs, hz, hz'⟩, ho'⟩ := shows_alloc (xs := ps ++ [mark]) (ys := qs)
    h2.unstale.elems h3 hll (by simp [he]) (by simpa using ha)
  have hpm : pairs s (ps ++ [mark]) = xs ++ [(mark, v)] := by
    rw [pairs_append, hp]; simp [pairs, hv]
  refine ⟨m', zs, .of_exec fun _ => by simp only [exec, e]; rfl, ?_, ?_, ?_⟩
  · rw [hz, h2.shows_eq (srun_lists h1 ho) hy, pairs_snd]
  · have : Shows m' l (pairs s (ps ++ [mark]) ++ (zs ++ pairs s qs)) := hz'
    rw [hpm, hq] at this
    simpa using this
  · intro l' hl' hne us hus
    rw [h2.shows_eq (srun_lists h1 hl') hus]; exact ho' l' (srun_lists h1 hl') hne

/-- C33 for `other ≠ l`: `PushBackListTo(other, mark)` inserts the values of `other` directly after
`mark`, in reverse order. -/
theorem C33_pushBackListTo_partial {c : Client T} (hc : Safe c) {rs : List (Res T)}
    (h : MRun c rs m) {l o mark : Nat} (hl : Res.list l ∈ rs) (ho : Res.list o ∈ rs) (hlo : l ≠ o)
    {xs ys us : List (Nat × T)} {v : T} (hx : Shows m l (xs ++ (mark, v) :: ys))
    (hy : Shows m o us) :
    ∃ m' zs, MStep m (.pushBackListTo l o mark) .unit m' ∧ zs.map (·.2) = (us.map (·.2)).reverse ∧
      Shows m' l (xs ++ (mark, v) :: (zs ++ ys)) ∧
      ∀ l', Res.list l' ∈ rs → l' ≠ l → ∀ us, Shows m l' us → Shows m' l' us := by
  obtain ⟨s, S, h1, h2⟩ := run_sim hc h
  have hll := srun_lists h1 hl
  obtain ⟨ps, qs, he, hp, hq, hv⟩ := split_pairs (h2.elems l) (h2.shows_eq hll hx).symm
  have hm : mark ∈ s.seq l := by rw [he]; simp
  have hnd := h2.nodup l
  have hps : mark ∉ ps := by
    rw [he, List.nodup_append] at hnd
    exact fun hc => hnd.2.2 mark hc mark (by simp) rfl
  obtain ⟨m', s', S', e, ⟨_, ha⟩, h3⟩ := h2.unstale.pushBackListTo hll (srun_lists h1 ho) hlo
    ⟨by rw [hv]; simp, fun hc => hc.2 l hm⟩
  rw [if_pos hm] at ha
  obtain ⟨ns, ha⟩ := ha
  dsimp only at ha
  rw [he, insAfter_eq hps] at ha
  obtain ⟨⟨zs, hz, hz'⟩, ho'⟩ := shows_alloc (xs := ps ++ [mark]) (ys := qs)
    h2.unstale.elems h3 hll (by simp [he]) (by simpa using ha)
  have hpm : pairs s (ps ++ [mark]) = xs ++ [(mark, v)] := by
    rw [pairs_append, hp]; simp [pairs, hv]
  refine ⟨m', zs, .of_exec fun _ => by simp only [exec, e]; rfl, ?_, ?_, ?_⟩
  · rw [hz, h2.shows_eq (srun_lists h1 ho) hy, pairs_snd]
  · have : Shows m' l (pairs s (ps ++ [mark]) ++ (zs ++ pairs s qs)) := hz'
    rw [hpm, hq] at this
    simpa using this
  · intro l' hl' hne us hus
    rw [h2.shows_eq (srun_lists h1 hl') hus]; exact ho' l' (srun_lists h1 hl') hne

/-- A script of calls with the final observation, for concrete witnesses. -/
def script (ops : List (Op Nat)) (last : Op Nat) : Option (Res Nat) := do
  let m ← ops.foldlM (fun m op => (exec 20 m op).map (·.1)) (Mem.empty : Mem Nat)
  let (_, r) ← exec 20 m last
  some r

/-- C33 is false for `other = l`: on the list 1, 2 with `mark` its first element,
`PushFrontListTo(l, mark)` gives 1, 2, 2, 2 instead of 1, 1, 2, 2, and `PushBackListTo(l, mark)`
gives 1, 1, 1, 2 instead of 1, 2, 1, 2. -/
theorem C33_self_false :
    script [.new, .pushBack 0 1, .pushBack 0 2, .pushFrontListTo 0 0 0] (.slice 0)
      = some (.vals [1, 2, 2, 2]) ∧
    script [.new, .pushBack 0 1, .pushBack 0 2, .pushBackListTo 0 0 0] (.slice 0)
      = some (.vals [1, 1, 1, 2]) := ⟨rfl, rfl⟩

example : script [.new, .pushBack 0 1, .pushBack 0 2, .new, .pushBack 1 8, .pushBack 1 9,
    .pushFrontListTo 0 1 0] (.slice 0) = some (.vals [1, 8, 9, 2]) := rfl
example : script [.new, .pushBack 0 1, .pushBack 0 2, .pushFrontList 0 0] (.slice 0)
    = some (.vals [1, 2, 1, 2]) := rfl

/-! ## C34 -/

/-- C34: `Sort(less)` terminates and leaves a permutation of the values; when `less` is a strict
weak order the result is sorted and the sort is stable (equivalent values keep their order).  All
other lists are unchanged. -/
theorem C34_sort {c : Client T} (hc : Safe c) {rs : List (Res T)} (h : MRun c rs m) {l : Nat}
    (hl : Res.list l ∈ rs) {xs : List (Nat × T)} (hx : Shows m l xs) (less : T → T → Bool) :
    ∃ m' ys, MStep m (.sort l less) .unit m' ∧ Shows m' l ys ∧
      (ys.map (·.2)).Perm (xs.map (·.2)) ∧
      (StrictWeak less → (ys.map (·.2)).Pairwise (fun a b => less b a = false) ∧
        ∀ v, (ys.map (·.2)).filter (fun w => !less v w && !less w v) =
          (xs.map (·.2)).filter (fun w => !less v w && !less w v)) ∧
      ∀ l', Res.list l' ∈ rs → l' ≠ l → ∀ us, Shows m l' us → Shows m' l' us := by
  obtain ⟨s, S, h1, h2⟩ := run_sim hc h
  have hll := srun_lists h1 hl
  obtain ⟨m', s', S', e, hs, h3⟩ := Sim.sort less _ h2 hll (Nat.le_refl _)
  have hp := sortPost_of_step hs
  refine ⟨m', pairs s' (s'.seq l), ⟨(s.seq l).length + 1, fun fuel hf => by
    simp only [exec, e fuel hf]; rfl⟩, h3.shows (by rw [hp.lists]; exact hll), ?_, ?_, ?_⟩
  · rw [h2.shows_eq hll hx, pairs_snd, pairs_snd]; exact hp.perm
  · rw [h2.shows_eq hll hx, pairs_snd, pairs_snd]; exact hp.stable
  · intro l' hl' hne us hus
    have hll' := srun_lists h1 hl'
    have := h3.shows (l := l') (by rw [hp.lists]; exact hll')
    rw [hp.other l' hne, pairs_congr fun n hn => hp.old n (h2.elems l' n hn)] at this
    rw [h2.shows_eq hll' hus]; exact this

example : script [.new, .pushBack 0 3, .pushBack 0 1, .pushBack 0 2, .pushBack 0 1,
    .sort 0 (fun a b => decide (a < b))] (.slice 0) = some (.vals [1, 1, 2, 3]) := rfl
example : StrictWeak (fun a b : Nat × Nat => decide (a.1 < b.1)) :=
  ⟨fun a => by simp, fun a b c => by simp; omega, fun a b c => by simp; omega⟩

/-! ## C35 -/

/-- C35 is false: after `Clear` an element that was in the list still says it belongs to it.
Removing it makes the length of the empty list -1; moving it to the front re-inserts it without
counting it; inserting before it yields an element that iteration does not reach. -/
theorem C35_stale_false :
    script [.new, .pushBack 0 1, .clear 0, .remove 0 0] (.len 0) = some (.int (-1)) ∧
    script [.new, .pushBack 0 1, .clear 0, .moveToFront 0 0] (.len 0) = some (.int 0) ∧
    script [.new, .pushBack 0 1, .pushBack 0 2, .clear 0, .insertAfter 0 9 0] (.len 0)
      = some (.int 1) ∧
    script [.new, .pushBack 0 1, .pushBack 0 2, .clear 0, .insertAfter 0 9 0] (.front 0)
      = some (.sentinel 0) ∧
    script [.new, .pushBack 0 2, .pushBack 0 1, .sort 0 (fun a b => decide (a < b)), .remove 0 0]
      (.len 0) = some (.int 1) := ⟨rfl, rfl, rfl, rfl, rfl⟩

/-- C35, what does hold: right after `Clear` of `l`, a handle `e` that was in `l` is harmless when
passed to a method of another list.  Missing from the full claim: methods of `l` itself, which do
change the list (see `C35_stale_false`). -/
theorem C35_stale_partial {c : Client T} (hc : Safe c) {rs : List (Res T)} (h : MRun c rs m)
    {l e : Nat} (hl : Res.list l ∈ rs) {xs : List (Nat × T)} (hx : Shows m l xs)
    (he : e ∈ xs.map (·.1)) {l' : Nat} (hne : l' ≠ l) {op : Op T} (ho : recvList op = some l')
    (hop : e ∈ elemArgs op) (hni : selfTo op = false) {r : Res T} {m' : Mem T}
    (hm : MStep (clear m l) op r m') : m' = clear m l := by
  obtain ⟨s, S, h1, h2⟩ := run_sim hc h
  have hll := srun_lists h1 hl
  rw [h2.shows_eq hll hx, pairs_fst (h2.elems l)] at he
  have hown : (clear m l).owner (.node e) ≠ some l' := by
    show m.owner (.node e) ≠ some l'
    rw [h2.rep.owner l e (h2.memS he)]
    simpa using Ne.symm hne
  obtain ⟨F, hm⟩ := hm
  have hm := hm F (Nat.le_refl _)
  generalize clear m l = m1 at *
  cases op <;> simp only [recvList, elemArgs, Option.some.injEq, reduceCtorEq, List.mem_cons,
    List.not_mem_nil, or_false] at ho hop <;> subst ho
  case insertBefore | insertAfter | moveToFront | moveToBack | pushBackListTo | pushFrontListTo |
      remove =>
    subst hop
    simp [exec, Dllist.insertBefore, Dllist.insertAfter, Dllist.moveToFront, Dllist.moveToBack,
      Dllist.pushBackListTo, Dllist.pushFrontListTo, Dllist.lRemove, hown] at hm
    exact hm.1.symm
  case moveBefore | moveAfter | swap =>
    rcases hop with rfl | rfl <;>
    · simp [exec, Dllist.moveBefore, Dllist.moveAfter, Dllist.swap, hown] at hm
      exact hm.1.symm

/-! ## C36 -/

/-- The client that declares zero lists wherever `c` calls `New`. -/
def zeroed (c : Client T) : Client T := fun rs => (c rs).map fun
  | .new => .zero
  | op => op

theorem srun_zeroed {c : Client T} {rs : List (Res T)} : SRun (zeroed c) rs s ↔ SRun c rs s := by
  have hstep : ∀ (s : St T) op r s', s.Step (match op with | .new => .zero | op => op) r s' ↔
      s.Step op r s' := by
    intro s op r s'; cases op <;> rfl
  constructor
  · intro h
    induction h with
    | nil => exact .nil
    | snoc hr ho hs ih =>
      simp only [zeroed, Option.map_eq_some_iff] at ho
      obtain ⟨op, h1, rfl⟩ := ho
      exact .snoc ih h1 ((hstep _ op _ _).1 hs)
  · intro h
    induction h with
    | nil => exact .nil
    | @snoc rs s op r s' hr ho hs ih =>
      exact .snoc ih (by simp only [zeroed, ho, Option.map_some]) ((hstep _ op _ _).2 hs)

/-- C36: replace every `New()` of a safe client by a zero `Dllist`: all calls still work, and every
sequence of results is one the specification allows for the original client. -/
theorem C36_zero_value {c : Client T} (hc : Safe c) {rs : List (Res T)}
    (h : MRun (zeroed c) rs m) :
    (∃ s, SRun c rs s) ∧ ∀ op, zeroed c rs = some op → ∃ r m', MStep m op r m' := by
  have hs : Safe (zeroed c) := by
    intro rs s op h1 h2
    simp only [zeroed, Option.map_eq_some_iff] at h2
    obtain ⟨op', h2, rfl⟩ := h2
    have := hc rs s op' (srun_zeroed.1 h1) h2
    cases op' <;> exact this
  obtain ⟨⟨s, h1⟩, h2⟩ := C28_sequence hs h
  exact ⟨⟨s, srun_zeroed.1 h1⟩, h2⟩

example : script [.zero] (.back 0) = some (.elem none) ∧
    script [.zero] (.get 0 0) = some (.elem none) ∧
    script [.zero, .new, .pushBack 1 5, .pushFrontList 0 1] (.slice 0) = some (.vals [5]) :=
  ⟨rfl, rfl, rfl⟩

end Verif.Dllist
