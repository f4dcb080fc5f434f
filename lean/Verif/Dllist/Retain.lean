import Verif.Dllist.Stale
import Mathlib.Logic.Relation
/-!
# What lists and elements keep from being collected (C178)

An element refers to its neighbours and to its list (element.go:4-6), and a list contains its
sentinel (dllist.go:6), so a pointer to the sentinel of a list and a pointer to the list keep the
same memory.  Not modelled: what the values of the elements refer to.
-/
namespace Verif.Dllist
open Spec (Op Res St Client SRun Safe)
variable {T : Type} {m m' : Mem T}

/-- `q` is referred to by a field of `p`: `next`, `prev` (element.go:4) or `list` (element.go:6),
which leads to the list's sentinel (dllist.go:6). -/
def Refers (m : Mem T) (p q : Ptr) : Prop :=
  m.next p = some q ∨ m.prev p = some q ∨ ∃ l, m.owner p = some l ∧ q = .root l

/-- A client that has `p` keeps `q` from being collected. -/
def Keeps (m : Mem T) : Ptr → Ptr → Prop := Relation.ReflTransGen (Refers m)

theorem Sound.refers (h : Sound m) {l : Nat} {p q : Ptr} (hp : Mine m l p) (hr : Refers m p q) : Mine m l q := by
  cases hi : m.inited l with
  | true =>
    obtain ⟨rank, hk⟩ := h.lk l hi
    rcases hr with hr | hr | ⟨l', hl', rfl⟩
    · obtain ⟨q', d, e, _⟩ := hk.fw p hp
      rw [e] at hr; cases hr; exact d
    · obtain ⟨q', d, e, _⟩ := hk.bw p hp
      rw [e] at hr; cases hr; exact d
    · rcases hp with rfl | hp
      · rw [h.rootOwner] at hl'; cases hl'
      · rw [hp] at hl'; cases hl'; exact .inl rfl
  | false =>
    rcases hp with rfl | hp
    · obtain ⟨a, b⟩ := h.zero l hi
      rcases hr with hr | hr | ⟨l', hl', _⟩
      · rw [a] at hr; cases hr
      · rw [b] at hr; cases hr
      · rw [h.rootOwner] at hl'; cases hl'
    · rw [h.ini p l hp] at hi; cases hi

theorem Sound.keeps (h : Sound m) {l : Nat} {p q : Ptr} (hp : Mine m l p) (hk : Keeps m p q) : Mine m l q := by
  induction hk with
  | refl => exact hp
  | tail _ hr ih => exact h.refers ih hr

theorem Sound.idle_keeps (h : Sound m) {n : Nat} (ho : m.owner (.node n) = none) {q : Ptr} (hk : Keeps m (.node n) q) : q = .node n := by
  induction hk with
  | refl => rfl
  | tail _ hr ih =>
    subst ih
    obtain ⟨a, b⟩ := h.idle n ho
    rcases hr with hr | hr | ⟨l, hl, _⟩
    · rw [a] at hr; cases hr
    · rw [b] at hr; cases hr
    · rw [ho] at hl; cases hl

theorem MRun.any {c : Client T} {rs : List (Res T)} (h : MRun c rs m) : Any m := by
  induction h with
  | nil => exact .start
  | snoc _ _ hm ih => exact C140_any ih hm

/-- In a linked sequence each keeps each. -/
theorem keeps_lnk {xs : List Ptr} (h : Lnk m.next m.prev xs) : ∀ p ∈ xs, ∀ q ∈ xs, Keeps m p q := by
  induction xs with
  | nil => simp
  | cons x xs ih =>
    cases xs with
    | nil =>
      intro p hp q hq
      simp only [List.mem_singleton] at hp hq
      subst hp; subst hq; exact .refl
    | cons y xs =>
      have fw : Keeps m x y := .single (.inl h.1)
      have bw : Keeps m y x := .single (.inr (.inl h.2.1))
      have ih := ih h.2.2
      intro p hp q hq
      rcases List.mem_cons.1 hp with e1 | hp1
      · rcases List.mem_cons.1 hq with e2 | hq1
        · rw [e1, e2]; exact .refl
        · rw [e1]; exact fw.trans (ih y (by simp) q hq1)
      · rcases List.mem_cons.1 hq with e2 | hq1
        · rw [e2]; exact (ih p hp1 y (by simp)).trans bw
        · exact ih p hp1 q hq1

theorem lnk_tail {nx pv : Ptr → Option Ptr} {x : Ptr} {xs : List Ptr} (h : Lnk nx pv (x :: xs)) : Lnk nx pv xs := by
  cases xs with
  | nil => trivial
  | cons y xs => exact h.2.2

theorem lnk_left {nx pv : Ptr → Option Ptr} {xs ys : List Ptr} (h : Lnk nx pv (xs ++ ys)) : Lnk nx pv xs := by
  induction xs with
  | nil => trivial
  | cons x xs ih =>
    have := ih (lnk_tail h)
    cases xs with
    | nil => trivial
    | cons y xs => exact ⟨h.1, h.2.1, this⟩

theorem Rep.refers {S : Nat → List Nat} (h : Rep m S) (hs : Sound m) {l : Nat} {p q : Ptr} (hp : dom l (S l) p)
    (hr : Refers m p q) : dom l (S l) q := by
  cases hi : m.inited l with
  | true =>
    have hk := h.lnk l hi
    have hc : p ∈ (cyc l (S l)).dropLast ∧ p ∈ (cyc l (S l)).tail := by
      rcases hp with rfl | ⟨n, hn, rfl⟩
      · simp [cyc, List.dropLast_cons_of_ne_nil]
      · simp [cyc, List.dropLast_cons_of_ne_nil, hn]
    rcases hr with hr | hr | ⟨l', hl', rfl⟩
    · obtain ⟨y, hy, e, _⟩ := Lnk_succ hk hc.1
      rw [e] at hr; cases hr
      exact mem_cyc.1 (List.mem_of_mem_tail hy)
    · obtain ⟨y, hy, e, _⟩ := Lnk_pred hk hc.2
      rw [e] at hr; cases hr
      exact mem_cyc.1 (List.dropLast_subset _ hy)
    · rcases hp with rfl | ⟨n, hn, rfl⟩
      · rw [hs.rootOwner] at hl'; cases hl'
      · rw [h.owner l n hn] at hl'; cases hl'; exact .inl rfl
  | false =>
    have e := h.zero l hi
    rw [e] at hp
    have hp : p = .root l := by simpa [dom] using hp
    subst hp
    have := hs.refers (l := l) (.inl rfl) hr
    rcases this with rfl | this
    · exact .inl rfl
    · rw [hs.ini q l this] at hi; cases hi

theorem Rep.keeps {S : Nat → List Nat} (h : Rep m S) (hs : Sound m) {l : Nat} {p q : Ptr} (hp : dom l (S l) p) :
    Keeps m p q ↔ dom l (S l) q := by
  constructor
  · intro hk
    induction hk with
    | refl => exact hp
    | tail _ hr ih => exact h.refers hs ih hr
  · intro hq
    cases hi : m.inited l with
    | true => exact keeps_lnk (h.lnk l hi) p (mem_cyc.2 hp) q (mem_cyc.2 hq)
    | false =>
      have e := h.zero l hi
      rw [e] at hp hq
      have hp : p = .root l := by simpa [dom] using hp
      have hq : q = .root l := by simpa [dom] using hq
      subst hp; subst hq; exact .refl

/-- `q` is the list `l` or one of the elements `xs`. -/
def Part (l : Nat) (xs : List (Nat × T)) (q : Ptr) : Prop := q = .root l ∨ ∃ x ∈ xs, q = .node x.1

theorem part_dom {s : St T} {S : Nat → List Nat} (h : Sim m s S) {l : Nat} (hl : s.lists l) {xs : List (Nat × T)} (hx : Shows m l xs) (q : Ptr) :
    Part l xs q ↔ dom l (S l) q := by
  have e : xs.map (·.1) = S l := by rw [h.shows_eq hl hx, pairs_fst (h.elems l), h.seq l hl]
  rw [← e]
  simp [Part, dom]

/-- C178: a list keeps the elements that iteration shows, and nothing else: no element that was
removed, or was there before `Clear` or `Sort`, none of another list, and no list that `Sort` made
for its own use.  The same holds of each of its elements. -/
theorem C178_list {c : Client T} (hc : Safe c) {rs : List (Res T)} (h : MRun c rs m) {l : Nat} (hl : Res.list l ∈ rs)
    {xs : List (Nat × T)} (hx : Shows m l xs) {p : Ptr} (hp : Part l xs p) (q : Ptr) : Keeps m p q ↔ Part l xs q := by
  obtain ⟨s, S, h1, h2⟩ := run_sim hc h
  have hll := srun_lists h1 hl
  rw [part_dom h2 hll hx] at hp ⊢
  exact h2.rep.keeps h.any.sound hp

/-- C178: whatever calls were made, two lists never keep the same thing. -/
theorem C178_apart (h : Any m) {l l' : Nat} (hne : l ≠ l') {q : Ptr} (h1 : Keeps m (.root l) q) : ¬ Keeps m (.root l') q := fun h2 =>
  (h.sound.keeps (.inl rfl) h1).disj h.sound hne (h.sound.keeps (.inl rfl) h2)

theorem Sound.alone (h : Sound m) {e : Nat} (ho : m.owner (.node e) = none) (q : Ptr) :
    (Keeps m (.node e) q ↔ q = .node e) ∧ (Keeps m q (.node e) ↔ q = .node e) := by
  refine ⟨⟨h.idle_keeps ho, by rintro rfl; exact .refl⟩, fun hk => ?_, by rintro rfl; exact .refl⟩
  cases hq : m.owner q with
  | some l =>
    rcases h.keeps (.inr hq) hk with c | c
    · cases c
    · rw [ho] at c; cases c
  | none =>
    cases q with
    | root l =>
      rcases h.keeps (l := l) (.inl rfl) hk with c | c
      · cases c
      · rw [ho] at c; cases c
    | node n => exact (h.idle_keeps hq hk).symm

/-- C178: whatever calls were made, right after `e.Remove()` the element keeps only itself, and
nothing else keeps it. -/
theorem C178_removed (h : Any m) {e : Nat} {r : Res T} (hm : MStep m (.elRemove e) r m') (q : Ptr) :
    (Keeps m' (.node e) q ↔ q = .node e) ∧ (Keeps m' q (.node e) ↔ q = .node e) := by
  refine (C140_any h hm).sound.alone ?_ q
  obtain ⟨F, hm⟩ := hm
  have hm := hm F (Nat.le_refl _)
  cases ho : m.owner (.node e) with
  | none =>
    simp only [exec, Dllist.elRemove, ho] at hm
    simp only [Option.bind_eq_bind, Option.bind_some, Option.some.injEq, Prod.mk.injEq] at hm
    rw [← hm.1]; exact ho
  | some l =>
    obtain ⟨m1, h3, _, h5, _⟩ := h.sound.remove ho
    simp only [exec, Dllist.elRemove, ho, h3] at hm
    simp only [Option.bind_eq_bind, Option.bind_some, Option.some.injEq, Prod.mk.injEq] at hm
    rw [← hm.1]; exact h5

/-- C178: the same right after `l.Remove(e)` of an element that iteration over `l` shows. -/
theorem C178_list_removed {c : Client T} (hc : Safe c) {rs : List (Res T)} (h : MRun c rs m) {l : Nat} (hl : Res.list l ∈ rs)
    {xs : List (Nat × T)} (hx : Shows m l xs) {x : Nat × T} (hxx : x ∈ xs) {r : Res T} (hm : MStep m (.remove l x.1) r m') (q : Ptr) :
    (Keeps m' (.node x.1) q ↔ q = .node x.1) ∧ (Keeps m' q (.node x.1) ↔ q = .node x.1) := by
  refine (C140_any h.any hm).sound.alone ?_ q
  obtain ⟨s, S, h1, h2⟩ := run_sim hc h
  have hmem : x.1 ∈ S l := by
    simpa [dom] using (part_dom h2 (srun_lists h1 hl) hx (.node x.1)).1 (.inr ⟨x, hxx, rfl⟩)
  have ho := h2.rep.owner l _ hmem
  obtain ⟨F, hm⟩ := hm
  have hm := hm F (Nat.le_refl _)
  obtain ⟨m1, h3, _, h5, _⟩ := h.any.sound.remove ho
  simp only [exec, Dllist.lRemove, ho, if_true, h3] at hm
  simp only [Option.bind_eq_bind, Option.bind_some, Option.some.injEq, Prod.mk.injEq] at hm
  rw [← hm.1]; exact h5

/-- Every list of the specification was handed to the client. -/
theorem srun_listed {c : Client T} {rs : List (Res T)} {s : St T} (h : SRun c rs s) {l : Nat} (hl : s.lists l) : Res.list l ∈ rs := by
  induction h with
  | nil => exact hl.elim
  | @snoc rs s op r s' hr ho hs ih =>
    rcases step_lists hs with h | ⟨h1, _⟩
    · have : ∃ l0, r = .list l0 ∧ s'.lists = fun x => x = l0 ∨ s.lists x := by
        rcases h with rfl | rfl <;> (obtain ⟨l0, _, rfl, rfl⟩ := hs; exact ⟨l0, rfl, rfl⟩)
      obtain ⟨l0, rfl, e⟩ := this
      rw [e] at hl
      rcases hl with rfl | hl
      · simp
      · exact List.mem_append_left _ (ih hl)
    · rw [h1] at hl; exact List.mem_append_left _ (ih hl)

/-- C178: a client that neither clears nor sorts: at any time, an element it was given and that none
of its lists shows keeps only itself, and nothing else keeps it. -/
theorem C178_out {c : Client T} (hc : Tracks c) {rs : List (Res T)} (h : MRun c rs m) {e : Nat} (he : Res.elem (some e) ∈ rs)
    (hout : ∀ l xs, Res.list l ∈ rs → Shows m l xs → ∀ v, (e, v) ∉ xs) (q : Ptr) :
    (Keeps m (.node e) q ↔ q = .node e) ∧ (Keeps m q (.node e) ↔ q = .node e) := by
  refine h.any.sound.alone ?_ q
  obtain ⟨s, S, h1, h2⟩ := run_sim (tracks_safe hc) h
  obtain ⟨_, hv, hst⟩ := tracks_inv hc h1
  refine h2.owner_none ⟨hv e he, hst e⟩ fun l hel => ?_
  have hll := h2.mem_lists hel
  obtain ⟨v, hv⟩ := Option.ne_none_iff_exists'.1 (hv e he)
  exact hout l _ (srun_listed h1 hll) (h2.shows hll) v (mem_pairs.2 ⟨hel, hv⟩)

/-- C178: whatever calls were made, an element keeps only itself just when it would refuse to have
another put next to it, that is, when it says it is in no list. -/
theorem C178_idle (h : Any m) (e : Nat) (v : T) :
    (∀ q, Keeps m (.node e) q → q = .node e) ↔ MStep m (.elInsertAfter e v) (.elem none) m := by
  constructor
  · intro hk
    cases ho : m.owner (.node e) with
    | none => exact ⟨0, fun _ _ => by simp only [exec, Dllist.elInsertAfter, ho]; rfl⟩
    | some l => cases hk (.root l) (.single (.inr (.inr ⟨l, ho, rfl⟩)))
  · rintro ⟨F, hm⟩ q hk
    have hm := hm F (Nat.le_refl _)
    cases ho : m.owner (.node e) with
    | none => exact h.sound.idle_keeps ho hk
    | some l =>
      obtain ⟨m1, h3, _⟩ := h.sound.insertValue (h.sound.ini _ _ ho) v (.inr ho)
      simp [exec, Dllist.elInsertAfter, ho, h3] at hm

/-- C178: after `Clear`, the list keeps nothing, but each of the elements that were in it keeps the
list and all the others. -/
theorem C178_cleared {c : Client T} (hc : Safe c) {rs : List (Res T)} (h : MRun c rs m) {l : Nat} (hl : Res.list l ∈ rs)
    {xs : List (Nat × T)} (hx : Shows m l xs) {r : Res T} (hm : MStep m (.clear l) r m') (q : Ptr) :
    (Keeps m' (.root l) q ↔ q = .root l) ∧ ∀ x ∈ xs, (Keeps m' (.node x.1) q ↔ Part l xs q) := by
  obtain ⟨s, S, h1, h2⟩ := run_sim hc h
  have hll := srun_lists h1 hl
  obtain ⟨F, hm⟩ := hm
  have hm := hm F (Nat.le_refl _)
  simp only [exec, Option.some.injEq, Prod.mk.injEq] at hm
  obtain ⟨rfl, _⟩ := hm
  have nx : ∀ n, (clear m l).next (.node n) = m.next (.node n) := fun n => by
    simp [Dllist.clear, Mem.setNext, Mem.setPrev, Mem.setLen, Mem.setInited, upd]
  have pv : ∀ n, (clear m l).prev (.node n) = m.prev (.node n) := fun n => by
    simp [Dllist.clear, Mem.setNext, Mem.setPrev, Mem.setLen, Mem.setInited, upd]
  have ow : (clear m l).owner = m.owner := rfl
  have rt : ∀ {q}, Refers (clear m l) (.root l) q → q = .root l := by
    rintro q (hr | hr | ⟨l', hl', _⟩)
    · simpa [Dllist.clear, Mem.setNext, Mem.setPrev, Mem.setLen, Mem.setInited, upd, eq_comm] using hr
    · simpa [Dllist.clear, Mem.setNext, Mem.setPrev, Mem.setLen, Mem.setInited, upd, eq_comm] using hr
    · rw [ow, h.any.sound.rootOwner] at hl'; cases hl'
  refine ⟨⟨fun hk => ?_, by rintro rfl; exact .refl⟩, fun x hxx => ?_⟩
  · induction hk with
    | refl => rfl
    | tail _ hr ih => subst ih; exact rt hr
  · have hpx : dom l (S l) (.node x.1) := (part_dom h2 hll hx _).1 (.inr ⟨x, hxx, rfl⟩)
    have hmem : x.1 ∈ S l := by simpa [dom] using hpx
    rw [part_dom h2 hll hx]
    constructor
    · intro hk
      induction hk with
      | refl => exact hpx
      | @tail p q _ hr ih =>
        rcases ih with rfl | ⟨n, hn, rfl⟩
        · exact .inl (rt hr)
        · refine h2.rep.refers h.any.sound (.inr ⟨n, hn, rfl⟩) ?_
          rcases hr with hr | hr | hr
          · exact .inl (by rw [← nx]; exact hr)
          · exact .inr (.inl (by rw [← pv]; exact hr))
          · exact .inr (.inr hr)
    · rintro (rfl | ⟨n, hn, rfl⟩)
      · exact .single (.inr (.inr ⟨l, h2.rep.owner l _ hmem, rfl⟩))
      · have hi : m.inited l = true := h.any.sound.ini _ _ (h2.rep.owner l _ hmem)
        have hk : Lnk m.next m.prev ((S l).map Ptr.node) := by
          have := h2.rep.lnk l hi
          unfold cyc at this
          exact lnk_left (lnk_tail this)
        have hk' : Lnk (clear m l).next (clear m l).prev ((S l).map Ptr.node) := by
          refine Lnk_congr _ (fun x hx => ?_) (fun x hx => ?_) hk
          · obtain ⟨n, _, rfl⟩ := List.mem_map.1 (List.dropLast_subset _ hx); exact nx n
          · obtain ⟨n, _, rfl⟩ := List.mem_map.1 (List.mem_of_mem_tail hx); exact pv n
        exact keeps_lnk hk' _ (List.mem_map.2 ⟨_, hmem, rfl⟩) _ (List.mem_map.2 ⟨_, hn, rfl⟩)

/-- The memory after some calls. -/
def memAfter (ops : List (Op Nat)) : Option (Mem Nat) :=
  ops.foldlM (fun m op => (exec 20 m op).map (·.1)) (Mem.empty : Mem Nat)

/-- C178: "an element that is in no list keeps only itself" is false after `Clear` and `Sort`: the
old elements keep each other and also what is put in the list later, while the list does not keep
them. -/
theorem C178_left_false :
    (∃ m, memAfter [.new, .pushBack 0 1, .pushBack 0 2, .clear 0, .pushBack 0 3] = some m ∧
      Keeps m (.node 0) (.node 1) ∧ Keeps m (.node 0) (.node 2) ∧ m.next (.root 0) = some (.node 2) ∧ m.next (.node 2) = some (.root 0)) ∧
    ∃ m, memAfter [.new, .pushBack 0 2, .pushBack 0 1, .sort 0 (fun a b => decide (a < b))] = some m ∧
      Keeps m (.node 0) (.node 1) ∧ ∃ n, m.next (.root 0) = some (.node n) ∧ 1 < n ∧ Keeps m (.node 0) (.node n) :=
  ⟨⟨_, rfl, .single (.inl rfl), .head (.inr (.inr ⟨0, rfl, rfl⟩)) (.single (.inl rfl)), rfl, rfl⟩,
   _, rfl, .single (.inl rfl), _, rfl, by decide, .head (.inr (.inr ⟨0, rfl, rfl⟩)) (.single (.inl rfl))⟩

/-- A list with two elements keeps both; after a removal the other one only. -/
example : ∃ m, memAfter [.new, .pushBack 0 1, .pushBack 0 2, .remove 0 0] = some m ∧
    Keeps m (.root 0) (.node 1) ∧ m.next (.node 0) = none ∧ m.prev (.node 0) = none ∧ m.owner (.node 0) = none :=
  ⟨_, rfl, .single (.inl rfl), rfl, rfl, rfl⟩

end Verif.Dllist
