import Verif.Dllist.Sort
/-!
# Every call of the model refines the sequence specification; histories
-/
namespace Verif.Dllist
open Spec (Op Res St Client SRun Safe valsOf insBefore insAfter nextOf prevOf exchange StableSorted)
variable {T : Type} {m : Mem T} {s : St T} {S : Nat → List Nat}

theorem MStep.det {op : Op T} {r r' : Res T} {m' m'' : Mem T} (h1 : MStep m op r m')
    (h2 : MStep m op r' m'') : r = r' ∧ m' = m'' := by
  obtain ⟨F1, h1⟩ := h1
  obtain ⟨F2, h2⟩ := h2
  have a := h1 (max F1 F2) (Nat.le_max_left _ _)
  rw [h2 (max F1 F2) (Nat.le_max_right _ _)] at a
  simp at a; exact ⟨a.2.symm, a.1.symm⟩

theorem MStep.of_exec {op : Op T} {r : Res T} {m' : Mem T}
    (h : ∀ fuel, exec fuel m op = some (m', r)) : MStep m op r m' := ⟨0, fun f _ => h f⟩

theorem Sim.elNextStep (h : Sim m s S) {e : Nat} (he : s.Usable e) :
    ∃ r, r = resPtr (Dllist.elNext m (.node e)) ∧ s.Step (.elNext e) r s := by
  refine ⟨_, rfl, rfl, ?_⟩
  rcases Classical.em (∃ l, e ∈ s.seq l) with ⟨l, hl⟩ | hn
  · obtain ⟨xs, ys, h1, h2, h3, _⟩ := split_nodup (h.nodup l) hl
    exact Or.inl ⟨l, hl, by rw [h.elNext h1, h1, nextOf_eq h2, resPtr_map]⟩
  · have hn : ∀ l, e ∉ s.seq l := fun l hl => hn ⟨l, hl⟩
    exact Or.inr ⟨hn, by simp [Dllist.elNext, h.owner_none he hn, resPtr]⟩

theorem Sim.elPrevStep (h : Sim m s S) {e : Nat} (he : s.Usable e) :
    ∃ r, r = resPtr (Dllist.elPrev m (.node e)) ∧ s.Step (.elPrev e) r s := by
  refine ⟨_, rfl, rfl, ?_⟩
  rcases Classical.em (∃ l, e ∈ s.seq l) with ⟨l, hl⟩ | hn
  · obtain ⟨xs, ys, h1, h2, h3, _⟩ := split_nodup (h.nodup l) hl
    exact Or.inl ⟨l, hl, by rw [h.elPrev h1, h1, prevOf_eq h3, resPtr_map]⟩
  · have hn : ∀ l, e ∉ s.seq l := fun l hl => hn ⟨l, hl⟩
    exact Or.inr ⟨hn, by simp [Dllist.elPrev, h.owner_none he hn, resPtr]⟩

/-- Every valid call terminates without panic, returns what the specification allows, and leads to
a memory implementing the new abstract state. -/
theorem sim_step (h : Sim m s S) (op : Op T) (hv : s.Valid op) :
    ∃ r m' s' S', MStep m op r m' ∧ s.Step op r s' ∧ Sim m' s' S' := by
  cases op with
  | new =>
    obtain ⟨h1, h2, h3⟩ := h.new
    exact ⟨_, _, _, _, .of_exec fun _ => rfl, ⟨_, h2, rfl, rfl⟩, h3⟩
  | zero =>
    obtain ⟨h1, h2, h3⟩ := h.zeroList
    exact ⟨_, _, _, _, .of_exec fun _ => rfl, ⟨_, h2, rfl, rfl⟩, h3⟩
  | clear l => exact ⟨_, _, _, _, .of_exec fun _ => rfl, ⟨rfl, rfl⟩, h.clear hv⟩
  | pushFront l v =>
    obtain ⟨m', s', S', e, ha, hs⟩ := h.pushFront hv v
    exact ⟨_, _, _, _, .of_exec fun _ => by simp only [exec, e]; rfl, ⟨_, rfl, ha⟩, hs⟩
  | pushBack l v =>
    obtain ⟨m', s', S', e, ha, hs⟩ := h.pushBack hv v
    exact ⟨_, _, _, _, .of_exec fun _ => by simp only [exec, e]; rfl, ⟨_, rfl, ha⟩, hs⟩
  | insertBefore l v mark =>
    by_cases hm : mark ∈ s.seq l
    · obtain ⟨_, m', s', S', e, ha, hs⟩ := h.insertAt hm v
      refine ⟨.elem (some m.fresh), m', s', S', .of_exec fun _ => ?_, ?_, hs⟩
      · simp only [exec, Dllist.insertBefore]
        rw [if_neg (by simp [h.rep.owner l mark (h.memS hm)]), e]; rfl
      · simp only [St.Step]; rw [if_pos hm]; exact ⟨_, rfl, ha⟩
    · refine ⟨.elem none, m, s, S, .of_exec fun _ => ?_, ?_, h⟩
      · simp only [exec, Dllist.insertBefore]
        rw [if_pos (by rw [Ne, h.owner_iff hv.2 hv.1]; exact hm)]; rfl
      · unfold St.Step; dsimp only; rw [if_neg hm]; exact ⟨rfl, rfl⟩
  | insertAfter l v mark =>
    by_cases hm : mark ∈ s.seq l
    · obtain ⟨⟨m', s', S', e, ha, hs, _⟩, _⟩ := h.insertAt hm v
      refine ⟨.elem (some m.fresh), m', s', S', .of_exec fun _ => ?_, ?_, hs⟩
      · simp only [exec, Dllist.insertAfter]
        rw [if_neg (by simp [h.rep.owner l mark (h.memS hm)]), e]; rfl
      · simp only [St.Step]; rw [if_pos hm]; exact ⟨_, rfl, ha⟩
    · refine ⟨.elem none, m, s, S, .of_exec fun _ => ?_, ?_, h⟩
      · simp only [exec, Dllist.insertAfter]
        rw [if_pos (by rw [Ne, h.owner_iff hv.2 hv.1]; exact hm)]; rfl
      · unfold St.Step; dsimp only; rw [if_neg hm]; exact ⟨rfl, rfl⟩
  | remove l e =>
    obtain ⟨m', s', S', e1, ha, hs⟩ := h.lRemove hv.1 hv.2
    exact ⟨_, _, _, _, .of_exec fun _ => by simp only [exec, e1]; rfl, ha, hs⟩
  | moveToFront l e =>
    obtain ⟨m', s', S', e1, ha, hs⟩ := h.moveToFront hv.1 hv.2
    exact ⟨_, _, _, _, .of_exec fun _ => by simp only [exec, e1]; rfl, ha, hs⟩
  | moveToBack l e =>
    obtain ⟨m', s', S', e1, ha, hs⟩ := h.moveToBack hv.1 hv.2
    exact ⟨_, _, _, _, .of_exec fun _ => by simp only [exec, e1]; rfl, ha, hs⟩
  | moveBefore l e mark =>
    obtain ⟨m', s', S', e1, ha, hs⟩ := h.moveBefore hv.1 hv.2.1 hv.2.2
    exact ⟨_, _, _, _, .of_exec fun _ => by simp only [exec, e1]; rfl, ha, hs⟩
  | moveAfter l e mark =>
    obtain ⟨m', s', S', e1, ha, hs⟩ := h.moveAfter hv.1 hv.2.1 hv.2.2
    exact ⟨_, _, _, _, .of_exec fun _ => by simp only [exec, e1]; rfl, ha, hs⟩
  | swap l a b =>
    obtain ⟨m', s', S', e1, ha, hs⟩ := h.swap hv.1 hv.2.1 hv.2.2
    exact ⟨_, _, _, _, .of_exec fun _ => by simp only [exec, e1]; rfl, ha, hs⟩
  | elRemove e =>
    obtain ⟨m', s', S', e1, ha, hs⟩ := h.elRemove hv
    exact ⟨_, _, _, _, .of_exec fun _ => by simp only [exec, e1]; rfl, ha, hs⟩
  | elInsertBefore e v =>
    rcases Classical.em (∃ l, e ∈ s.seq l) with ⟨l, hm⟩ | hn
    · obtain ⟨_, m', s', S', e1, ha, hs⟩ := h.insertAt hm v
      refine ⟨.elem (some m.fresh), m', s', S', .of_exec fun _ => ?_, Or.inl ⟨l, hm, _, rfl, ha⟩, hs⟩
      simp only [exec, Dllist.elInsertBefore, h.rep.owner l e (h.memS hm), e1]; rfl
    · have hn : ∀ l, e ∉ s.seq l := fun l hl => hn ⟨l, hl⟩
      refine ⟨.elem none, m, s, S, .of_exec fun _ => ?_, Or.inr ⟨hn, rfl, rfl⟩, h⟩
      simp only [exec, Dllist.elInsertBefore, h.owner_none hv hn]; rfl
  | elInsertAfter e v =>
    rcases Classical.em (∃ l, e ∈ s.seq l) with ⟨l, hm⟩ | hn
    · obtain ⟨⟨m', s', S', e1, ha, hs, _⟩, _⟩ := h.insertAt hm v
      refine ⟨.elem (some m.fresh), m', s', S', .of_exec fun _ => ?_, Or.inl ⟨l, hm, _, rfl, ha⟩, hs⟩
      simp only [exec, Dllist.elInsertAfter, h.rep.owner l e (h.memS hm), e1]; rfl
    · have hn : ∀ l, e ∉ s.seq l := fun l hl => hn ⟨l, hl⟩
      refine ⟨.elem none, m, s, S, .of_exec fun _ => ?_, Or.inr ⟨hn, rfl, rfl⟩, h⟩
      simp only [exec, Dllist.elInsertAfter, h.owner_none hv hn]; rfl
  | elNext e =>
    obtain ⟨r, e1, ha⟩ := h.elNextStep hv
    exact ⟨r, m, s, S, .of_exec fun _ => by simp only [exec, e1], ha, h⟩
  | elPrev e =>
    obtain ⟨r, e1, ha⟩ := h.elPrevStep hv
    exact ⟨r, m, s, S, .of_exec fun _ => by simp only [exec, e1], ha, h⟩
  | getValue e =>
    refine ⟨.val (s.val e), m, s, S, .of_exec fun _ => ?_, ⟨rfl, rfl⟩, h⟩
    obtain ⟨v, hv'⟩ := Option.ne_none_iff_exists'.1 hv.1
    simp only [exec, h.val e v hv', hv']
  | setValue e v =>
    refine ⟨.unit, _, _, S, .of_exec fun _ => rfl, ⟨rfl, rfl⟩, ?_⟩
    have hne : ∀ n, Spec.set s.val e (some v) n ≠ none ↔ s.val n ≠ none := by
      intro n; simp only [Spec.set]; split
      · next e' => subst e'; simp [hv.1]
      · rfl
    refine ⟨⟨h.rep.zero, h.rep.lnk, h.rep.len, h.rep.nodup, h.rep.owner, h.rep.alloc,
      h.rep.unalloc, ?_, h.rep.listUnalloc⟩, h.seq, h.listAlloc, ?_, ?_, ?_, ?_, h.noList⟩
    · intro n hn
      simp only [upd]; split
      · exact ⟨v, rfl⟩
      · exact h.rep.vals n hn
    · intro n w hn
      simp only [Spec.set] at hn
      simp only [upd]
      split at hn
      · next e' => rw [if_pos e']; exact hn
      · next e' => rw [if_neg e']; exact h.val n w hn
    · intro n hn; exact h.alloc n ((hne n).1 hn)
    · intro l n hn; exact (hne n).2 (h.elems l n hn)
    · intro n l hn ho; exact h.owner n l ((hne n).1 hn) ho
  | len l =>
    refine ⟨_, m, s, S, .of_exec fun _ => rfl, ⟨rfl, ?_⟩, h⟩
    simp only [Dllist.len, h.rep.len, h.seq l hv]
  | front l =>
    obtain ⟨m', e, hs, _⟩ := h.front hv
    exact ⟨_, m', s, S, .of_exec fun _ => by simp only [exec, e], ⟨rfl, resPtr_map _⟩, hs⟩
  | back l =>
    obtain ⟨m', e, hs, _⟩ := h.back hv
    exact ⟨_, m', s, S, .of_exec fun _ => by simp only [exec, e], ⟨rfl, resPtr_map _⟩, hs⟩
  | get l i =>
    obtain ⟨m', e, hs⟩ := h.get hv i
    exact ⟨_, m', s, S, .of_exec fun _ => by simp only [exec, e]; rfl, ⟨rfl, resPtr_map _⟩, hs⟩
  | slice l =>
    obtain ⟨m', e, hs⟩ := h.slice hv
    exact ⟨_, m', s, S, ⟨(s.seq l).length + 1, fun fuel hf => by simp only [exec, e fuel hf]; rfl⟩, ⟨rfl, rfl⟩, hs⟩
  | pushBackList l o =>
    obtain ⟨m', s', S', e1, ha, hs⟩ := h.pushBackList hv.1 hv.2
    exact ⟨_, _, _, _, .of_exec fun _ => by simp only [exec, e1]; rfl, ha, hs⟩
  | pushFrontList l o =>
    obtain ⟨m', s', S', e1, ha, hs⟩ := h.pushFrontList hv.1 hv.2
    exact ⟨_, _, _, _, .of_exec fun _ => by simp only [exec, e1]; rfl, ha, hs⟩
  | pushBackListTo l o mark =>
    obtain ⟨m', s', S', e1, ha, hs⟩ := h.pushBackListTo hv.1 hv.2.1 hv.2.2.1 hv.2.2.2
    exact ⟨_, _, _, _, .of_exec fun _ => by simp only [exec, e1]; rfl, ha, hs⟩
  | pushFrontListTo l o mark =>
    obtain ⟨m', s', S', e1, ha, hs⟩ := h.pushFrontListTo hv.1 hv.2.1 hv.2.2.1 hv.2.2.2
    exact ⟨_, _, _, _, .of_exec fun _ => by simp only [exec, e1]; rfl, ha, hs⟩
  | sort l less =>
    obtain ⟨m', s', S', e1, ha, hs⟩ := Sim.sort less _ h hv (Nat.le_refl _)
    exact ⟨_, _, _, _, ⟨(s.seq l).length + 1, fun fuel hf => by simp only [exec, e1 fuel hf]; rfl⟩, ha, hs⟩

/-- Every run of a safe client is simulated. -/
theorem run_sim {c : Client T} (hc : Safe c) {rs : List (Res T)} (h : MRun c rs m) :
    ∃ s S, SRun c rs s ∧ Sim m s S := by
  induction h with
  | nil => exact ⟨_, _, .nil, Sim.empty⟩
  | snoc hr ho hm ih =>
    obtain ⟨s, S, h1, h2⟩ := ih
    obtain ⟨r', m'', s', S', h3, h4, h5⟩ := sim_step h2 _ (hc _ _ _ h1 ho)
    obtain ⟨rfl, rfl⟩ := h3.det hm
    exact ⟨s', S', .snoc h1 ho h4, h5⟩

/-! ## What a client sees of a list -/

/-- The loop `for e := l.Front(); e != nil; e = e.Next()` collecting elements with their values. -/
def observe (fuel : Nat) (m : Mem T) (l : Nat) : Option (List (Ptr × T)) := do
  let (_, xs, _) ← range (fun m (s : List (Ptr × T)) e => do
    let v ← value m e
    some (m, s ++ [(e, v)], true)) fuel m [] l
  some xs

/-- Forward iteration over `l` yields exactly the elements and values `xs`. -/
def Shows (m : Mem T) (l : Nat) (xs : List (Nat × T)) : Prop :=
  ∃ F, ∀ fuel, F ≤ fuel → observe fuel m l = some (xs.map fun p => (.node p.1, p.2))

theorem Shows.det {l : Nat} {xs ys : List (Nat × T)} (h1 : Shows m l xs) (h2 : Shows m l ys) :
    xs = ys := by
  obtain ⟨F1, h1⟩ := h1
  obtain ⟨F2, h2⟩ := h2
  have a := h1 (max F1 F2) (Nat.le_max_left _ _)
  rw [h2 (max F1 F2) (Nat.le_max_right _ _)] at a
  have : Function.Injective fun p : Nat × T => ((Ptr.node p.1, p.2) : Ptr × T) := by
    rintro ⟨a, b⟩ ⟨c, d⟩ h; simp at h; simp [h]
  exact (List.map_inj_right this).1 (Option.some.inj a).symm

/-- The abstract content of a list. -/
def pairs (s : St T) (xs : List Nat) : List (Nat × T) :=
  xs.filterMap fun n => (s.val n).map fun v => (n, v)

theorem pairs_append (s : St T) (xs ys : List Nat) :
    pairs s (xs ++ ys) = pairs s xs ++ pairs s ys := by simp [pairs]

theorem pairs_fst {xs : List Nat} (h : ∀ n ∈ xs, s.val n ≠ none) :
    (pairs s xs).map (·.1) = xs := by
  induction xs with
  | nil => rfl
  | cons a xs ih =>
    obtain ⟨v, hv⟩ := Option.ne_none_iff_exists'.1 (h a (by simp))
    have := ih fun n hn => h n (by simp [hn])
    simp only [pairs] at this
    simp [pairs, hv, this]

theorem pairs_snd {xs : List Nat} : (pairs s xs).map (·.2) = valsOf s.val xs := by
  induction xs with
  | nil => rfl
  | cons a xs ih =>
    simp only [pairs, valsOf] at ih
    cases hv : s.val a <;> simp [pairs, valsOf, hv, ih]

theorem mem_pairs {xs : List Nat} {n : Nat} {v : T} :
    (n, v) ∈ pairs s xs ↔ n ∈ xs ∧ s.val n = some v := by
  simp only [pairs, List.mem_filterMap, Option.map_eq_some_iff, Prod.mk.injEq]
  constructor
  · rintro ⟨a, h1, w, h2, rfl, rfl⟩; exact ⟨h1, h2⟩
  · rintro ⟨h1, h2⟩; exact ⟨n, h1, v, h2, rfl, rfl⟩

theorem pairs_congr {s s' : St T} {xs : List Nat} (h : ∀ n ∈ xs, s'.val n = s.val n) :
    pairs s' xs = pairs s xs := by
  unfold pairs
  induction xs with
  | nil => rfl
  | cons a l ih => simp only [List.filterMap_cons, h a (by simp), ih fun n hn => h n (by simp [hn])]

theorem Sim.shows (h : Sim m s S) {l : Nat} (hl : s.lists l) : Shows m l (pairs s (s.seq l)) := by
  obtain ⟨m1, e1, h1, _⟩ := h.front hl
  obtain ⟨m', a', hr, hm, ha⟩ := rangeLoop_ind
    (body := fun m (s : List (Ptr × T)) e => do
      let v ← Dllist.value m e
      some (m, s ++ [(e, v)], true))
    (fun done m a => Sim m s S ∧ a = (pairs s done).map fun p => (.node p.1, p.2)) (s.seq l)
    (by
      rintro done e rest m2 a hf ⟨h2, rfl⟩
      obtain ⟨v, hv, hmv⟩ := h2.value (l := l) (n := e) (by rw [hf]; simp)
      refine ⟨m2, _, by simp [Dllist.value, hmv]; rfl, ⟨h2, ?_⟩, h2.elNext hf⟩
      simp [pairs, hv])
    (s.seq l) [] m1 [] rfl ⟨h1, rfl⟩
  refine ⟨(s.seq l).length + 1, fun fuel hf => ?_⟩
  unfold observe Dllist.range
  rw [e1]
  dsimp only
  rw [hr fuel hf, ha]
  rfl

theorem Sim.shows_eq (h : Sim m s S) {l : Nat} (hl : s.lists l) {xs : List (Nat × T)}
    (hx : Shows m l xs) : xs = pairs s (s.seq l) := hx.det (h.shows hl)

/-- Calls other than creating a list keep the set of lists. -/
theorem step_lists {op : Op T} {r : Res T} {s' : St T} (h : s.Step op r s') :
    (op = .new ∨ op = .zero) ∨ (s'.lists = s.lists ∧ ∀ l, r ≠ .list l) := by
  cases op <;> simp only [St.Step, St.Alloc] at h
  case new => exact Or.inl (Or.inl rfl)
  case zero => exact Or.inl (Or.inr rfl)
  case pushFront | pushBack => obtain ⟨n, rfl, _, h1, _⟩ := h; exact Or.inr ⟨h1, by simp⟩
  case insertBefore | insertAfter =>
    split at h
    · obtain ⟨n, rfl, _, h1, _⟩ := h; exact Or.inr ⟨h1, by simp⟩
    · obtain ⟨rfl, rfl⟩ := h; exact Or.inr ⟨rfl, by simp⟩
  case moveToFront | moveToBack | moveBefore | moveAfter | swap =>
    obtain ⟨rfl, h⟩ := h
    split at h <;> (subst h; exact Or.inr ⟨rfl, by simp⟩)
  case elInsertBefore | elInsertAfter =>
    rcases h with ⟨l, _, n, rfl, _, h1, _⟩ | ⟨_, rfl, rfl⟩
    · exact Or.inr ⟨h1, by simp⟩
    · exact Or.inr ⟨rfl, by simp⟩
  case elNext | elPrev =>
    rcases h with ⟨rfl, ⟨_, _, rfl⟩ | ⟨_, rfl⟩⟩ <;> exact Or.inr ⟨rfl, by simp⟩
  case pushBackList | pushFrontList =>
    obtain ⟨rfl, ns, _, h1, _⟩ := h; exact Or.inr ⟨h1, by simp⟩
  case pushBackListTo | pushFrontListTo =>
    obtain ⟨rfl, h⟩ := h
    split at h
    · obtain ⟨ns, _, h1, _⟩ := h; exact Or.inr ⟨h1, by simp⟩
    · subst h; exact Or.inr ⟨rfl, by simp⟩
  case sort =>
    obtain ⟨rfl, h⟩ := h
    split at h
    · subst h; exact Or.inr ⟨rfl, by simp⟩
    · obtain ⟨ns, vs, s1, _, _, ⟨_, h1, _⟩, rfl⟩ := h; exact Or.inr ⟨h1, by simp⟩
  case clear | remove | elRemove | setValue => obtain ⟨rfl, rfl⟩ := h; exact Or.inr ⟨rfl, by simp⟩
  all_goals (obtain ⟨rfl, rfl⟩ := h; exact Or.inr ⟨rfl, by simp⟩)

/-- A list handle returned to the client stays one. -/
theorem srun_lists {c : Client T} {rs : List (Res T)} (h : SRun c rs s) {l : Nat}
    (hl : Res.list l ∈ rs) : s.lists l := by
  induction h with
  | nil => simp at hl
  | @snoc rs s op r s' hr ho hs ih =>
    rcases step_lists hs with h | ⟨h1, h2⟩
    · have : ∃ l0, r = .list l0 ∧ s'.lists = fun x => x = l0 ∨ s.lists x := by
        rcases h with rfl | rfl <;> (obtain ⟨l0, _, rfl, rfl⟩ := hs; exact ⟨l0, rfl, rfl⟩)
      obtain ⟨l0, rfl, e⟩ := this
      rw [e]
      rcases List.mem_append.1 hl with hl | hl
      · exact Or.inr (ih hl)
      · simp at hl; exact Or.inl hl
    · rcases List.mem_append.1 hl with hl | hl
      · rw [h1]; exact ih hl
      · simp at hl; exact (h2 l hl.symm).elim

/-- The list a method is called on. -/
def recvList : Op T → Option Nat
  | .clear l | .pushFront l _ | .pushBack l _ | .insertBefore l _ _ | .insertAfter l _ _
  | .remove l _ | .moveToFront l _ | .moveToBack l _ | .moveBefore l _ _ | .moveAfter l _ _
  | .swap l _ _ | .len l | .front l | .back l | .get l _ | .slice l | .pushBackList l _
  | .pushFrontList l _ | .pushBackListTo l _ _ | .pushFrontListTo l _ _ | .sort l _ => some l
  | _ => none

/-- The element a method of `Element` is called on (or whose value is assigned). -/
def recvElem : Op T → Option Nat
  | .elRemove e | .elInsertBefore e _ | .elInsertAfter e _ | .elNext e | .elPrev e
  | .getValue e | .setValue e _ => some e
  | _ => none

theorem alloc_frame {s s' : St T} {l l' : Nat} {ns vs xs} (hn : ∀ n ∈ s.seq l', s.val n ≠ none)
    (h : s.Alloc ns vs l xs s') (hl : l ≠ l') :
    s'.seq l' = s.seq l' ∧ ∀ n ∈ s.seq l', s'.val n = s.val n :=
  ⟨h.seq_other (Ne.symm hl), fun n h' => h.old (hn n h')⟩

/-- Specification-level frame: a call changes only the list it is called on. -/
theorem step_frame {op : Op T} {r : Res T} {s' : St T} (h : s.Step op r s') {l' : Nat}
    (hl : s.lists l') (hn : ∀ n ∈ s.seq l', s.val n ≠ none)
    (h1 : recvList op ≠ some l') (h2 : ∀ e, recvElem op = some e → e ∉ s.seq l') :
    s'.seq l' = s.seq l' ∧ ∀ n ∈ s.seq l', s'.val n = s.val n := by
  cases op <;> simp only [St.Step] at h <;>
    simp only [recvList, recvElem, ne_eq, Option.some.injEq, reduceCtorEq, not_false_eq_true,
      forall_eq', false_implies, implies_true] at h1 h2
  case new | zero =>
    obtain ⟨l0, h3, rfl, rfl⟩ := h
    have : l' ≠ l0 := by rintro rfl; exact h3 hl
    exact ⟨by simp [Spec.set, this], fun _ _ => rfl⟩
  case pushFront | pushBack => obtain ⟨n, rfl, h⟩ := h; exact alloc_frame hn h h1
  case insertBefore | insertAfter =>
    split at h
    · obtain ⟨n, rfl, h⟩ := h; exact alloc_frame hn h h1
    · obtain ⟨rfl, rfl⟩ := h; exact ⟨rfl, fun _ _ => rfl⟩
  case moveToFront | moveToBack | moveBefore | moveAfter | swap =>
    obtain ⟨rfl, h⟩ := h
    split at h
    · subst h; exact ⟨by simp [Spec.set, Ne.symm h1], fun _ _ => rfl⟩
    · subst h; exact ⟨rfl, fun _ _ => rfl⟩
  case elInsertBefore | elInsertAfter =>
    rcases h with ⟨l, hm, n, rfl, h⟩ | ⟨_, rfl, rfl⟩
    · exact alloc_frame hn h (by rintro rfl; exact h2 hm)
    · exact ⟨rfl, fun _ _ => rfl⟩
  case pushBackList | pushFrontList =>
    obtain ⟨rfl, ns, h⟩ := h; exact alloc_frame hn h h1
  case pushBackListTo | pushFrontListTo =>
    obtain ⟨rfl, h⟩ := h
    split at h
    · obtain ⟨ns, h⟩ := h; exact alloc_frame hn h h1
    · subst h; exact ⟨rfl, fun _ _ => rfl⟩
  case sort =>
    obtain ⟨rfl, h⟩ := h
    split at h
    · subst h; exact ⟨rfl, fun _ _ => rfl⟩
    · obtain ⟨ns, vs, s1, _, _, h, rfl⟩ := h; exact alloc_frame (s' := s1) hn h h1
  case clear | remove =>
    obtain ⟨rfl, rfl⟩ := h
    exact ⟨by simp [Spec.set, Ne.symm h1], fun _ _ => rfl⟩
  case elRemove =>
    obtain ⟨rfl, rfl⟩ := h
    exact ⟨List.erase_of_not_mem h2, fun _ _ => rfl⟩
  case setValue e _ =>
    obtain ⟨rfl, rfl⟩ := h
    refine ⟨rfl, fun n hn => ?_⟩
    have : n ≠ e := fun e' => h2 (e' ▸ hn)
    simp [Spec.set, this]
  all_goals (obtain ⟨rfl, _⟩ := h; exact ⟨rfl, fun _ _ => rfl⟩)

end Verif.Dllist
