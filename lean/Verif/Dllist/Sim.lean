import Verif.Dllist.Ops2
import Verif.Dllist.Spec
/-!
# Simulation between the pointer-level model and the sequence specification
-/
namespace Verif.Dllist
open Spec (Op Res St Client SRun Safe valsOf)
variable {T : Type}

/-- A returned element pointer as a result. -/
def resPtr : Option Ptr → Res T
  | none => .elem none
  | some (.node n) => .elem (some n)
  | some (.root l) => .sentinel l

/-- Run one call of the model. -/
def exec (fuel : Nat) (m : Mem T) : Op T → Option (Mem T × Res T)
  | .new => let (m, l) := new m; some (m, .list l)
  | .zero => let (m, l) := zeroList m; some (m, .list l)
  | .clear l => some (clear m l, .unit)
  | .pushFront l v => do let (m, n) ← pushFront m l v; some (m, .elem (some n))
  | .pushBack l v => do let (m, n) ← pushBack m l v; some (m, .elem (some n))
  | .insertBefore l v mark => do let (m, n) ← insertBefore m l v mark; some (m, .elem n)
  | .insertAfter l v mark => do let (m, n) ← insertAfter m l v mark; some (m, .elem n)
  | .remove l e => do let (m, v) ← lRemove m l e; some (m, .val v)
  | .moveToFront l e => do let m ← moveToFront m l e; some (m, .unit)
  | .moveToBack l e => do let m ← moveToBack m l e; some (m, .unit)
  | .moveBefore l e mark => do let m ← moveBefore m l e mark; some (m, .unit)
  | .moveAfter l e mark => do let m ← moveAfter m l e mark; some (m, .unit)
  | .swap l a b => do let m ← swap m l a b; some (m, .unit)
  | .elRemove e => do let (m, v) ← elRemove m e; some (m, .val v)
  | .elInsertBefore e v => do let (m, n) ← elInsertBefore m e v; some (m, .elem n)
  | .elInsertAfter e v => do let (m, n) ← elInsertAfter m e v; some (m, .elem n)
  | .elNext e => some (m, resPtr (elNext m (.node e)))
  | .elPrev e => some (m, resPtr (elPrev m (.node e)))
  | .getValue e => some (m, .val (m.val e))
  | .setValue e v => some ({ m with val := upd m.val e (some v) }, .unit)
  | .len l => some (m, .int (len m l))
  | .front l => let (m, e) := front m l; some (m, resPtr e)
  | .back l => let (m, e) := back m l; some (m, resPtr e)
  | .get l i => do let (m, e) ← get m l i; some (m, resPtr e)
  | .slice l => do let (m, vs) ← slice fuel m l; some (m, .vals vs)
  | .pushBackList l o => do let m ← pushBackList m l o; some (m, .unit)
  | .pushFrontList l o => do let m ← pushFrontList m l o; some (m, .unit)
  | .pushBackListTo l o mark => do let m ← pushBackListTo m l o mark; some (m, .unit)
  | .pushFrontListTo l o mark => do let m ← pushFrontListTo m l o mark; some (m, .unit)
  | .sort l less => do let m ← sort less fuel m l; some (m, .unit)

/-- The call terminates without panic with result `r` (the fuel of the loops is irrelevant once
large enough). -/
def MStep (m : Mem T) (op : Op T) (r : Res T) (m' : Mem T) : Prop :=
  ∃ F, ∀ fuel, F ≤ fuel → exec fuel m op = some (m', r)

/-- Runs of a client against the model. -/
inductive MRun (c : Client T) : List (Res T) → Mem T → Prop
  | nil : MRun c [] Mem.empty
  | snoc {rs m op r m'} : MRun c rs m → c rs = some op → MStep m op r m' → MRun c (rs ++ [r]) m'

/-- The memory `m` implements the abstract state `s`. -/
structure Sim (m : Mem T) (s : St T) (S : Nat → List Nat) : Prop where
  rep : Rep m S
  seq : ∀ l, s.lists l → S l = s.seq l
  listAlloc : ∀ l, s.lists l → l < m.freshL
  val : ∀ n v, s.val n = some v → m.val n = some v
  alloc : ∀ n, s.val n ≠ none → n < m.fresh
  elems : ∀ l, ∀ n ∈ s.seq l, s.val n ≠ none
  owner : ∀ n l, s.val n ≠ none → m.owner (.node n) = some l →
    (s.lists l ∧ n ∈ s.seq l) ∨ s.stale n
  noList : ∀ l, ¬ s.lists l → s.seq l = []

theorem Sim.empty : Sim (Mem.empty : Mem T) St.empty (fun _ => []) where
  rep := Rep.empty
  seq := fun _ h => h.elim
  listAlloc := fun _ h => h.elim
  val := fun _ _ h => by simp [St.empty] at h
  alloc := fun _ h => by simp [St.empty] at h
  elems := fun _ _ h => by simp [St.empty] at h
  owner := fun _ _ h => by simp [St.empty] at h
  noList := fun _ _ => rfl

theorem set_eq_upd {β : Type} (f : Nat → β) (a : Nat) (b : β) : Spec.set f a b = upd f a b := rfl

section
variable {m : Mem T} {s : St T} {S : Nat → List Nat}

theorem Sim.mem_lists (h : Sim m s S) {l n : Nat} (hn : n ∈ s.seq l) : s.lists l := by
  rcases Classical.em (s.lists l) with h' | h'
  · exact h'
  · rw [h.noList l h'] at hn; simp at hn

theorem Sim.memS (h : Sim m s S) {l n : Nat} (hn : n ∈ s.seq l) : n ∈ S l := by
  rw [h.seq l (h.mem_lists hn)]; exact hn

theorem Sim.owner_iff (h : Sim m s S) {n l : Nat} (hn : s.Usable n) (_ : s.lists l) :
    m.owner (.node n) = some l ↔ n ∈ s.seq l := by
  constructor
  · intro ho
    rcases h.owner n l hn.1 ho with h' | h'
    · exact h'.2
    · exact (hn.2 h').elim
  · intro hm; exact h.rep.owner l n (h.memS hm)

theorem Sim.owner_none (h : Sim m s S) {n : Nat} (hn : s.Usable n) (hm : ∀ l, n ∉ s.seq l) :
    m.owner (.node n) = none := by
  cases ho : m.owner (.node n) with
  | none => rfl
  | some l =>
    rcases h.owner n l hn.1 ho with h' | h'
    · exact (hm l h'.2).elim
    · exact (hn.2 h').elim

theorem Sim.nodup (h : Sim m s S) (l : Nat) : (s.seq l).Nodup := by
  rcases Classical.em (s.lists l) with h' | h'
  · rw [← h.seq l h']; exact h.rep.nodup l
  · rw [h.noList l h']; exact List.nodup_nil

/-- An element is in at most one list. -/
theorem Sim.unique (h : Sim m s S) {l l' n : Nat} (h1 : n ∈ s.seq l) (h2 : n ∈ s.seq l') :
    l = l' := by
  have e1 := h.rep.owner l n (h.memS h1)
  rw [h.rep.owner l' n (h.memS h2)] at e1
  injection e1 with e1; exact e1.symm

theorem Sim.value (h : Sim m s S) {l n : Nat} (hn : n ∈ s.seq l) :
    ∃ v, s.val n = some v ∧ m.val n = some v := by
  cases e : s.val n with
  | none => exact (h.elems l n hn e).elim
  | some v => exact ⟨v, rfl, h.val n v e⟩

/-- Initialising a list on first use. -/
theorem Sim.lazyInit (h : Sim m s S) {l : Nat} (hl : s.lists l) :
    Sim (lazyInit m l) s S ∧ (Dllist.lazyInit m l).inited l = true ∧
      (Dllist.lazyInit m l).fresh = m.fresh := by
  obtain ⟨h1, h2, h3, h4, h5, h6, h7⟩ := lazyInit_rep h.rep l (h.listAlloc l hl)
  exact ⟨⟨h1, h.seq, by rw [h4]; exact h.listAlloc, by rw [h5]; exact h.val,
    by rw [h3]; exact h.alloc, h.elems, by rw [h6]; exact h.owner, h.noList⟩, h2, h3⟩

/-- Inserting a newly allocated element. -/
theorem Sim.insertValue (h : Sim m s S) {l : Nat} (hl : s.lists l)
    (hi : m.inited l = true) {xs ys : List Nat} (hS : s.seq l = xs ++ ys) (v : T) :
    ∃ m' s' S', insertValue m l v (some (lastP l xs)) = some (m', m.fresh) ∧
      s.Alloc [m.fresh] [v] l (xs ++ m.fresh :: ys) s' ∧ Sim m' s' S' ∧
      (∀ l, m.inited l = true → m'.inited l = true) := by
  obtain ⟨m', e, hr, hv, hf, hfl, ho, hin⟩ := insertValue_rep h.rep hi
    (by rw [h.seq l hl]; exact hS) v
  have hnew : s.val m.fresh = none := by
    cases e : s.val m.fresh with
    | none => rfl
    | some v => have := h.alloc m.fresh (by rw [e]; simp); omega
  refine ⟨m', { s with seq := Spec.set s.seq l (xs ++ m.fresh :: ys),
                       val := Spec.set s.val m.fresh (some v) }, upd S l (xs ++ m.fresh :: ys), e, ?_, ?_, hin⟩
  · refine ⟨⟨by simp, by simp [hnew]⟩, rfl, rfl, rfl, ?_, ?_, ?_⟩
    · simp [valsOf, Spec.set]
    · simp [Spec.set]
    · intro n hn; simp at hn; simp [Spec.set, hn]
  · refine ⟨hr, ?_, ?_, ?_, ?_, ?_, ?_, ?_⟩
    · intro l' hl'
      simp only [set_eq_upd, upd]
      split
      · rfl
      · exact h.seq l' hl'
    · rw [hfl]; exact h.listAlloc
    · intro n w hw
      rw [hv]
      simp only [set_eq_upd, upd] at hw ⊢
      split at hw <;> simp_all
      exact h.val n w hw
    · intro n hn
      rw [hf]
      simp only [set_eq_upd, upd] at hn
      split at hn
      · omega
      · have := h.alloc n hn; omega
    · intro l' n hn
      simp only [set_eq_upd, upd] at hn ⊢
      split
      · simp
      · next hne =>
        split at hn
        · simp [hne] at hn
          refine h.elems l n ?_
          rw [hS]; simpa using hn
        · exact h.elems l' n hn
    · intro n l' hn ho'
      rw [ho] at ho'
      simp only [set_eq_upd, upd] at hn ho' ⊢
      simp at ho'
      split at ho'
      · next e => simp at ho'; subst ho'; subst e; exact Or.inl ⟨hl, by simp⟩
      · next hne =>
        simp [hne] at hn
        rcases h.owner n l' hn ho' with ⟨h1, h2⟩ | h1
        · refine Or.inl ⟨h1, ?_⟩
          split
          · next e => subst e; rw [hS] at h2; simp at h2 ⊢; rcases h2 with h | h <;> simp [h]
          · exact h2
        · exact Or.inr h1
    · intro l' hl'
      simp only [set_eq_upd, upd]
      split
      · next e => subst e; exact (hl' hl).elim
      · exact h.noList l' hl'

/-- Rearranging the elements of a list. -/
theorem Sim.rearrange (h : Sim m s S) {l : Nat} (hl : s.lists l) {m' : Mem T} {xs : List Nat}
    (hr : Rep m' (upd S l xs)) (hs : Same m m') (ho : m'.owner = m.owner)
    (hx : ∀ n, n ∈ xs ↔ n ∈ s.seq l) :
    Sim m' { s with seq := Spec.set s.seq l xs } (upd S l xs) := by
  refine ⟨hr, ?_, ?_, ?_, ?_, ?_, ?_, ?_⟩
  · intro l' hl'
    simp only [set_eq_upd, upd]
    split
    · rfl
    · exact h.seq l' hl'
  · rw [hs.freshL]; exact h.listAlloc
  · rw [hs.val]; exact h.val
  · rw [hs.fresh]; exact h.alloc
  · intro l' n hn
    simp only [set_eq_upd, upd] at hn
    split at hn
    · exact h.elems l n ((hx n).1 hn)
    · exact h.elems l' n hn
  · intro n l' hn ho'
    rw [ho] at ho'
    simp only [set_eq_upd, upd]
    rcases h.owner n l' hn ho' with ⟨h1, h2⟩ | h1
    · refine Or.inl ⟨h1, ?_⟩
      split
      · next e => subst e; exact (hx n).2 h2
      · exact h2
    · exact Or.inr h1
  · intro l' hl'
    simp only [set_eq_upd, upd]
    split
    · next e => subst e; exact (hl' hl).elim
    · exact h.noList l' hl'

/-- Unlinking an element. -/
theorem Sim.remove (h : Sim m s S) {l e : Nat} (he : e ∈ s.seq l) :
    ∃ m' S', remove m l (.node e) = some m' ∧
      Sim m' { s with seq := Spec.set s.seq l ((s.seq l).erase e) } S' ∧ m'.val = m.val ∧
      m'.owner (.node e) = none := by
  have hl := h.mem_lists he
  obtain ⟨xs, ys, hx⟩ := List.append_of_mem he
  obtain ⟨m', hm, hr, hs, ho⟩ := remove_rep h.rep (l := l) (n := e) (xs := xs) (ys := ys)
    (by rw [h.seq l hl]; exact hx)
  have hnd := h.nodup l
  have herase : (s.seq l).erase e = xs ++ ys := by
    rw [hx] at hnd ⊢
    rw [List.nodup_append] at hnd
    rw [List.erase_append_right _ (by intro hc; exact hnd.2.2 e hc e (by simp) rfl)]
    simp
  have hmem : ∀ n, n ∈ xs ++ ys ↔ n ∈ s.seq l ∧ n ≠ e := by
    intro n; rw [← herase, hnd.mem_erase_iff]; exact And.comm
  rw [herase]
  refine ⟨m', upd S l (xs ++ ys), hm, ⟨hr, ?_, ?_, ?_, ?_, ?_, ?_, ?_⟩, hs.val, by rw [ho]; simp [upd]⟩
  · intro l' hl'
    simp only [set_eq_upd, upd]
    split
    · rfl
    · exact h.seq l' hl'
  · rw [hs.freshL]; exact h.listAlloc
  · rw [hs.val]; exact h.val
  · rw [hs.fresh]; exact h.alloc
  · intro l' n hn
    simp only [set_eq_upd, upd] at hn
    split at hn
    · exact h.elems l n ((hmem n).1 hn).1
    · exact h.elems l' n hn
  · intro n l' hn ho'
    rw [ho] at ho'
    simp only [set_eq_upd, upd] at ho' ⊢
    split at ho'
    · cases ho'
    · next hne =>
      rcases h.owner n l' hn ho' with ⟨h1, h2⟩ | h1
      · refine Or.inl ⟨h1, ?_⟩
        split
        · next e' => subst e'; exact (hmem n).2 ⟨h2, by simpa using hne⟩
        · exact h2
      · exact Or.inr h1
  · intro l' hl'
    simp only [set_eq_upd, upd]
    split
    · next e' => subst e'; exact (hl' hl).elim
    · exact h.noList l' hl'

/-- `Clear`. -/
theorem Sim.clear (h : Sim m s S) {l : Nat} (hl : s.lists l) :
    Sim (clear m l) { s with seq := Spec.set s.seq l [],
                             stale := fun n => n ∈ s.seq l ∨ s.stale n } (upd S l []) := by
  refine ⟨clear_rep h.rep l (h.listAlloc l hl), ?_, h.listAlloc, h.val, h.alloc, ?_, ?_, ?_⟩
  · intro l' hl'
    simp only [set_eq_upd, upd]
    split
    · rfl
    · exact h.seq l' hl'
  · intro l' n hn
    simp only [set_eq_upd, upd] at hn
    split at hn
    · simp at hn
    · exact h.elems l' n hn
  · intro n l' hn ho'
    simp only [set_eq_upd, upd]
    rcases h.owner n l' hn ho' with ⟨h1, h2⟩ | h1
    · split
      · next e => subst e; exact Or.inr (Or.inl h2)
      · exact Or.inl ⟨h1, h2⟩
    · exact Or.inr (Or.inr h1)
  · intro l' hl'
    simp only [set_eq_upd, upd]
    split
    · rfl
    · exact h.noList l' hl'

/-- `Front`. -/
theorem Sim.front (h : Sim m s S) {l : Nat} (hl : s.lists l) :
    ∃ m', front m l = (m', (s.seq l).head?.map .node) ∧ Sim m' s S ∧
      (∀ l, m.inited l = true → m'.inited l = true) := by
  unfold Dllist.front
  rw [h.rep.len, h.seq l hl]
  split
  · next e =>
    have : s.seq l = [] := by simpa using e
    exact ⟨m, by simp [this], h, fun _ h => h⟩
  · next e =>
    obtain ⟨h1, h2, _⟩ := h.lazyInit hl
    obtain ⟨h3, _⟩ := h1.rep.links h2 (xs := []) (ys := s.seq l) (by rw [h.seq l hl]; rfl)
    refine ⟨_, ?_, h1, ?_⟩
    · have hne : s.seq l ≠ [] := by simpa using e
      obtain ⟨a, t, ht⟩ := List.exists_cons_of_ne_nil hne
      rw [ht] at h3 ⊢
      simp at h3; simp [h3]
    · intro l' hi; unfold Dllist.lazyInit; split
      · exact hi
      · simp [Dllist.clear, Mem.setInited, upd]
        exact Or.inr hi

/-- `Back`. -/
theorem Sim.back (h : Sim m s S) {l : Nat} (hl : s.lists l) :
    ∃ m', back m l = (m', (s.seq l).getLast?.map .node) ∧ Sim m' s S ∧
      (∀ l, m.inited l = true → m'.inited l = true) := by
  unfold Dllist.back
  rw [h.rep.len, h.seq l hl]
  split
  · next e =>
    have : s.seq l = [] := by simpa using e
    exact ⟨m, by simp [this], h, fun _ h => h⟩
  · next e =>
    obtain ⟨h1, h2, _⟩ := h.lazyInit hl
    obtain ⟨_, h3⟩ := h1.rep.links h2 (xs := s.seq l) (ys := []) (by rw [h.seq l hl]; simp)
    refine ⟨_, ?_, h1, ?_⟩
    · have hne : s.seq l ≠ [] := by simpa using e
      rcases List.eq_nil_or_concat (s.seq l) with h' | ⟨t, a, ht⟩
      · exact (hne h').elim
      · rw [ht] at h3 ⊢
        simp at h3; simp [h3]
    · intro l' hi; unfold Dllist.lazyInit; split
      · exact hi
      · simp [Dllist.clear, Mem.setInited, upd]
        exact Or.inr hi

/-- `Next` of an element in the middle. -/
theorem Sim.elNext (h : Sim m s S) {l e : Nat} {xs ys : List Nat} (hs : s.seq l = xs ++ e :: ys) :
    elNext m (.node e) = ys.head?.map .node := by
  have he : e ∈ s.seq l := by rw [hs]; simp
  have hl := h.mem_lists he
  obtain ⟨h3, _⟩ := h.rep.links (h.rep.init_of_mem (h.memS he)) (xs := xs ++ [e]) (ys := ys)
    (by rw [h.seq l hl, hs]; simp)
  rw [lastP_concat] at h3
  simp only [Dllist.elNext, h.rep.owner l e (h.memS he), h3]
  cases ys <;> simp

/-- `Prev` of an element in the middle. -/
theorem Sim.elPrev (h : Sim m s S) {l e : Nat} {xs ys : List Nat} (hs : s.seq l = xs ++ e :: ys) :
    elPrev m (.node e) = xs.getLast?.map .node := by
  have he : e ∈ s.seq l := by rw [hs]; simp
  have hl := h.mem_lists he
  obtain ⟨_, h3⟩ := h.rep.links (h.rep.init_of_mem (h.memS he)) (xs := xs) (ys := e :: ys)
    (by rw [h.seq l hl, hs])
  rw [headP_cons] at h3
  simp only [Dllist.elPrev, h.rep.owner l e (h.memS he), h3]
  rcases List.eq_nil_or_concat xs with rfl | ⟨t, a, rfl⟩ <;> simp

end
end Verif.Dllist
