import Verif.Dllist.Sim
import Mathlib.Tactic.Tauto
/-!
# Every call of the model is simulated by the sequence specification (all calls but `Sort`)
-/
namespace Verif.Dllist
open Spec (Op Res St Client SRun Safe valsOf insBefore insAfter nextOf prevOf exchange)
variable {T : Type} {m : Mem T} {s : St T} {S : Nat → List Nat}

theorem eq_nil_or_snoc {α : Type} (l : List α) : l = [] ∨ ∃ t a, l = t ++ [a] := by
  rcases List.eq_nil_or_concat l with h | ⟨t, a, h⟩
  · exact Or.inl h
  · exact Or.inr ⟨t, a, by rw [h, List.concat_eq_append]⟩

theorem append_cons_inj {α : Type} {a : α} {xs ys ts us : List α} (h1 : a ∉ xs) (h2 : a ∉ ys)
    (h : xs ++ a :: ts = ys ++ a :: us) : xs = ys := by
  induction xs generalizing ys with
  | nil =>
    cases ys with
    | nil => rfl
    | cons b ys => simp at h h2; exact (h2.1 h.1).elim
  | cons b xs ih =>
    cases ys with
    | nil => simp at h h1; exact (h1.1 h.1.symm).elim
    | cons c ys => simp at h h1 h2; rw [h.1, ih h1.2 h2.2 h.2]

/-! ## List facts about the specification functions -/

theorem insBefore_eq {mark n : Nat} {xs ys : List Nat} (h : mark ∉ xs) :
    insBefore mark n (xs ++ mark :: ys) = xs ++ n :: mark :: ys := by
  induction xs with
  | nil => simp [insBefore]
  | cons a l ih => simp at h; simp [insBefore, Ne.symm h.1, ih h.2]

theorem insAfter_eq {mark : Nat} {ns xs ys : List Nat} (h : mark ∉ xs) :
    insAfter mark ns (xs ++ mark :: ys) = xs ++ mark :: (ns ++ ys) := by
  induction xs with
  | nil => simp [insAfter]
  | cons a l ih => simp at h; simp [insAfter, Ne.symm h.1, ih h.2]

theorem nextOf_eq {e : Nat} {xs ys : List Nat} (h : e ∉ xs) :
    nextOf e (xs ++ e :: ys) = ys.head? := by
  induction xs with
  | nil => simp [nextOf]
  | cons a l ih => simp at h; simp [nextOf, Ne.symm h.1, ih h.2]

theorem prevOf_eq {e : Nat} {xs ys : List Nat} (h : e ∉ ys) :
    prevOf e (xs ++ e :: ys) = xs.getLast? := by
  unfold prevOf
  rw [List.reverse_append, List.reverse_cons, List.append_assoc]
  simp only [List.singleton_append]
  rw [nextOf_eq (by simpa using h)]
  simp

/-- Splitting a duplicate-free list at an element. -/
theorem split_nodup {e : Nat} {L : List Nat} (hn : L.Nodup) (h : e ∈ L) :
    ∃ xs ys, L = xs ++ e :: ys ∧ e ∉ xs ∧ e ∉ ys ∧ L.erase e = xs ++ ys := by
  obtain ⟨xs, ys, rfl⟩ := List.append_of_mem h
  rw [List.nodup_append, List.nodup_cons] at hn
  have h1 : e ∉ xs := fun hc => hn.2.2 e hc e (by simp) rfl
  exact ⟨xs, ys, rfl, h1, hn.2.1.1, by rw [List.erase_append_right _ h1]; simp⟩

theorem exchange_eq (a b : Nat) (xs : List Nat) : exchange a b xs = xs.map (exch a b) := rfl

theorem resPtr_map (o : Option Nat) : resPtr (o.map Ptr.node) = (Res.elem o : Res T) := by
  cases o <;> rfl

theorem Same.refl (m : Mem T) : Same m m := ⟨rfl, rfl, rfl, fun _ h => h⟩

/-! ## Single calls -/

theorem Sim.pushFront (h : Sim m s S) {l : Nat} (hl : s.lists l) (v : T) :
    ∃ m' s' S', pushFront m l v = some (m', m.fresh) ∧
      s.Alloc [m.fresh] [v] l (m.fresh :: s.seq l) s' ∧ Sim m' s' S' := by
  obtain ⟨h1, h2, h3⟩ := h.lazyInit hl
  obtain ⟨m', s', S', e, ha, hs, _⟩ := h1.insertValue hl h2 (xs := []) (ys := s.seq l) rfl v
  rw [h3] at e ha
  exact ⟨m', s', S', e, ha, hs⟩

theorem Sim.pushBack (h : Sim m s S) {l : Nat} (hl : s.lists l) (v : T) :
    ∃ m' s' S', pushBack m l v = some (m', m.fresh) ∧
      s.Alloc [m.fresh] [v] l (s.seq l ++ [m.fresh]) s' ∧ Sim m' s' S' := by
  obtain ⟨h1, h2, h3⟩ := h.lazyInit hl
  obtain ⟨m', s', S', e, ha, hs, _⟩ := h1.insertValue hl h2 (xs := s.seq l) (ys := []) (by simp) v
  rw [h3] at e ha
  obtain ⟨_, h5⟩ := h1.rep.links h2 (xs := s.seq l) (ys := []) (by rw [h.seq l hl]; simp)
  refine ⟨m', s', S', ?_, ha, hs⟩
  simp only [headP_nil] at h5
  simp only [Dllist.pushBack, h5]; exact e

theorem Sim.insertAt (h : Sim m s S) {l mark : Nat} (hm : mark ∈ s.seq l) (v : T) :
    (∃ m' s' S', Dllist.insertValue m l v (some (.node mark)) = some (m', m.fresh) ∧
      s.Alloc [m.fresh] [v] l (insAfter mark [m.fresh] (s.seq l)) s' ∧ Sim m' s' S' ∧
      (∀ l, m.inited l = true → m'.inited l = true)) ∧
    (∃ m' s' S', Dllist.insertValue m l v (m.prev (.node mark)) = some (m', m.fresh) ∧
      s.Alloc [m.fresh] [v] l (insBefore mark m.fresh (s.seq l)) s' ∧ Sim m' s' S') := by
  have hl := h.mem_lists hm
  obtain ⟨xs, ys, e, hx, _, _⟩ := split_nodup (h.nodup l) hm
  have hi := h.rep.init_of_mem (h.memS hm)
  constructor
  · obtain ⟨m', s', S', e', ha, hs, hin⟩ := h.insertValue hl hi (xs := xs ++ [mark]) (ys := ys)
      (by rw [e]; simp) v
    rw [lastP_concat] at e'
    refine ⟨m', s', S', e', ?_, hs, hin⟩
    rw [e, insAfter_eq hx]; simpa using ha
  · obtain ⟨_, h5⟩ := h.rep.links hi (xs := xs) (ys := mark :: ys) (by rw [h.seq l hl, e])
    obtain ⟨m', s', S', e', ha, hs, _⟩ := h.insertValue hl hi (xs := xs) (ys := mark :: ys) e v
    rw [headP_cons] at h5
    refine ⟨m', s', S', by rw [h5]; exact e', ?_, hs⟩
    rw [e, insBefore_eq hx]; exact ha

theorem Sim.moveTo (h : Sim m s S) {l e : Nat} (he : e ∈ s.seq l) {us ws : List Nat}
    (hu : (s.seq l).erase e = us ++ ws) :
    ∃ m' S', move m (.node e) (some (lastP l us)) = some m' ∧
      Sim m' { s with seq := Spec.set s.seq l (us ++ e :: ws) } S' := by
  have hl := h.mem_lists he
  obtain ⟨xs, ys, hx, _, _, h4⟩ := split_nodup (h.nodup l) he
  obtain ⟨m', e', hr, hs, ho⟩ := move_rep h.rep (l := l) (n := e) (xs := xs) (ys := ys)
    (by rw [h.seq l hl, hx]) (us := us) (ws := ws) (by rw [← h4, hu])
  refine ⟨m', _, e', h.rearrange hl hr hs ho ?_⟩
  intro n
  have : n ∈ us ++ e :: ws ↔ n = e ∨ n ∈ us ++ ws := by
    simp only [List.mem_append, List.mem_cons]; tauto
  rw [this, ← hu, h4, hx]
  simp only [List.mem_append, List.mem_cons]; tauto

theorem Sim.moveToFront (h : Sim m s S) {l e : Nat} (hl : s.lists l) (he : s.Usable e) :
    ∃ m' s' S', moveToFront m l e = some m' ∧ s.Step (.moveToFront l e) .unit s' ∧
      Sim m' s' S' := by
  unfold Dllist.moveToFront
  split
  · next hc =>
    rcases hc with hc | hc
    · rw [ne_eq, h.owner_iff he hl] at hc
      exact ⟨m, s, S, rfl, ⟨rfl, by simp [hc]⟩, h⟩
    · by_cases hm : e ∈ s.seq l
      · refine ⟨m, s, S, rfl, ⟨rfl, ?_⟩, h⟩
        rw [if_pos hm]
        have hi := h.rep.init_of_mem (h.memS hm)
        obtain ⟨h3, _⟩ := h.rep.links hi (xs := []) (ys := s.seq l) (by rw [h.seq l hl]; rfl)
        rw [lastP_nil, hc] at h3
        cases hs : s.seq l with
        | nil => rw [hs] at hm; simp at hm
        | cons a t =>
          rw [hs] at h3; simp at h3; subst h3
          have : Spec.set s.seq l (e :: t) = s.seq := by rw [← hs, set_eq_upd, upd_self]
          simp [this]
      · exact ⟨m, s, S, rfl, ⟨rfl, by simp [hm]⟩, h⟩
  · next hc =>
    have hm : e ∈ s.seq l := by
      rw [not_or] at hc
      exact (h.owner_iff he hl).1 (Decidable.not_not.1 hc.1)
    obtain ⟨h1, h2, h3⟩ := h.lazyInit hl
    obtain ⟨m', S', e', hs⟩ := h1.moveTo hm (us := []) (ws := (s.seq l).erase e) rfl
    exact ⟨m', _, S', e', ⟨rfl, by rw [if_pos hm]; rfl⟩, hs⟩

theorem Sim.moveToBack (h : Sim m s S) {l e : Nat} (hl : s.lists l) (he : s.Usable e) :
    ∃ m' s' S', moveToBack m l e = some m' ∧ s.Step (.moveToBack l e) .unit s' ∧
      Sim m' s' S' := by
  unfold Dllist.moveToBack
  split
  · next hc =>
    rcases hc with hc | hc
    · rw [ne_eq, h.owner_iff he hl] at hc
      exact ⟨m, s, S, rfl, ⟨rfl, by simp [hc]⟩, h⟩
    · by_cases hm : e ∈ s.seq l
      · refine ⟨m, s, S, rfl, ⟨rfl, ?_⟩, h⟩
        rw [if_pos hm]
        have hi := h.rep.init_of_mem (h.memS hm)
        obtain ⟨_, h3⟩ := h.rep.links hi (xs := s.seq l) (ys := []) (by rw [h.seq l hl]; simp)
        rw [headP_nil, hc] at h3
        rcases eq_nil_or_snoc (s.seq l) with hs | ⟨t, a, hs⟩
        · rw [hs] at hm; simp at hm
        · rw [hs] at h3; simp at h3; subst h3
          have hnd := h.nodup l
          have : (s.seq l).erase e = t := by
            rw [hs] at hnd ⊢
            rw [List.nodup_append] at hnd
            rw [List.erase_append_right _ (by intro hc; exact hnd.2.2 e hc e (by simp) rfl)]
            simp
          rw [this, ← hs, set_eq_upd, upd_self]
      · exact ⟨m, s, S, rfl, ⟨rfl, by simp [hm]⟩, h⟩
  · next hc =>
    have hm : e ∈ s.seq l := by
      rw [not_or] at hc
      exact (h.owner_iff he hl).1 (Decidable.not_not.1 hc.1)
    rw [not_or] at hc
    have hi := h.rep.init_of_mem (h.memS hm)
    have hlz : Dllist.lazyInit m l = m := by simp [Dllist.lazyInit, hi]
    rw [hlz]
    obtain ⟨_, h3⟩ := h.rep.links hi (xs := s.seq l) (ys := []) (by rw [h.seq l hl]; simp)
    rw [headP_nil] at h3
    obtain ⟨xs, ys, hx, hx1, hx2, h4⟩ := split_nodup (h.nodup l) hm
    -- the last element is not `e`, so it is also the last one after erasing `e`
    have hys : ys ≠ [] := by
      rintro rfl
      rw [hx, lastP_concat] at h3
      exact hc.2 h3
    have hlast : lastP l (s.seq l) = lastP l ((s.seq l).erase e) := by
      rw [h4, hx]
      rcases eq_nil_or_snoc ys with h' | ⟨t, a, rfl⟩
      · exact (hys h').elim
      · have e1 : xs ++ e :: (t ++ [a]) = (xs ++ e :: t) ++ [a] := by simp
        have e2 : xs ++ (t ++ [a]) = (xs ++ t) ++ [a] := by simp
        rw [e1, e2, lastP_concat, lastP_concat]
    obtain ⟨m', S', e', hs⟩ := h.moveTo hm (us := (s.seq l).erase e) (ws := []) (by simp)
    refine ⟨m', _, S', ?_, ⟨rfl, by rw [if_pos hm]⟩, hs⟩
    show Dllist.move m _ (m.prev _) = _
    rw [h3, hlast]; exact e'

theorem Sim.moveAfter (h : Sim m s S) {l e mark : Nat} (hl : s.lists l) (he : s.Usable e)
    (hk : s.Usable mark) :
    ∃ m' s' S', moveAfter m l e mark = some m' ∧ s.Step (.moveAfter l e mark) .unit s' ∧
      Sim m' s' S' := by
  unfold Dllist.moveAfter
  have o1 := h.owner_iff he hl
  have o2 := h.owner_iff hk hl
  by_cases hc : e ∉ s.seq l ∨ e = mark ∨ mark ∉ s.seq l
  · rw [if_pos (by rw [← o1, ← o2] at hc; exact hc)]
    refine ⟨m, s, S, rfl, ⟨rfl, ?_⟩, h⟩
    rw [if_neg (by tauto)]
  · rw [if_neg (by rw [← o1, ← o2] at hc; exact hc)]
    have h1 : e ∈ s.seq l := by tauto
    have h2 : mark ∈ s.seq l := by tauto
    have h3 : e ≠ mark := by tauto
    have h4 : mark ∈ (s.seq l).erase e := (List.mem_erase_of_ne (Ne.symm h3)).2 h2
    obtain ⟨xs, ys, hx, hx1, _, _⟩ := split_nodup ((h.nodup l).erase e) h4
    obtain ⟨m', S', e', hs⟩ := h.moveTo h1 (us := xs ++ [mark]) (ws := ys) (by rw [hx]; simp)
    rw [lastP_concat] at e'
    refine ⟨m', _, S', e', ⟨rfl, ?_⟩, hs⟩
    rw [if_pos ⟨h1, h2, h3⟩, hx, insAfter_eq hx1]
    simp

theorem Sim.moveBefore (h : Sim m s S) {l e mark : Nat} (hl : s.lists l) (he : s.Usable e)
    (hk : s.Usable mark) :
    ∃ m' s' S', moveBefore m l e mark = some m' ∧ s.Step (.moveBefore l e mark) .unit s' ∧
      Sim m' s' S' := by
  unfold Dllist.moveBefore
  have o1 := h.owner_iff he hl
  have o2 := h.owner_iff hk hl
  by_cases hc : e ∉ s.seq l ∨ e = mark ∨ mark ∉ s.seq l
  · rw [if_pos (by rw [← o1, ← o2] at hc; exact hc)]
    refine ⟨m, s, S, rfl, ⟨rfl, ?_⟩, h⟩
    rw [if_neg (by tauto)]
  · rw [if_neg (by rw [← o1, ← o2] at hc; exact hc)]
    have h1 : e ∈ s.seq l := by tauto
    have h2 : mark ∈ s.seq l := by tauto
    have h3 : e ≠ mark := by tauto
    have hi := h.rep.init_of_mem (h.memS h1)
    obtain ⟨us, ws, hu, hu1, hu2, _⟩ := split_nodup (h.nodup l) h2
    obtain ⟨_, h5⟩ := h.rep.links hi (xs := us) (ys := mark :: ws) (by rw [h.seq l hl, hu])
    rw [headP_cons] at h5
    rw [h5]
    have h4 : mark ∈ (s.seq l).erase e := (List.mem_erase_of_ne (Ne.symm h3)).2 h2
    obtain ⟨xs, ys, hx, hx1, _, _⟩ := split_nodup ((h.nodup l).erase e) h4
    have hstep : insBefore mark e ((s.seq l).erase e) = xs ++ e :: mark :: ys := by
      rw [hx, insBefore_eq hx1]
    by_cases hlast : lastP l us = .node e
    · -- `e` is already directly before `mark`
      have : move m (.node e) (some (lastP l us)) = some m := by simp [Dllist.move, hlast]
      refine ⟨m, s, S, this, ⟨rfl, ?_⟩, h⟩
      rw [if_pos ⟨h1, h2, h3⟩]
      have : insBefore mark e ((s.seq l).erase e) = s.seq l := by
        rcases eq_nil_or_snoc us with rfl | ⟨t, a, rfl⟩
        · simp at hlast
        · simp at hlast; subst hlast
          have hnd := h.nodup l
          rw [hu] at hnd ⊢
          have ht : a ∉ t := by
            simp only [List.append_assoc, List.nodup_append] at hnd
            intro hc; exact hnd.2.2 a hc a (by simp) rfl
          have e1 : t ++ [a] ++ mark :: ws = t ++ a :: mark :: ws := by simp
          rw [e1, List.erase_append_right _ ht]
          simp only [List.erase_cons_head]
          rw [insBefore_eq (by intro hc; exact hu1 (by simp [hc]))]
      rw [this, set_eq_upd, upd_self]
    · -- the predecessor of `mark` survives the removal of `e`
      have hus : lastP l us = lastP l xs := by
        by_cases hm : e ∈ us
        · obtain ⟨p, q, rfl, hp, hq, _⟩ := split_nodup
            (by have := h.nodup l; rw [hu, List.nodup_append] at this; exact this.1) hm
          have : (s.seq l).erase e = (p ++ q) ++ mark :: ws := by
            have e1 : p ++ e :: q ++ mark :: ws = p ++ e :: (q ++ mark :: ws) := by simp
            rw [hu, e1, List.erase_append_right _ hp]
            simp
          have hxe : xs = p ++ q := by
            rw [hx] at this
            have hpq : mark ∉ p ++ q := by
              intro hc; refine hu1 ?_; simp at hc ⊢; rcases hc with h | h <;> simp [h]
            exact append_cons_inj hx1 hpq this
          rw [hxe]
          rcases eq_nil_or_snoc q with rfl | ⟨t, a, rfl⟩
          · simp at hlast
          · have e1 : p ++ e :: (t ++ [a]) = (p ++ e :: t) ++ [a] := by simp
            have e2 : p ++ (t ++ [a]) = (p ++ t) ++ [a] := by simp
            rw [e1, e2, lastP_concat, lastP_concat]
        · have : (s.seq l).erase e = us ++ (mark :: ws).erase e := by
            rw [hu, List.erase_append_right _ hm]
          have hne : (mark :: ws).erase e = mark :: ws.erase e := by
            rw [List.erase_cons_tail]; simpa using Ne.symm h3
          rw [hne, hx] at this
          rw [append_cons_inj hx1 hu1 this]
      obtain ⟨m', S', e', hs⟩ := h.moveTo h1 (us := xs) (ws := mark :: ys) hx
      rw [hus]
      refine ⟨m', _, S', e', ⟨rfl, ?_⟩, hs⟩
      rw [if_pos ⟨h1, h2, h3⟩, hstep]

theorem Sim.swap (h : Sim m s S) {l a b : Nat} (hl : s.lists l) (ha : s.Usable a)
    (hb : s.Usable b) :
    ∃ m' s' S', swap m l a b = some m' ∧ s.Step (.swap l a b) .unit s' ∧ Sim m' s' S' := by
  by_cases hc : a ∈ s.seq l ∧ b ∈ s.seq l
  · obtain ⟨m', e, hr, hs, ho⟩ := swap_rep h.rep (h.memS hc.1) (h.memS hc.2)
    rw [h.seq l hl] at hr
    refine ⟨m', _, _, e, ⟨rfl, by rw [if_pos hc]; rfl⟩, h.rearrange hl hr hs ho ?_⟩
    intro n
    constructor
    · exact exch_mem hc.1 hc.2
    · intro hn
      refine List.mem_map.2 ⟨exch a b n, ?_, exch_exch a b n⟩
      unfold exch; repeat' split
      · exact hc.2
      · exact hc.1
      · exact hn
  · refine ⟨m, s, S, ?_, ⟨rfl, by rw [if_neg hc]⟩, h⟩
    unfold Dllist.swap
    have o1 := h.owner_iff ha hl
    have o2 := h.owner_iff hb hl
    exact if_pos (by rw [ne_eq, ne_eq, o1, o2]; tauto)

theorem Sim.lRemove (h : Sim m s S) {l e : Nat} (hl : s.lists l) (he : s.Usable e) :
    ∃ m' s' S', lRemove m l e = some (m', s.val e) ∧ s.Step (.remove l e) (.val (s.val e)) s' ∧
      Sim m' s' S' := by
  unfold Dllist.lRemove
  have hv : m.val e = s.val e := by
    cases hv : s.val e with
    | none => exact (he.1 hv).elim
    | some v => exact h.val e v hv
  by_cases hm : e ∈ s.seq l
  · obtain ⟨m', S', e', hs, hval, _⟩ := h.remove hm
    rw [if_pos ((h.owner_iff he hl).2 hm), e']
    exact ⟨m', _, S', by simp [hval, hv], ⟨rfl, rfl⟩, hs⟩
  · rw [if_neg (by rw [h.owner_iff he hl]; exact hm)]
    refine ⟨m, s, S, by simp [hv], ⟨rfl, ?_⟩, h⟩
    rw [List.erase_of_not_mem hm, set_eq_upd, upd_self]

theorem Sim.elRemove (h : Sim m s S) {e : Nat} (he : s.Usable e) :
    ∃ m' s' S', elRemove m e = some (m', s.val e) ∧ s.Step (.elRemove e) (.val (s.val e)) s' ∧
      Sim m' s' S' := by
  unfold Dllist.elRemove
  have hv : m.val e = s.val e := by
    cases hv : s.val e with
    | none => exact (he.1 hv).elim
    | some v => exact h.val e v hv
  -- setting the links of an element outside all lists changes nothing
  have hclean : ∀ (m : Mem T) (s : St T) S, Sim m s S → m.owner (.node e) = none →
      Sim ((m.setNext (.node e) none).setPrev (.node e) none) s S := by
    intro m s S h ho
    have hf : ∀ l, Ptr.node e ∉ cyc l (S l) := by
      intro l hc
      rcases mem_cyc.1 hc with h' | ⟨n, hn, h'⟩
      · cases h'
      · injection h' with h'; subst h'
        rw [h.rep.owner l _ hn] at ho; cases ho
    refine ⟨⟨h.rep.zero, ?_, h.rep.len, h.rep.nodup, h.rep.owner, h.rep.alloc, h.rep.unalloc,
      h.rep.vals, h.rep.listUnalloc⟩, h.seq, h.listAlloc, h.val, h.alloc, h.elems, h.owner,
      h.noList⟩
    intro l hl
    refine Lnk_congr _ ?_ ?_ (h.rep.lnk l hl)
    · intro x hx
      have : x ≠ .node e := by rintro rfl; exact hf l (List.dropLast_subset _ hx)
      simp [Mem.setNext, Mem.setPrev, upd, this]
    · intro x hx
      have : x ≠ .node e := by rintro rfl; exact hf l (List.mem_of_mem_tail hx)
      simp [Mem.setNext, Mem.setPrev, upd, this]
  by_cases hm : ∃ l, e ∈ s.seq l
  · obtain ⟨l, hm⟩ := hm
    have hl := h.mem_lists hm
    obtain ⟨m', S', e', hs, hval, ho⟩ := h.remove hm
    have ho' := (h.owner_iff he hl).2 hm
    simp only [ho', e', Option.bind_eq_bind, Option.bind_some]
    refine ⟨(m'.setNext (.node e) none).setPrev (.node e) none, _, S', ?_, ⟨rfl, rfl⟩, ?_⟩
    · simp [Mem.setNext, Mem.setPrev, hval, hv]
    · have : (fun l => (s.seq l).erase e) = Spec.set s.seq l ((s.seq l).erase e) := by
        funext l'
        simp only [Spec.set]
        split
        · next e => rw [e]
        · next hne =>
          exact List.erase_of_not_mem fun hc => hne (h.unique hc hm)
      rw [this]
      exact hclean _ _ _ hs ho
  · have hm' : ∀ l, e ∉ s.seq l := fun l hc => hm ⟨l, hc⟩
    have ho := h.owner_none he hm'
    simp only [ho, Option.bind_eq_bind, Option.bind_some]
    refine ⟨(m.setNext (.node e) none).setPrev (.node e) none, _, S, ?_, ⟨rfl, rfl⟩, ?_⟩
    · simp [Mem.setNext, Mem.setPrev, hv]
    · have : (fun l => (s.seq l).erase e) = s.seq := by
        funext l'; exact List.erase_of_not_mem (hm' l')
      rw [this]
      exact hclean _ _ _ h ho

end Verif.Dllist
