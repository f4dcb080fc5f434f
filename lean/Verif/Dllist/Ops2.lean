import Verif.Dllist.Ops
namespace Verif.Dllist
variable {T : Type}

theorem move_rep {m : Mem T} {S : Nat → List Nat} (h : Rep m S) {l : Nat}
    {xs ys : List Nat} {n : Nat} (hS : S l = xs ++ n :: ys) {us ws : List Nat}
    (hu : xs ++ ys = us ++ ws) :
    ∃ m', move m (.node n) (some (lastP l us)) = some m' ∧ Rep m' (upd S l (us ++ n :: ws)) ∧
      Same m m' ∧ m'.owner = m.owner := by
  have hi : m.inited l = true := h.init_of_mem (n := n) (by rw [hS]; simp)
  obtain ⟨h1, h2⟩ := h.links hi hS
  obtain ⟨h3, h4⟩ := h.links hi (xs := xs ++ [n]) (ys := ys) (by rw [hS]; simp)
  simp only [headP_cons, lastP_concat] at h1 h2 h3 h4
  have hnd := h.nodup l
  rw [hS, List.nodup_append, List.nodup_cons] at hnd
  have hnn : n ∉ xs ++ ys := by
    intro hk; simp at hk; rcases hk with hk | hk
    · exact hnd.2.2 _ hk _ (by simp) rfl
    · exact hnd.2.1.1 hk
  have hdn : ∀ p, dom l (xs ++ ys) p → p ≠ .node n := by
    rintro p (h' | ⟨k, hk, h'⟩) rfl
    · cases h'
    · injection h' with h'; subst h'; exact hnn hk
  have hp : lastP l xs ≠ .node n := hdn _ (lastP_dom l xs ys)
  have hq : headP l ys ≠ .node n := hdn _ (headP_dom l xs ys)
  have ha : lastP l us ≠ .node n := hdn _ (hu ▸ lastP_dom l us ws)
  have hb : headP l ws ≠ .node n := hdn _ (hu ▸ headP_dom l us ws)
  obtain ⟨A, B, e1, e2⟩ := cyc_split l xs ys
  obtain ⟨C, D, f1, f2⟩ := cyc_split l us ws
  have hl := h.lnk l hi
  have hlp := cyc_loop l (h.nodup l)
  rw [hS, e2] at hl hlp
  -- the chain after unlinking
  have hl1 : Lnk (upd m.next (lastP l xs) (some (headP l ys)))
      (upd m.prev (headP l ys) (some (lastP l xs))) (cyc l (xs ++ ys)) := by
    rw [e1]
    refine Lnk_remove A _ _ _ B hlp hl ?_ ?_ ?_ ?_
    · intro x h1 h2; simp [upd, h1]
    · simp [upd]
    · intro x h1 h2; simp [upd, h1]
    · simp [upd]
  have hlp1 := Loop_remove hlp
  rw [← e1, hu, f1] at hlp1
  rw [hu, f1] at hl1
  have hna := ((Lnk_split _ _ _ _ _ _).1 hl1).2.1
  have hdom : ∀ p, dom l (xs ++ ys) p → dom l (S l) p := by
    rintro p (h' | ⟨k, hk, h'⟩)
    · exact Or.inl h'
    · refine Or.inr ⟨k, ?_, h'⟩
      rw [hS]; simp at hk ⊢; rcases hk with hk | hk <;> simp [hk]
  refine ⟨?w, ?eq, ?_, ?_, ?_⟩
  case eq =>
    simp only [move, Option.bind_eq_bind, Option.bind_some, Mem.setPrev, Mem.setNext,
      h2, h3, upd, hp.symm, if_false, if_true, Option.some.injEq, ha.symm]
    have : (if lastP l us = lastP l xs then some (headP l ys) else m.next (lastP l us)) =
      some (headP l ws) := hna
    simp only [this, Option.bind_some]
    rfl
  rotate_left
  · exact ⟨rfl, rfl, rfl, fun _ h => h⟩
  · rfl
  have hmem : ∀ k, k ∈ us ++ n :: ws → k ∈ S l := by
    intro k hk
    by_cases e : k = n
    · subst e; rw [hS]; simp
    · have : k ∈ us ++ ws := by simp [e] at hk ⊢; exact hk
      rw [← hu] at this
      rw [hS]; simp at this ⊢; rcases this with h | h <;> simp [h]
  refine h.change l _ ?_ (fun _ _ => rfl) ?_ ?_ ?_ ?_ ?_ ?_ (Nat.le_refl _) h.unalloc h.vals rfl
    (h.lt_freshL hi)
  · intro l'; dsimp only; split
    · next e => rw [e]; exact hi
    · rfl
  · intro l' hne p hp'
    have key : ∀ q, dom l (S l) q → p ≠ q := by
      rintro q hq rfl; exact h.dom_disj (Ne.symm hne) hq hp'
    have n1 : p ≠ .node n := key _ (Or.inr ⟨n, by rw [hS]; simp, rfl⟩)
    have n2 := key _ (hdom _ (lastP_dom l xs ys))
    have n3 := key _ (hdom _ (headP_dom l xs ys))
    have n4 := key _ (hdom _ (hu ▸ lastP_dom l us ws))
    have n5 := key _ (hdom _ (hu ▸ headP_dom l us ws))
    simp [upd, n1, n2, n3, n4, n5]
  · rw [f2 n]
    refine Lnk_insert C _ _ D _ hlp1 ?_ hl1 ?_ ?_ ?_ ?_ ?_ ?_
    · rw [← f1, mem_cyc, ← hu]; intro hd; exact hdn _ hd rfl
    · intro x h1 h2; simp only [upd, h1, h2, if_false]
    · simp only [upd, if_true]
    · simp [upd, ha.symm]
    · intro x h1 h2; simp only [upd, h1, h2, if_false]
    · simp only [upd, if_true]
    · simp [upd, hb.symm]
  · have h5 := h.len l
    have h6 := congrArg List.length hu
    rw [hS] at h5
    simp at h5 h6 ⊢
    omega
  · have : (xs ++ ys).Nodup := by
      rw [List.nodup_append]
      exact ⟨hnd.1, hnd.2.1.2, fun a ha b hb => hnd.2.2 a ha b (by simp [hb])⟩
    rw [hu] at this hnn
    rw [List.nodup_append] at *
    simp at hnn ⊢
    refine ⟨this.1, ⟨hnn.2, this.2.1⟩, fun c hc => ⟨?_, fun b hb => this.2.2 c hc b hb⟩⟩
    rintro rfl; exact hnn.1 hc
  · intro k hk; exact h.owner l k (hmem k hk)
  · intro k hk; exact h.alloc l k (hmem k hk)

/-- Exchange of two handles. -/
def exch (a b x : Nat) : Nat := if x = a then b else if x = b then a else x

def exchP (a b : Nat) : Ptr → Ptr
  | .root l => .root l
  | .node n => .node (exch a b n)

theorem exch_exch (a b x : Nat) : exch a b (exch a b x) = x := by
  unfold exch; repeat' split
  all_goals simp_all

theorem cyc_exch (l a b : Nat) (xs : List Nat) :
    cyc l (xs.map (exch a b)) = (cyc l xs).map (exchP a b) := by
  simp [cyc, exchP]

theorem exch_mem {a b : Nat} {xs : List Nat} (ha : a ∈ xs) (hb : b ∈ xs) {k : Nat}
    (hk : k ∈ xs.map (exch a b)) : k ∈ xs := by
  obtain ⟨j, hj, rfl⟩ := List.mem_map.1 hk
  unfold exch; repeat' split
  all_goals assumption

theorem exch_nodup {a b : Nat} {xs : List Nat} (h : xs.Nodup) : (xs.map (exch a b)).Nodup := by
  induction xs with
  | nil => exact List.nodup_nil
  | cons c l ih =>
    rw [List.nodup_cons] at h
    simp only [List.map_cons, List.nodup_cons]
    refine ⟨?_, ih h.2⟩
    intro hm; obtain ⟨d, hd, e⟩ := List.mem_map.1 hm
    have := congrArg (exch a b) e
    rw [exch_exch, exch_exch] at this
    subst this; exact h.1 hd

theorem Rep.nexts {m : Mem T} {S : Nat → List Nat} (h : Rep m S) {l : Nat}
    (hi : m.inited l = true) {p : Ptr} (hp : dom l (S l) p) :
    ∃ q, dom l (S l) q ∧ m.next p = some q ∧ m.prev q = some p := by
  have : p ∈ (cyc l (S l)).dropLast := by
    rw [cyc_dropLast]; rcases hp with rfl | ⟨n, hn, rfl⟩ <;> simp_all
  obtain ⟨q, hq, h'⟩ := Lnk_succ (h.lnk l hi) this
  exact ⟨q, mem_cyc.1 (List.mem_of_mem_tail hq), h'⟩

theorem Rep.prevs {m : Mem T} {S : Nat → List Nat} (h : Rep m S) {l : Nat}
    (hi : m.inited l = true) {p : Ptr} (hp : dom l (S l) p) :
    ∃ q, dom l (S l) q ∧ m.prev p = some q ∧ m.next q = some p := by
  have : p ∈ (cyc l (S l)).tail := by
    simp only [cyc, List.tail_cons]; rcases hp with rfl | ⟨n, hn, rfl⟩ <;> simp_all
  obtain ⟨q, hq, h'⟩ := Lnk_pred (h.lnk l hi) this
  exact ⟨q, mem_cyc.1 (List.dropLast_subset _ hq), h'⟩

/-- Rewiring rule for `Swap`: new links are the conjugated old ones. -/
theorem swap_change {m m' : Mem T} {S : Nat → List Nat} (h : Rep m S) {l a b : Nat}
    (ha : a ∈ S l) (hb : b ∈ S l)
    (hr : m'.owner = m.owner ∧ m'.val = m.val ∧ m'.len = m.len ∧ m'.inited = m.inited ∧
      m'.fresh = m.fresh ∧ m'.freshL = m.freshL)
    (hn : ∀ p, dom l (S l) p → m'.next (exchP a b p) = (m.next p).map (exchP a b))
    (hv : ∀ p, dom l (S l) p → m'.prev (exchP a b p) = (m.prev p).map (exchP a b))
    (hf : ∀ p, ¬ dom l (S l) p → m'.next p = m.next p ∧ m'.prev p = m.prev p) :
    Rep m' (upd S l ((S l).map (exch a b))) := by
  have hi : m.inited l = true := h.init_of_mem ha
  obtain ⟨r1, r2, r3, r4, r5, r6⟩ := hr
  refine h.change l _ ?_ (fun _ _ => by rw [r3]) ?_ ?_ ?_ (exch_nodup (h.nodup l)) ?_ ?_
    (Nat.le_of_eq r5.symm) ?_ ?_ r6 (h.lt_freshL hi)
  · intro l'; rw [r4]; split
    · next e => rw [e]; exact hi
    · rfl
  · intro l' hne p hp
    have := hf p (fun hd => h.dom_disj (Ne.symm hne) hd hp)
    exact ⟨this.1, this.2, by rw [r1]⟩
  · rw [cyc_exch]
    refine Lnk_map _ _ (h.lnk l hi) (fun x hx => hn x ?_) (fun x hx => hv x ?_)
    · exact mem_cyc.1 (List.dropLast_subset _ hx)
    · exact mem_cyc.1 (List.mem_of_mem_tail hx)
  · rw [r3, h.len]; simp
  · intro k hk; rw [r1]; exact h.owner l k (exch_mem ha hb hk)
  · intro k hk; rw [r5]; exact h.alloc l k (exch_mem ha hb hk)
  · rw [r1, r5]; exact h.unalloc
  · rw [r2, r5]; exact h.vals

theorem Rep.next_eq {m : Mem T} {S : Nat → List Nat} (h : Rep m S) {l a : Nat}
    (ha : a ∈ S l) {q : Ptr} (hq : m.next (.node a) = some q) :
    ∃ xs ys, S l = xs ++ a :: ys ∧ q = headP l ys := by
  obtain ⟨xs, ys, e⟩ := List.append_of_mem ha
  obtain ⟨h3, h4⟩ := h.links (h.init_of_mem ha) (xs := xs ++ [a]) (ys := ys) (by rw [e]; simp)
  rw [lastP_concat, hq] at h3
  exact ⟨xs, ys, e, Option.some.inj h3⟩

/-- Elements never form a cycle of length 1 or 2 that misses the sentinel. -/
theorem Rep.no_cycle {m : Mem T} {S : Nat → List Nat} (h : Rep m S) {l a b : Nat}
    (ha : a ∈ S l) (h1 : m.next (.node a) = some (.node b)) (h2 : m.next (.node b) = some (.node a)) :
    False := by
  obtain ⟨xs, ys, e, hq⟩ := h.next_eq ha h1
  cases ys with
  | nil => simp at hq
  | cons c ys =>
    simp at hq; subst hq
    have hnd := h.nodup l
    obtain ⟨h3, h4⟩ := h.links (h.init_of_mem ha) (xs := xs ++ [a, b]) (ys := ys) (by rw [e]; simp)
    have : lastP l (xs ++ [a, b]) = .node b := by
      have := lastP_concat l (xs ++ [a]) b; simpa using this
    rw [this, h2] at h3
    cases ys with
    | nil => simp at h3
    | cons d ys =>
      simp at h3; subst h3
      rw [e, List.nodup_append] at hnd
      simp at hnd

theorem swap_rep {m : Mem T} {S : Nat → List Nat} (h : Rep m S) {l a b : Nat}
    (ha : a ∈ S l) (hb : b ∈ S l) :
    ∃ m', swap m l a b = some m' ∧ Rep m' (upd S l ((S l).map (exch a b))) ∧
      Same m m' ∧ m'.owner = m.owner := by
  have hi : m.inited l = true := h.init_of_mem ha
  have oa := h.owner l a ha
  have ob := h.owner l b hb
  by_cases hab : a = b
  · subst hab
    refine ⟨m, by simp [swap], ?_, ⟨rfl, rfl, rfl, fun _ h => h⟩, rfl⟩
    have : (S l).map (exch a a) = S l := by
      conv => rhs; rw [← List.map_id (S l)]
      refine List.map_congr_left fun x _ => ?_
      unfold exch; split
      · next e => rw [e]; rfl
      · rfl
    rw [this, upd_self]; exact h
  have da : dom l (S l) (.node a) := Or.inr ⟨a, ha, rfl⟩
  have db : dom l (S l) (.node b) := Or.inr ⟨b, hb, rfl⟩
  obtain ⟨an, dan, na, pan⟩ := h.nexts hi da
  obtain ⟨ap, dap, pa, nap⟩ := h.prevs hi da
  obtain ⟨bn, dbn, nb, pbn⟩ := h.nexts hi db
  obtain ⟨bp, dbp, pb, nbp⟩ := h.prevs hi db
  have hN : ∀ p, dom l (S l) p → ∃ q, m.next p = some q ∧ m.prev q = some p := fun p hp => by
    obtain ⟨q, _, h'⟩ := h.nexts hi hp; exact ⟨q, h'⟩
  have hP : ∀ p, dom l (S l) p → ∃ q, m.prev p = some q ∧ m.next q = some p := fun p hp => by
    obtain ⟨q, _, h'⟩ := h.prevs hi hp; exact ⟨q, h'⟩
  have hab' : Ptr.node a ≠ Ptr.node b := by simpa using hab
  have ea : exchP a b (.node a) = .node b := by simp [exchP, exch]
  have eb : exchP a b (.node b) = .node a := by simp [exchP, exch, Ne.symm hab]
  have eo : ∀ p, p ≠ .node a → p ≠ .node b → exchP a b p = p := by
    intro p h1 h2; cases p with
    | root => rfl
    | node n => simp at h1 h2; simp [exchP, exch, h1, h2]
  simp only [swap, oa, ob, hab, ne_eq, not_true_eq_false, false_or, if_false, Mem.setNext,
    Mem.setPrev]
  have sp : ∀ p, (p = .node a ∧ exchP a b p = .node b) ∨ (p = .node b ∧ exchP a b p = .node a) ∨
      (p ≠ .node a ∧ p ≠ .node b ∧ exchP a b p = p) := by
    intro p
    by_cases h1 : p = .node a
    · exact Or.inl ⟨h1, h1 ▸ ea⟩
    by_cases h2 : p = .node b
    · exact Or.inr (Or.inl ⟨h2, h2 ▸ eb⟩)
    exact Or.inr (Or.inr ⟨h1, h2, eo p h1 h2⟩)
  have nc1 := fun h1 h2 => h.no_cycle ha (b := b) h1 h2
  have nc2 := fun h1 => h.no_cycle ha (b := a) h1 h1
  have nc3 := fun h1 => h.no_cycle hb (b := b) h1 h1
  by_cases c1 : m.next (.node a) = some (.node b)
  · have e1 : an = .node b := by rw [na] at c1; exact Option.some.inj c1
    have e2 : bp = .node a := by
      subst e1; rw [pb] at pan; exact Option.some.inj pan
    subst e1; subst e2
    refine ⟨?w1, ?eq1, ?r1, ?_, ?_⟩
    case eq1 =>
      have : Ptr.node b ≠ ap := by grind
      simp only [c1, if_true, pa, Option.bind_eq_bind, Option.bind_some, upd, this, if_false, nb]
      rfl
    case r1 =>
      refine swap_change h ha hb ⟨rfl, rfl, rfl, rfl, rfl, rfl⟩ ?_ ?_ ?_
      · intro p hp
        obtain ⟨q, h1, h2⟩ := hN p hp
        rw [h1, Option.map_some]
        rcases sp p with ⟨d1, d2⟩ | ⟨d1, d2⟩ | ⟨d1, d2, d3⟩ <;>
        rcases sp q with ⟨d4, d5⟩ | ⟨d4, d5⟩ | ⟨d4, d5, d6⟩ <;>
        grind [upd]
      · intro p hp
        obtain ⟨q, h1, h2⟩ := hP p hp
        rw [h1, Option.map_some]
        rcases sp p with ⟨d1, d2⟩ | ⟨d1, d2⟩ | ⟨d1, d2, d3⟩ <;>
        rcases sp q with ⟨d4, d5⟩ | ⟨d4, d5⟩ | ⟨d4, d5, d6⟩ <;>
        grind [upd]
      · intro p hp
        have key : ∀ q, dom l (S l) q → p ≠ q := by rintro q hq rfl; exact hp hq
        simp only [upd]
        constructor <;>
        simp only [key _ da, key _ db, key _ dap, key _ dan, key _ dbp, key _ dbn, if_false]
    · exact ⟨rfl, rfl, rfl, fun _ h => h⟩
    · rfl
  by_cases c2 : m.next (.node b) = some (.node a)
  · have e1 : bn = .node a := by rw [nb] at c2; exact Option.some.inj c2
    have e2 : ap = .node b := by
      subst e1; rw [pa] at pbn; exact Option.some.inj pbn
    subst e1; subst e2
    refine ⟨?w2, ?eq2, ?r2, ?_, ?_⟩
    case eq2 =>
      have : Ptr.node a ≠ bp := by grind
      rw [if_neg c1, if_pos c2]
      simp only [pb, Option.bind_eq_bind, Option.bind_some, upd, this, if_false, na]
      rfl
    case r2 =>
      refine swap_change h ha hb ⟨rfl, rfl, rfl, rfl, rfl, rfl⟩ ?_ ?_ ?_
      · intro p hp
        obtain ⟨q, h1, h2⟩ := hN p hp
        rw [h1, Option.map_some]
        rcases sp p with ⟨d1, d2⟩ | ⟨d1, d2⟩ | ⟨d1, d2, d3⟩ <;>
        rcases sp q with ⟨d4, d5⟩ | ⟨d4, d5⟩ | ⟨d4, d5, d6⟩ <;>
        grind [upd]
      · intro p hp
        obtain ⟨q, h1, h2⟩ := hP p hp
        rw [h1, Option.map_some]
        rcases sp p with ⟨d1, d2⟩ | ⟨d1, d2⟩ | ⟨d1, d2, d3⟩ <;>
        rcases sp q with ⟨d4, d5⟩ | ⟨d4, d5⟩ | ⟨d4, d5, d6⟩ <;>
        grind [upd]
      · intro p hp
        have key : ∀ q, dom l (S l) q → p ≠ q := by rintro q hq rfl; exact hp hq
        simp only [upd]
        constructor <;>
        simp only [key _ da, key _ db, key _ dap, key _ dan, key _ dbp, key _ dbn, if_false]
    · exact ⟨rfl, rfl, rfl, fun _ h => h⟩
    · rfl
  · refine ⟨?w3, ?eq3, ?r3, ?_, ?_⟩
    case eq3 =>
      have t1 : Ptr.node a ≠ ap := by grind
      have t2 : Ptr.node b ≠ an := by grind
      have t3 : Ptr.node b ≠ ap := by grind
      have t4 : Ptr.node b ≠ bp := by grind
      rw [if_neg c1, if_neg c2]
      simp only [pa, pb, Option.bind_eq_bind, Option.bind_some, upd, t1, t2, t3, t4,
        if_false, na, nb]
      rfl
    case r3 =>
      refine swap_change h ha hb ⟨rfl, rfl, rfl, rfl, rfl, rfl⟩ ?_ ?_ ?_
      · intro p hp
        obtain ⟨q, h1, h2⟩ := hN p hp
        rw [h1, Option.map_some]
        rcases sp p with ⟨d1, d2⟩ | ⟨d1, d2⟩ | ⟨d1, d2, d3⟩ <;>
        rcases sp q with ⟨d4, d5⟩ | ⟨d4, d5⟩ | ⟨d4, d5, d6⟩ <;>
        grind [upd]
      · intro p hp
        obtain ⟨q, h1, h2⟩ := hP p hp
        rw [h1, Option.map_some]
        rcases sp p with ⟨d1, d2⟩ | ⟨d1, d2⟩ | ⟨d1, d2, d3⟩ <;>
        rcases sp q with ⟨d4, d5⟩ | ⟨d4, d5⟩ | ⟨d4, d5, d6⟩ <;>
        grind [upd]
      · intro p hp
        have key : ∀ q, dom l (S l) q → p ≠ q := by rintro q hq rfl; exact hp hq
        simp only [upd]
        constructor <;>
        simp only [key _ da, key _ db, key _ dap, key _ dan, key _ dbp, key _ dbn, if_false]
    · exact ⟨rfl, rfl, rfl, fun _ h => h⟩
    · rfl

end Verif.Dllist
