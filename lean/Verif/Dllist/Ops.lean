import Verif.Dllist.Rep
/-!
# The private operations `insert`, `remove`, `move` and the public `Swap` on represented lists
-/
namespace Verif.Dllist
variable {T : Type}

/-- The address before position `xs.length` in list `l` with front part `xs`. -/
def lastP (l : Nat) (xs : List Nat) : Ptr := match xs.getLast? with
  | none => .root l
  | some n => .node n

/-- The address at the start of the back part `ys` of list `l`. -/
def headP (l : Nat) (ys : List Nat) : Ptr := match ys.head? with
  | none => .root l
  | some n => .node n

@[simp] theorem lastP_nil (l : Nat) : lastP l [] = .root l := rfl
@[simp] theorem lastP_concat (l : Nat) (xs : List Nat) (n : Nat) :
    lastP l (xs ++ [n]) = .node n := by simp [lastP]
@[simp] theorem headP_nil (l : Nat) : headP l [] = .root l := rfl
@[simp] theorem headP_cons (l : Nat) (xs : List Nat) (n : Nat) :
    headP l (n :: xs) = .node n := rfl

theorem cyc_split (l : Nat) (xs ys : List Nat) : ∃ A B,
    cyc l (xs ++ ys) = A ++ lastP l xs :: headP l ys :: B ∧
    ∀ n, cyc l (xs ++ n :: ys) = A ++ lastP l xs :: .node n :: headP l ys :: B := by
  have key : ∃ A, (Ptr.root l :: xs.map Ptr.node) = A ++ [lastP l xs] := by
    rcases List.eq_nil_or_concat xs with rfl | ⟨zs, a, rfl⟩
    · exact ⟨[], rfl⟩
    · exact ⟨.root l :: zs.map .node, by simp⟩
  have key2 : ∃ B, (ys.map Ptr.node ++ [Ptr.root l]) = headP l ys :: B := by
    cases ys with
    | nil => exact ⟨[], rfl⟩
    | cons a ys => exact ⟨ys.map .node ++ [.root l], by simp⟩
  obtain ⟨A, hA⟩ := key
  obtain ⟨B, hB⟩ := key2
  refine ⟨A, B, ?_, fun n => ?_⟩
  · have : cyc l (xs ++ ys) = (Ptr.root l :: xs.map Ptr.node) ++ (ys.map Ptr.node ++ [Ptr.root l]) := by
      simp [cyc]
    rw [this, hA, hB]; simp
  · have : cyc l (xs ++ n :: ys) =
        (Ptr.root l :: xs.map Ptr.node) ++ .node n :: (ys.map Ptr.node ++ [Ptr.root l]) := by
      simp [cyc]
    rw [this, hA, hB]; simp

theorem cyc_dropLast (l : Nat) (xs : List Nat) : (cyc l xs).dropLast = .root l :: xs.map .node := by
  unfold cyc
  rw [← List.cons_append, List.dropLast_concat]

theorem node_inj : Function.Injective Ptr.node := fun _ _ h => by injection h

theorem nodup_map_node {xs : List Nat} (h : xs.Nodup) : (xs.map Ptr.node).Nodup := by
  induction xs with
  | nil => exact List.nodup_nil
  | cons a l ih =>
    rw [List.nodup_cons] at h
    simp only [List.map_cons, List.nodup_cons]
    refine ⟨?_, ih h.2⟩
    intro hm; obtain ⟨b, hb, e⟩ := List.mem_map.1 hm
    injection e with e; subst e; exact h.1 hb

theorem cyc_loop (l : Nat) {xs : List Nat} (h : xs.Nodup) : Loop (cyc l xs) := by
  constructor
  · rw [cyc_dropLast, List.nodup_cons]
    exact ⟨by simp, nodup_map_node h⟩
  · show (xs.map Ptr.node ++ [Ptr.root l]).Nodup
    rw [List.nodup_append]
    refine ⟨nodup_map_node h, by simp, ?_⟩
    intro a ha b hb e
    simp at hb; subst hb; subst e; simp at ha

theorem lastP_dom (l : Nat) (xs ys : List Nat) : dom l (xs ++ ys) (lastP l xs) := by
  rcases List.eq_nil_or_concat xs with rfl | ⟨zs, a, rfl⟩
  · exact Or.inl rfl
  · exact Or.inr ⟨a, by simp, by simp⟩

theorem headP_dom (l : Nat) (xs ys : List Nat) : dom l (xs ++ ys) (headP l ys) := by
  cases ys with
  | nil => exact Or.inl rfl
  | cons a ys => exact Or.inr ⟨a, by simp, by simp⟩

/-- Fields that list surgery does not touch. -/
structure Same (m m' : Mem T) : Prop where
  val : m'.val = m.val
  fresh : m'.fresh = m.fresh
  freshL : m'.freshL = m.freshL
  inited : ∀ l, m.inited l = true → m'.inited l = true

theorem Rep.links {m : Mem T} {S : Nat → List Nat} (h : Rep m S) {l : Nat}
    (hi : m.inited l = true) {xs ys : List Nat} (hS : S l = xs ++ ys) :
    m.next (lastP l xs) = some (headP l ys) ∧ m.prev (headP l ys) = some (lastP l xs) := by
  obtain ⟨A, B, e, _⟩ := cyc_split l xs ys
  have := h.lnk l hi
  rw [hS, e, Lnk_split] at this
  exact ⟨this.2.1, this.2.2.1⟩

theorem Rep.init_of_mem {m : Mem T} {S : Nat → List Nat} (h : Rep m S) {l n : Nat}
    (hn : n ∈ S l) : m.inited l = true := by
  cases hi : m.inited l with
  | true => rfl
  | false => rw [h.zero l hi] at hn; simp at hn

theorem Rep.lt_freshL {m : Mem T} {S : Nat → List Nat} (h : Rep m S) {l : Nat}
    (hi : m.inited l = true) : l < m.freshL := by
  rcases Nat.lt_or_ge l m.freshL with h' | h'
  · exact h'
  · rw [h.listUnalloc l h'] at hi; cases hi

theorem insert_rep {m : Mem T} {S : Nat → List Nat} (h : Rep m S) {l : Nat}
    (hi : m.inited l = true) {xs ys : List Nat} (hS : S l = xs ++ ys)
    {n : Nat} (hn : n < m.fresh) (ho : m.owner (.node n) = none) :
    ∃ m', insert m l (.node n) (some (lastP l xs)) = some m' ∧ Rep m' (upd S l (xs ++ n :: ys)) ∧
      Same m m' ∧ m'.owner = upd m.owner (.node n) (some l) := by
  have hfree : ∀ l', n ∉ S l' := fun l' hm => by
    have := h.owner l' n hm; rw [ho] at this; cases this
  obtain ⟨h1, h2⟩ := h.links hi hS
  obtain ⟨A, B, e1, e2⟩ := cyc_split l xs ys
  have hp : lastP l xs ≠ .node n := by
    intro e; rcases lastP_dom l xs ys with h' | ⟨k, hk, h'⟩ <;> rw [e] at h'
    · cases h'
    · injection h' with h'; subst h'; exact hfree l (hS ▸ hk)
  have hq : headP l ys ≠ .node n := by
    intro e; rcases headP_dom l xs ys with h' | ⟨k, hk, h'⟩ <;> rw [e] at h'
    · cases h'
    · injection h' with h'; subst h'; exact hfree l (hS ▸ hk)
  refine ⟨?w, ?eq, ?_, ?_, ?_⟩
  case eq =>
    simp only [insert, Option.bind_eq_bind, Option.bind_some, Mem.setPrev, Mem.setNext,
      Mem.setOwner, Mem.setLen, upd, if_true, hp.symm, if_false, h1]
    rfl
  · refine h.change l (xs ++ n :: ys) ?_ ?_ ?_ ?_ ?_ ?_ ?_ ?_ (Nat.le_refl _) ?_ h.vals rfl
      (h.lt_freshL hi)
    · intro l'; dsimp only; split
      · next e => rw [e]; exact hi
      · rfl
    · intro l' hne; simp [upd, hne]
    · intro l' hne p hp'
      have n1 : p ≠ .node n := by
        rintro rfl; rcases hp' with h' | ⟨k, hk, h'⟩
        · cases h'
        · injection h' with h'; subst h'; exact hfree l' hk
      have n2 : p ≠ lastP l xs := by
        rintro rfl; exact h.dom_disj (Ne.symm hne) (hS ▸ lastP_dom l xs ys) hp'
      have n3 : p ≠ headP l ys := by
        rintro rfl; exact h.dom_disj (Ne.symm hne) (hS ▸ headP_dom l xs ys) hp'
      simp [upd, n1, n2, n3]
    · have hl := h.lnk l hi
      have hlp := cyc_loop l (h.nodup l)
      have hnc : Ptr.node n ∉ cyc l (S l) := by
        rw [mem_cyc]; rintro (h' | ⟨k, hk, h'⟩)
        · cases h'
        · injection h' with h'; subst h'; exact hfree l hk
      rw [hS, e1] at hl hlp hnc
      rw [e2 n]
      refine Lnk_insert A _ _ B _ hlp hnc hl ?_ ?_ ?_ ?_ ?_ ?_
      · intro x h1 h2; simp [upd, h1, h2]
      · simp [upd]
      · simp [upd, hp.symm]
      · intro x h1 h2; simp [upd, h1, h2]
      · simp [upd]
      · simp [upd, hq.symm]
    · have := h.len l
      rw [hS] at this
      simp [upd, this]; omega
    · have := h.nodup l
      rw [hS] at this
      have hm := hfree l
      rw [hS] at hm
      rw [List.nodup_append] at *
      simp at hm ⊢
      refine ⟨this.1, ⟨hm.2, this.2.1⟩, fun a ha => ⟨?_, fun b hb => this.2.2 a ha b hb⟩⟩
      rintro rfl; exact hm.1 ha
    · intro k hk
      by_cases e : k = n
      · subst e; simp [upd]
      · have : k ∈ S l := by rw [hS]; simp [e] at hk ⊢; exact hk
        simp [upd, e, h.owner l k this]
    · intro k hk
      by_cases e : k = n
      · subst e; exact hn
      · have : k ∈ S l := by rw [hS]; simp [e] at hk ⊢; exact hk
        exact h.alloc l k this
    · intro k hk
      have : k ≠ n := by have : m.fresh ≤ k := hk; omega
      simp [upd, this]; exact h.unalloc k hk
  · exact ⟨rfl, rfl, rfl, fun _ h => h⟩
  · rfl

theorem alloc_rep {m : Mem T} {S : Nat → List Nat} (h : Rep m S) (v : T) :
    Rep { m with fresh := m.fresh + 1, val := upd m.val m.fresh (some v) } S where
  zero := h.zero
  lnk := h.lnk
  len := h.len
  nodup := h.nodup
  owner := h.owner
  alloc := fun l n hn => Nat.lt_succ_of_lt (h.alloc l n hn)
  unalloc := fun n hn => h.unalloc n (Nat.le_of_succ_le hn)
  vals := fun n hn => by
    simp only [upd]
    split
    · exact ⟨v, rfl⟩
    · exact h.vals n (by have : n < m.fresh + 1 := hn; omega)
  listUnalloc := h.listUnalloc

theorem insertValue_rep {m : Mem T} {S : Nat → List Nat} (h : Rep m S) {l : Nat}
    (hi : m.inited l = true) {xs ys : List Nat} (hS : S l = xs ++ ys) (v : T) :
    ∃ m', insertValue m l v (some (lastP l xs)) = some (m', m.fresh) ∧
      Rep m' (upd S l (xs ++ m.fresh :: ys)) ∧ m'.val = upd m.val m.fresh (some v) ∧
      m'.fresh = m.fresh + 1 ∧ m'.freshL = m.freshL ∧
      m'.owner = upd m.owner (.node m.fresh) (some l) ∧
      (∀ l, m.inited l = true → m'.inited l = true) := by
  have h0 := alloc_rep h v
  obtain ⟨m', e, hr, hs, ho⟩ := insert_rep h0 (l := l) hi hS (n := m.fresh) (by simp)
    (h.unalloc _ (Nat.le_refl _))
  refine ⟨m', ?_, hr, hs.val, hs.fresh, hs.freshL, ho, hs.inited⟩
  simp [insertValue, e]

theorem remove_rep {m : Mem T} {S : Nat → List Nat} (h : Rep m S) {l : Nat}
    {xs ys : List Nat} {n : Nat} (hS : S l = xs ++ n :: ys) :
    ∃ m', remove m l (.node n) = some m' ∧ Rep m' (upd S l (xs ++ ys)) ∧
      Same m m' ∧ m'.owner = upd m.owner (.node n) none := by
  have hi : m.inited l = true := h.init_of_mem (n := n) (by rw [hS]; simp)
  obtain ⟨h1, h2⟩ := h.links hi hS
  obtain ⟨h3, h4⟩ := h.links hi (xs := xs ++ [n]) (ys := ys) (by rw [hS]; simp)
  simp only [headP_cons, lastP_concat] at h1 h2 h3 h4
  have hnd := h.nodup l
  rw [hS, List.nodup_append, List.nodup_cons] at hnd
  have hp : lastP l xs ≠ .node n := by
    intro e; rcases lastP_dom l xs [] with h' | ⟨k, hk, h'⟩ <;> rw [e] at h'
    · cases h'
    · injection h' with h'; subst h'; simp at hk
      exact hnd.2.2 _ hk _ (by simp) rfl
  have hq : headP l ys ≠ .node n := by
    intro e; rcases headP_dom l [] ys with h' | ⟨k, hk, h'⟩ <;> rw [e] at h'
    · cases h'
    · injection h' with h'; subst h'; simp at hk
      exact hnd.2.1.1 hk
  obtain ⟨A, B, e1, e2⟩ := cyc_split l xs ys
  refine ⟨?w, ?eq, ?_, ?_, ?_⟩
  case eq =>
    simp only [remove, Option.bind_eq_bind, Option.bind_some, Mem.setPrev, Mem.setNext,
      Mem.setOwner, Mem.setLen, h2, upd, hp.symm, if_false, h3]
    rfl
  rotate_left
  · exact ⟨rfl, rfl, rfl, fun _ h => h⟩
  · rfl
  have hsub : ∀ k, k ∈ xs ++ ys → k ∈ S l := fun k hk => by
    rw [hS]; simp at hk ⊢; rcases hk with h | h <;> simp [h]
  have hne' : ∀ k, k ∈ xs ++ ys → k ≠ n := by
    rintro k hk rfl; simp at hk; rcases hk with hk | hk
    · exact hnd.2.2 _ hk _ (by simp) rfl
    · exact hnd.2.1.1 hk
  refine h.change l (xs ++ ys) ?_ ?_ ?_ ?_ ?_ ?_ ?_ ?_ (Nat.le_refl _) ?_ h.vals rfl
    (h.lt_freshL hi)
  · intro l'; dsimp only; split
    · next e => rw [e]; exact hi
    · rfl
  · intro l' hne; simp [upd, hne]
  · intro l' hne p hp'
    have n1 : p ≠ .node n := by
      rintro rfl
      exact h.dom_disj (Ne.symm hne) (Or.inr ⟨n, by rw [hS]; simp, rfl⟩) hp'
    have n2 : p ≠ lastP l xs := by
      rintro rfl; exact h.dom_disj (Ne.symm hne) (hS ▸ lastP_dom l xs (n :: ys)) hp'
    have n3 : p ≠ headP l ys := by
      rintro rfl
      refine h.dom_disj (Ne.symm hne) ?_ hp'
      have := headP_dom l (xs ++ [n]) ys
      rw [hS]; simpa using this
    simp [upd, n1, n2, n3]
  · have hl := h.lnk l hi
    have hlp := cyc_loop l (h.nodup l)
    rw [hS, e2] at hl hlp
    rw [e1]
    refine Lnk_remove A _ _ _ B hlp hl ?_ ?_ ?_ ?_
    · intro x h1 h2; simp [upd, h1, h2]
    · simp [upd, hp]
    · intro x h1 h2; simp [upd, h1, h2]
    · simp [upd, hq]
  · have := h.len l
    rw [hS] at this
    simp [upd, this]; omega
  · rw [List.nodup_append]
    exact ⟨hnd.1, hnd.2.1.2, fun a ha b hb => hnd.2.2 a ha b (by simp [hb])⟩
  · intro k hk
    have := hne' k hk
    simp [upd, this, h.owner l k (hsub k hk)]
  · intro k hk; exact h.alloc l k (hsub k hk)
  · intro k hk
    have : k ≠ n := by
      have h5 : m.fresh ≤ k := hk
      have := h.alloc l n (by rw [hS]; simp)
      omega
    simp [upd, this]; exact h.unalloc k hk

end Verif.Dllist
