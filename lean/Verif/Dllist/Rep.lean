import Verif.Dllist.Model
import Verif.Lib.Lnk
/-!
# Representation invariant: each list header represents a sequence of element addresses
-/
namespace Verif.Dllist
variable {T : Type}

/-- The circular chain of list `l` with elements `xs`, written out from the sentinel to itself. -/
def cyc (l : Nat) (xs : List Nat) : List Ptr := .root l :: (xs.map .node ++ [.root l])

/-- The memory represents, for every list address `l`, the sequence `S l` of elements. -/
structure Rep (m : Mem T) (S : Nat → List Nat) : Prop where
  zero : ∀ l, m.inited l = false → S l = []
  lnk : ∀ l, m.inited l = true → Lnk m.next m.prev (cyc l (S l))
  len : ∀ l, m.len l = (S l).length
  nodup : ∀ l, (S l).Nodup
  owner : ∀ l, ∀ n ∈ S l, m.owner (.node n) = some l
  alloc : ∀ l, ∀ n ∈ S l, n < m.fresh
  unalloc : ∀ n, m.fresh ≤ n → m.owner (.node n) = none
  vals : ∀ n, n < m.fresh → ∃ v, m.val n = some v
  listUnalloc : ∀ l, m.freshL ≤ l → m.inited l = false

/-- The addresses belonging to list `l`. -/
def dom (l : Nat) (xs : List Nat) (p : Ptr) : Prop := p = .root l ∨ ∃ n ∈ xs, p = .node n

theorem mem_cyc {l : Nat} {xs : List Nat} {p : Ptr} : p ∈ cyc l xs ↔ dom l xs p := by
  simp [cyc, dom]; constructor
  · rintro (h | ⟨n, hn, rfl⟩ | h)
    · exact Or.inl h
    · exact Or.inr ⟨n, hn, rfl⟩
    · exact Or.inl h
  · rintro (h | ⟨n, hn, rfl⟩)
    · exact Or.inl h
    · exact Or.inr (Or.inl ⟨n, hn, rfl⟩)

theorem Rep.dom_disj {m : Mem T} {S : Nat → List Nat} (h : Rep m S) {l l' : Nat} (hne : l ≠ l')
    {p : Ptr} (h1 : dom l (S l) p) (h2 : dom l' (S l') p) : False := by
  rcases h1 with rfl | ⟨n, hn, rfl⟩
  · rcases h2 with h2 | ⟨n, _, h2⟩
    · exact hne (by injection h2)
    · cases h2
  · rcases h2 with h2 | ⟨k, hk, h2⟩
    · cases h2
    · injection h2 with h2; subst h2
      have := h.owner l _ hn
      rw [h.owner l' _ hk] at this
      exact hne (by injection this with this; exact this.symm)

/-- Local update rule: list `l` now represents `xs'`, the other lists are untouched. -/
theorem Rep.change {m m' : Mem T} {S : Nat → List Nat} (h : Rep m S) (l : Nat) (xs' : List Nat)
    (hinit : ∀ l', m'.inited l' = if l' = l then true else m.inited l')
    (hlenf : ∀ l', l' ≠ l → m'.len l' = m.len l')
    (hframe : ∀ l', l' ≠ l → ∀ p, dom l' (S l') p →
      m'.next p = m.next p ∧ m'.prev p = m.prev p ∧ m'.owner p = m.owner p)
    (hlnk : Lnk m'.next m'.prev (cyc l xs'))
    (hlen : m'.len l = xs'.length) (hnd : xs'.Nodup)
    (hown : ∀ n ∈ xs', m'.owner (.node n) = some l)
    (halloc : ∀ n ∈ xs', n < m'.fresh)
    (hfresh : m.fresh ≤ m'.fresh)
    (hun : ∀ n, m'.fresh ≤ n → m'.owner (.node n) = none)
    (hval : ∀ n, n < m'.fresh → ∃ v, m'.val n = some v)
    (hL : m'.freshL = m.freshL) (hl : l < m.freshL) :
    Rep m' (upd S l xs') where
  zero := fun l' hl' => by
    rw [hinit] at hl'
    by_cases e : l' = l
    · simp [e] at hl'
    · simp [e] at hl'; simp [upd, e, h.zero l' hl']
  lnk := fun l' hl' => by
    by_cases e : l' = l
    · subst e; simpa [upd] using hlnk
    · rw [hinit] at hl'
      simp [e] at hl'
      simp only [upd, e, if_false]
      refine Lnk_congr _ (fun x hx => ?_) (fun x hx => ?_) (h.lnk l' hl')
      · exact (hframe l' e x (mem_cyc.1 (List.dropLast_subset _ hx))).1
      · exact (hframe l' e x (mem_cyc.1 (List.mem_of_mem_tail hx))).2.1
  len := fun l' => by
    by_cases e : l' = l
    · subst e; simpa [upd] using hlen
    · simp [upd, e, hlenf l' e, h.len]
  nodup := fun l' => by
    by_cases e : l' = l
    · subst e; simpa [upd] using hnd
    · simp [upd, e, h.nodup]
  owner := fun l' n hn => by
    by_cases e : l' = l
    · subst e; simp [upd] at hn; exact hown n hn
    · simp [upd, e] at hn
      rw [(hframe l' e _ (Or.inr ⟨n, hn, rfl⟩)).2.2]; exact h.owner l' n hn
  alloc := fun l' n hn => by
    by_cases e : l' = l
    · subst e; simp [upd] at hn; exact halloc n hn
    · simp [upd, e] at hn; exact Nat.lt_of_lt_of_le (h.alloc l' n hn) hfresh
  unalloc := hun
  vals := hval
  listUnalloc := fun l' hl' => by
    rw [hinit, if_neg (by omega)]
    exact h.listUnalloc l' (by omega)

theorem upd_self {α β : Type} [DecidableEq α] (f : α → β) (a : α) : upd f a (f a) = f := by
  funext x; simp only [upd]; split
  · next h => rw [h]
  · rfl

theorem Rep.empty : Rep (Mem.empty : Mem T) (fun _ => []) where
  zero := fun _ _ => rfl
  lnk := fun l h => by simp [Mem.empty] at h
  len := fun _ => rfl
  nodup := fun _ => List.nodup_nil
  owner := fun _ _ h => by simp at h
  alloc := fun _ _ h => by simp at h
  unalloc := fun _ _ => rfl
  vals := fun n h => by simp [Mem.empty] at h
  listUnalloc := fun _ _ => rfl

theorem clear_rep {m : Mem T} {S : Nat → List Nat} (h : Rep m S) (l : Nat) (hl : l < m.freshL) :
    Rep (clear m l) (upd S l []) := by
  refine h.change l [] ?_ ?_ ?_ ?_ ?_ List.nodup_nil ?_ ?_ ?_ ?_ ?_ rfl hl
  · intro l'; simp [clear, Mem.setInited, Mem.setLen, Mem.setPrev, Mem.setNext, upd]
  · intro l' hne; simp [clear, Mem.setInited, Mem.setLen, Mem.setPrev, Mem.setNext, upd, hne]
  · intro l' hne p hp
    have : p ≠ .root l := by
      rintro rfl; exact h.dom_disj (Ne.symm hne) (Or.inl rfl) hp
    simp [clear, Mem.setInited, Mem.setLen, Mem.setPrev, Mem.setNext, upd, this]
  · simp [clear, Mem.setInited, Mem.setLen, Mem.setPrev, Mem.setNext, upd, cyc]
  · simp [clear, Mem.setInited, Mem.setLen, upd]
  · simp
  · simp
  · exact Nat.le_refl _
  · exact h.unalloc
  · exact h.vals

theorem lazyInit_rep {m : Mem T} {S : Nat → List Nat} (h : Rep m S) (l : Nat) (hl : l < m.freshL) :
    Rep (lazyInit m l) S ∧ (lazyInit m l).inited l = true ∧ (lazyInit m l).fresh = m.fresh ∧
      (lazyInit m l).freshL = m.freshL ∧ (lazyInit m l).val = m.val ∧
      (lazyInit m l).owner = m.owner ∧ (lazyInit m l).len = m.len := by
  unfold lazyInit
  split
  · next hi => exact ⟨h, hi, rfl, rfl, rfl, rfl, rfl⟩
  · next hi =>
    have hz := h.zero l (by simpa using hi)
    have := clear_rep h l hl
    have hu : upd S l [] = S := by rw [← hz, upd_self]
    rw [hu] at this
    refine ⟨this, by simp [clear, Mem.setInited, upd], rfl, rfl, rfl, rfl, ?_⟩
    funext x
    simp only [clear, Mem.setInited, Mem.setLen, Mem.setPrev, Mem.setNext, upd]
    split
    · next hx => subst hx; simp [h.len, hz]
    · rfl

theorem zeroList_rep {m : Mem T} {S : Nat → List Nat} (h : Rep m S) :
    Rep (zeroList m).1 S ∧ (zeroList m).2 = m.freshL :=
  ⟨⟨h.zero, h.lnk, h.len, h.nodup, h.owner, h.alloc, h.unalloc, h.vals,
    fun l hl => h.listUnalloc l (by simp [zeroList] at hl; omega)⟩, rfl⟩

theorem Rep.unallocList {m : Mem T} {S : Nat → List Nat} (h : Rep m S) {l : Nat}
    (hl : m.freshL ≤ l) : S l = [] := h.zero l (h.listUnalloc l hl)

theorem new_rep {m : Mem T} {S : Nat → List Nat} (h : Rep m S) :
    Rep (new m).1 S ∧ (new m).2 = m.freshL ∧ (new m).1.fresh = m.fresh ∧
      (new m).1.val = m.val ∧ (new m).1.freshL = m.freshL + 1 := by
  have h1 := (zeroList_rep h).1
  have h2 := clear_rep h1 m.freshL (by simp [zeroList])
  have : upd S m.freshL [] = S := by
    rw [← h.unallocList (Nat.le_refl m.freshL), upd_self]
  rw [this] at h2
  exact ⟨h2, rfl, rfl, rfl, rfl⟩

end Verif.Dllist
