import Verif.Vec.Model
/-!
# Effects of the slice functions on memory
-/
namespace Verif.Vec
variable {T : Type}

/-- The slice lies within its array. -/
structure WF (m : Mem T) (s : Slice) : Prop where
  len : s.len ≤ s.cap
  cap : s.off + s.cap ≤ (m.arr s.a).length

theorem read_get (m : Mem T) (s : Slice) (k : Nat) :
    (m.read s)[k]? = if k < s.len then (m.arr s.a)[s.off + k]? else none := by
  simp only [Mem.read, List.getElem?_take, List.getElem?_drop]

theorem read_length {m : Mem T} {s : Slice} (h : WF m s) : (m.read s).length = s.len := by
  have := h.len; have := h.cap
  simp only [Mem.read, List.length_take, List.length_drop]; omega

theorem write_get (m : Mem T) (a off : Nat) (xs : List T) (h : off ≤ (m.arr a).length) (k : Nat) :
    ((m.write a off xs).arr a)[k]? =
      if k < off then (m.arr a)[k]? else if k < off + xs.length then xs[k - off]? else (m.arr a)[k]? := by
  simp only [Mem.write, if_true, List.append_assoc, List.getElem?_append, List.length_take,
    List.getElem?_take, List.getElem?_drop]
  have : min off (m.arr a).length = off := by omega
  rw [this]
  by_cases h1 : k < off
  · simp [h1]
  · by_cases h2 : k < off + xs.length
    · simp only [h1, if_false, h2, if_true, show k - off < xs.length by omega]
    · simp only [h1, if_false, h2, show ¬ k - off < xs.length by omega]
      congr 1; omega

theorem write_other (m : Mem T) (a off : Nat) (xs : List T) {b : Nat} (h : b ≠ a) :
    (m.write a off xs).arr b = m.arr b := by simp [Mem.write, h]

theorem write_length (m : Mem T) (a off : Nat) (xs : List T) (h : off + xs.length ≤ (m.arr a).length) (b : Nat) :
    ((m.write a off xs).arr b).length = (m.arr b).length := by
  by_cases e : b = a
  · subst e; simp [Mem.write]; omega
  · rw [write_other m a off xs e]

/-- What a method of vector `v` may do: `s` is the slice of `v` before, `s'` after, `l'` the new
elements; other arrays are untouched, and `s'` is in the same array or a new one of `v`. -/
structure Eff (v : Nat) (m : Mem T) (s : Slice) (m' : Mem T) (s' : Slice) (l' : List T) : Prop where
  wf : WF m' s'
  read : m'.read s' = l'
  frame : ∀ a, a ≠ s.a → a < m.na → m'.arr a = m.arr a
  own : ∀ a, a < m.na → m'.own a = m.own a
  na : m.na ≤ m'.na
  lt : s'.a < m'.na
  mine : m'.own s'.a = some v
  place : s'.a = s.a ∨ m.na ≤ s'.a

theorem Eff.trans {v : Nat} {m m' m'' : Mem T} {s s' s'' : Slice} {l' l'' : List T}
    (h1 : Eff v m s m' s' l') (h2 : Eff v m' s' m'' s'' l'') : Eff v m s m'' s'' l'' := by
  have n1 := h1.na; have n2 := h2.na
  refine ⟨h2.wf, h2.read, ?_, ?_, by omega, h2.lt, h2.mine, ?_⟩
  · intro a ha hlt
    rw [h2.frame a ?_ (by omega), h1.frame a ha hlt]
    rcases h1.place with e | e
    · rw [e]; exact ha
    · omega
  · intro a hlt; rw [h2.own a (by omega), h1.own a hlt]
  · rcases h2.place with e | e
    · rcases h1.place with e' | e'
      · left; rw [e, e']
      · right; omega
    · right; omega

section
variable {v : Nat} {m : Mem T} {s : Slice}

/-- Nothing happens in memory, the slice becomes a part of itself. -/
theorem eff_id (hs : WF m s) (ho : m.own s.a = some v) (hl : s.a < m.na) {s' : Slice} (ha : s'.a = s.a)
    (hoff : s'.off = s.off) (hcap : s'.cap ≤ s.cap) (hlen : s'.len ≤ s'.cap) (hle : s'.len ≤ s.len) :
    Eff v m s m s' ((m.read s).take s'.len) := by
  have := hs.len; have := hs.cap
  refine ⟨⟨hlen, by rw [ha, hoff]; omega⟩, ?_, fun _ _ _ => rfl, fun _ _ => rfl, Nat.le_refl _,
    by rw [ha]; exact hl, by rw [ha]; exact ho, Or.inl ha⟩
  simp only [Mem.read, ha, hoff, List.take_take]
  congr 1; omega

/-- Write within the slice's capacity. -/
theorem eff_write (hs : WF m s) (ho : m.own s.a = some v) (hl : s.a < m.na) (p : Nat) (xs : List T)
    (hp : p + xs.length ≤ s.cap) {s' : Slice} (ha : s'.a = s.a) (hoff : s'.off = s.off) (hcap : s'.cap ≤ s.cap)
    (hlen : s'.len ≤ s'.cap) {l' : List T}
    (hl' : ∀ k, l'[k]? = if k < s'.len then
      (if k < p then (m.arr s.a)[s.off + k]? else if k < p + xs.length then xs[k - p]?
        else (m.arr s.a)[s.off + k]?) else none) :
    Eff v m s (m.write s.a (s.off + p) xs) s' l' := by
  have h1 := hs.len; have h2 := hs.cap
  refine ⟨⟨hlen, ?_⟩, ?_, ?_, fun _ _ => rfl, Nat.le_refl _, by rw [ha]; exact hl,
    by rw [ha]; exact ho, Or.inl ha⟩
  · rw [write_length _ _ _ _ (by omega), ha, hoff]; omega
  · apply List.ext_getElem?
    intro k
    rw [read_get, hl', ha, hoff, write_get _ _ _ _ (by omega)]
    by_cases h3 : k < s'.len
    · simp only [h3, if_true]
      by_cases h4 : k < p
      · simp [h4]
      · by_cases h5 : k < p + xs.length
        · simp only [h4, h5, if_false, if_true, show ¬ s.off + k < s.off + p by omega,
            show s.off + k < s.off + p + xs.length by omega]
          congr 1; omega
        · simp only [h4, h5, if_false, show ¬ s.off + k < s.off + p by omega,
            show ¬ s.off + k < s.off + p + xs.length by omega]
    · simp [h3]
  · intro a ha _; exact write_other _ _ _ _ ha

/-- A new array for `v`. -/
theorem eff_alloc (hl : s.a < m.na) (xs : List T) (n : Nat) (hn : n ≤ xs.length) :
    Eff v m s (m.alloc (some v) xs) { a := m.na, off := 0, len := n, cap := xs.length } (xs.take n) := by
  refine ⟨⟨hn, by simp [Mem.alloc]⟩, by simp [Mem.read, Mem.alloc], ?_, ?_, by simp [Mem.alloc], by simp [Mem.alloc],
    by simp [Mem.alloc], Or.inr (Nat.le_refl _)⟩
  · intro a _ hlt; simp [Mem.alloc, Nat.ne_of_lt hlt]
  · intro a hlt; simp [Mem.alloc, Nat.ne_of_lt hlt]

variable (E : Elt T) (g : Nat → Nat)

/-- `append` to a prefix of the slice. -/
theorem eff_append (hs : WF m s) (ho : m.own s.a = some v) (hl : s.a < m.na) (i : Nat) (hi : i ≤ s.cap)
    (xs : List T) : Eff v m s (append E g (some v) m (sub s 0 i) xs).1 (append E g (some v) m (sub s 0 i) xs).2
      (m.read (sub s 0 i) ++ xs) := by
  have h1 := hs.len; have h2 := hs.cap
  have hr : ∀ k, (m.read (sub s 0 i))[k]? = if k < i then (m.arr s.a)[s.off + k]? else none := by
    intro k; rw [read_get]; by_cases h : k < i <;> simp [sub, h]
  have hrl : (m.read (sub s 0 i)).length = i := by
    simp only [Mem.read, sub, List.length_take, List.length_drop]; omega
  unfold append
  by_cases hf : (sub s 0 i).len + xs.length ≤ (sub s 0 i).cap
  · rw [if_pos hf]
    simp only [sub, Nat.sub_zero, Nat.add_zero] at hf ⊢
    refine eff_write hs ho hl i xs hf (s' := { a := s.a, off := s.off, len := i + xs.length, cap := s.cap }) rfl rfl (Nat.le_refl _) hf ?_
    intro k
    rw [List.getElem?_append, show (m.read { a := s.a, off := s.off, len := i, cap := s.cap }) =
      m.read (sub s 0 i) by simp [sub], hrl, hr]
    by_cases h3 : k < i
    · simp [h3, show k < i + xs.length by omega]
    · by_cases h4 : k < i + xs.length
      · simp [h3, h4]
      · simp only [h3, h4, if_false]
        rw [List.getElem?_eq_none]; omega
  · rw [if_neg hf]
    have := eff_alloc (v := v) (m := m) (s := s) hl
      (m.read (sub s 0 i) ++ xs ++ List.replicate (g m.na) E.zero) (i + xs.length)
      (by rw [List.length_append, List.length_append, hrl]; omega)
    simp only [List.length_append, hrl, List.length_replicate] at this
    rw [List.take_append_of_le_length (by rw [List.length_append, hrl]; omega)] at this
    rw [List.take_of_length_le (by rw [List.length_append, hrl]; omega)] at this
    simpa [sub] using this

theorem append_self (hs : WF m s) (xs : List T) (ho : m.own s.a = some v) (hl : s.a < m.na) :
    Eff v m s (append E g (some v) m s xs).1 (append E g (some v) m s xs).2 (m.read s ++ xs) := by
  have := eff_append E g hs ho hl s.len hs.len xs
  simpa [sub] using this

theorem append_len (o : Option Nat) (xs : List T) :
    (append E g o m s xs).2.len = s.len + xs.length := by
  unfold append; split <;> rfl

theorem append_room {o : Option Nat} (xs : List T) (h : s.len + xs.length ≤ s.cap) :
    (append E g o m s xs) = (m.write s.a (s.off + s.len) xs, { s with len := s.len + xs.length }) := by
  unfold append; rw [if_pos h]

theorem eff_grow (hs : WF m s) (ho : m.own s.a = some v) (hl : s.a < m.na) (n : Nat) :
    Eff v m s (growS E g (some v) m s n).1 (growS E g (some v) m s n).2 (m.read s) ∧
    s.len + n ≤ (growS E g (some v) m s n).2.cap := by
  have h1 := hs.len; have h2 := hs.cap
  unfold growS
  by_cases h : 0 < n - (s.cap - s.len)
  · rw [if_pos h]
    have he := eff_append E g hs ho hl s.cap (Nat.le_refl _) (List.replicate (n - (s.cap - s.len)) E.zero)
    have hlen := append_len (m := m) (s := sub s 0 s.cap) E g (some v) (List.replicate (n - (s.cap - s.len)) E.zero)
    generalize append E g (some v) m (sub s 0 s.cap) (List.replicate (n - (s.cap - s.len)) E.zero) = r at he hlen
    simp only [sub, Nat.sub_zero, List.length_replicate] at hlen
    have hw := he.wf.len
    have h3 := eff_id he.wf he.mine he.lt (s' := sub r.2 0 s.len) rfl rfl (by simp [sub]) (by simp [sub]; omega)
      (by simp [sub]; omega)
    refine ⟨?_, by simp [sub]; omega⟩
    have := he.trans h3
    rw [he.read] at this
    have e : (m.read (sub s 0 s.cap) ++ List.replicate (n - (s.cap - s.len)) E.zero).take (sub r.2 0 s.len).len
        = m.read s := by
      have hrl : (m.read (sub s 0 s.cap)).length = s.cap := by
        simp only [Mem.read, sub, List.length_take, List.length_drop]; omega
      rw [List.take_append_of_le_length (by rw [hrl]; simp [sub]; omega)]
      simp only [Mem.read, sub, List.take_take, Nat.sub_zero, Nat.add_zero]
      congr 1; omega
    rw [e] at this
    exact this
  · rw [if_neg h]
    have := eff_id hs ho hl (s' := s) rfl rfl (Nat.le_refl _) h1 (Nat.le_refl _)
    rw [List.take_of_length_le (Nat.le_of_eq (read_length hs))] at this
    exact ⟨this, by simp only; omega⟩

theorem eff_same (hs : WF m s) (ho : m.own s.a = some v) (hl : s.a < m.na) : Eff v m s m s (m.read s) := by
  have := eff_id hs ho hl (s' := s) rfl rfl (Nat.le_refl _) hs.len (Nat.le_refl _)
  rwa [List.take_of_length_le (Nat.le_of_eq (read_length hs))] at this

/-- Replace all elements. -/
theorem eff_all (hs : WF m s) (ho : m.own s.a = some v) (hl : s.a < m.na) (xs : List T) (hx : xs.length = s.len) :
    Eff v m s (m.write s.a s.off xs) s xs := by
  have := eff_write hs ho hl 0 xs (by have := hs.len; omega) (s' := s) rfl rfl (Nat.le_refl _) hs.len (l' := xs)
    (by
      intro k
      by_cases h : k < s.len
      · simp [h, hx]
      · rw [if_neg h, List.getElem?_eq_none]; omega)
  simpa using this

/-- Clearing beyond the length. -/
theorem eff_clear (hs : WF m s) (ho : m.own s.a = some v) (hl : s.a < m.na) (n : Nat) (hn : n ≤ s.cap) (hn' : s.len ≤ n) :
    Eff v m s (clearS E m s s.len n) s (m.read s) := by
  unfold clearS
  have := hs.len
  refine eff_write hs ho hl s.len _ (by simp; omega) rfl rfl (Nat.le_refl _) hs.len ?_
  intro k
  rw [read_get]
  by_cases h : k < s.len <;> simp [h]

end
end Verif.Vec
