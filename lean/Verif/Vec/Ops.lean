import Verif.Vec.Mem
/-!
# Effects of `slices.Insert`, `Delete`, `Replace`, `CompactFunc`, `Reverse`
-/
namespace Verif.Vec
variable {T : Type} {v : Nat} {m : Mem T} {s : Slice} (E : Elt T) (g : Nat → Nat)

theorem Eff.cast {v : Nat} {m m' : Mem T} {s s' : Slice} {l l' : List T} (h : Eff v m s m' s' l) (e : l = l') :
    Eff v m s m' s' l' := e ▸ h

theorem write_cell (hs : WF m s) (p : Nat) (xs : List T) (hp : p + xs.length ≤ s.cap) (k : Nat) :
    ((m.write s.a (s.off + p) xs).arr s.a)[s.off + k]? =
      if k < p then (m.arr s.a)[s.off + k]? else if k < p + xs.length then xs[k - p]? else (m.arr s.a)[s.off + k]? := by
  have := hs.cap
  rw [write_get _ _ _ _ (by omega)]
  by_cases h1 : k < p
  · simp [h1]
  · by_cases h2 : k < p + xs.length
    · simp only [h1, h2, if_false, if_true, show ¬ s.off + k < s.off + p by omega,
        show s.off + k < s.off + p + xs.length by omega]
      congr 1; omega
    · simp only [h1, h2, if_false, show ¬ s.off + k < s.off + p by omega,
        show ¬ s.off + k < s.off + p + xs.length by omega]

theorem eff_write_any (hs : WF m s) (ho : m.own s.a = some v) (hl : s.a < m.na) (p : Nat) (xs : List T)
    (hp : p + xs.length ≤ s.cap) {s' : Slice} (ha : s'.a = s.a) (hoff : s'.off = s.off) (hcap : s'.cap ≤ s.cap)
    (hlen : s'.len ≤ s'.cap) :
    Eff v m s (m.write s.a (s.off + p) xs) s' ((m.write s.a (s.off + p) xs).read s') := by
  refine eff_write hs ho hl p xs hp ha hoff hcap hlen ?_
  intro k
  rw [read_get, ha, hoff, write_cell hs p xs hp]

theorem sub_read (hs : WF m s) (i : Nat) (hi : i ≤ s.len) : m.read (sub s 0 i) = (m.read s).take i := by
  simp only [Mem.read, sub, List.take_take, Nat.sub_zero, Nat.add_zero]
  congr 1; omega

theorem WF.write {a off : Nat} {xs : List T} (hs : WF m s) (h : off + xs.length ≤ (m.arr a).length) :
    WF (m.write a off xs) s := ⟨hs.len, by rw [write_length _ _ _ _ h]; exact hs.cap⟩

/-- Allocate room for `i + |xs| + |tail|` elements, keep the first `i`, then store `xs` and `tail`. -/
theorem eff_rebuild (hs : WF m s) (ho : m.own s.a = some v) (hl : s.a < m.na) (i : Nat) (hi : i ≤ s.len) (xs tail : List T)
    (n : Nat) (hn : n = xs.length + tail.length) :
    Eff v m s
      (((append E g (some v) m (sub s 0 i) (List.replicate n E.zero)).1.write
        (append E g (some v) m (sub s 0 i) (List.replicate n E.zero)).2.a
        ((append E g (some v) m (sub s 0 i) (List.replicate n E.zero)).2.off + i) xs).write
        (append E g (some v) m (sub s 0 i) (List.replicate n E.zero)).2.a
        ((append E g (some v) m (sub s 0 i) (List.replicate n E.zero)).2.off + i + xs.length) tail)
      (append E g (some v) m (sub s 0 i) (List.replicate n E.zero)).2 ((m.read s).take i ++ xs ++ tail) := by
  subst hn
  have h1 := hs.len
  have he := eff_append E g hs ho hl i (by omega) (List.replicate (xs.length + tail.length) E.zero)
  have hlen := append_len (m := m) (s := sub s 0 i) E g (some v) (List.replicate (xs.length + tail.length) E.zero)
  generalize append E g (some v) m (sub s 0 i) (List.replicate (xs.length + tail.length) E.zero) = r at he hlen
  simp only [sub, Nat.sub_zero, List.length_replicate] at hlen
  have hw := he.wf.len
  have e1 := eff_write_any he.wf he.mine he.lt i xs (by omega) (s' := r.2) rfl rfl (Nat.le_refl _) hw
  have e2 := eff_write_any e1.wf e1.mine e1.lt (i + xs.length) tail (by omega) (s' := r.2) rfl rfl (Nat.le_refl _) hw
  rw [← Nat.add_assoc] at e2
  refine ((he.trans e1).trans e2).cast ?_
  apply List.ext_getElem?
  intro k
  have hc : (r.1.arr r.2.a)[r.2.off + k]? = if k < r.2.len then (r.1.read r.2)[k]? else (r.1.arr r.2.a)[r.2.off + k]? := by
    rw [read_get]; by_cases h : k < r.2.len <;> simp [h]
  rw [he.read, sub_read hs i hi] at hc
  have hrl := read_length hs
  rw [read_get, Nat.add_assoc, write_cell e1.wf (i + xs.length) tail (by omega), write_cell he.wf i xs (by omega), hc,
    hlen]
  grind

theorem eff_insert (hs : WF m s) (ho : m.own s.a = some v) (hl : s.a < m.na) (i : Nat) (hi : i ≤ s.len) (xs : List T) :
    Eff v m s (insertS E g (some v) m s i xs).1 (insertS E g (some v) m s i xs).2
      ((m.read s).take i ++ xs ++ (m.read s).drop i) := by
  have h1 := hs.len
  have hrl := read_length hs
  unfold insertS
  by_cases h0 : xs.length = 0
  · rw [if_pos h0]
    refine (eff_same hs ho hl).cast ?_
    rw [List.length_eq_zero_iff.1 h0]; simp
  · rw [if_neg h0]
    by_cases h2 : i = s.len
    · rw [if_pos h2]
      refine (append_self E g hs xs ho hl).cast ?_
      rw [List.take_of_length_le (by omega), List.drop_of_length_le (by omega)]; simp
    · rw [if_neg h2]
      by_cases h3 : s.cap < s.len + xs.length
      · rw [if_pos h3]
        exact eff_rebuild E g hs ho hl i hi xs _ _ (by rw [List.length_drop, hrl]; omega)
      · rw [if_neg h3]
        simp only
        have e1 := eff_write_any hs ho hl (i + xs.length) ((m.read s).drop i)
          (by rw [List.length_drop, hrl]; omega) (s' := { s with len := s.len + xs.length }) rfl rfl (Nat.le_refl _)
          (by simp only; omega)
        have e2 := eff_write_any e1.wf e1.mine e1.lt i xs (by simp only; omega)
          (s' := { s with len := s.len + xs.length }) rfl rfl (Nat.le_refl _) (by simp only; omega)
        rw [← Nat.add_assoc] at e1 e2
        refine (e1.trans e2).cast ?_
        apply List.ext_getElem?
        intro k
        have hc : (m.arr s.a)[s.off + k]? = if k < s.len then (m.read s)[k]? else (m.arr s.a)[s.off + k]? := by
          rw [read_get]; by_cases h : k < s.len <;> simp [h]
        have w2 := write_cell e1.wf i xs (by simp only; omega) k
        simp only at w2
        rw [read_get]
        simp only
        rw [w2, Nat.add_assoc, write_cell hs (i + xs.length) ((m.read s).drop i) (by rw [List.length_drop, hrl]; omega), hc]
        grind

theorem eff_delete (hs : WF m s) (ho : m.own s.a = some v) (hl : s.a < m.na) (i j : Nat) (hij : i ≤ j) (hj : j ≤ s.len) :
    Eff v m s (deleteS E g (some v) m s i j).1 (deleteS E g (some v) m s i j).2
      ((m.read s).take i ++ (m.read s).drop j) := by
  have h1 := hs.len
  have hrl := read_length hs
  unfold deleteS
  by_cases h : i = j
  · rw [if_pos h]
    exact (eff_same hs ho hl).cast (by rw [h, List.take_append_drop])
  · rw [if_neg h]
    simp only
    have he := eff_append E g hs ho hl i (by omega) ((m.read s).drop j)
    rw [sub_read hs i (by omega)] at he
    have hr := append_room (m := m) (s := sub s 0 i) E g (o := some v) ((m.read s).drop j)
      (by simp [sub]; omega)
    have hlen := append_len (m := m) (s := sub s 0 i) E g (some v) ((m.read s).drop j)
    have hcap : (append E g (some v) m (sub s 0 i) ((m.read s).drop j)).2.cap = s.cap := by rw [hr]; simp [sub]
    generalize append E g (some v) m (sub s 0 i) ((m.read s).drop j) = r at he hlen hcap
    simp only [sub, Nat.sub_zero, List.length_drop, hrl] at hlen
    have := eff_clear E he.wf he.mine he.lt s.len (by omega) (by omega)
    rw [he.read] at this
    exact he.trans this

theorem eff_replace (hs : WF m s) (ho : m.own s.a = some v) (hl : s.a < m.na) (i j : Nat) (hij : i ≤ j) (hj : j ≤ s.len)
    (xs : List T) :
    Eff v m s (replaceS E g (some v) m s i j xs).1 (replaceS E g (some v) m s i j xs).2
      ((m.read s).take i ++ xs ++ (m.read s).drop j) := by
  have h1 := hs.len
  have hrl := read_length hs
  unfold replaceS
  by_cases h : i = j
  · rw [if_pos h, ← h]; exact eff_insert E g hs ho hl i (by omega) xs
  · rw [if_neg h]
    by_cases h2 : j = s.len
    · rw [if_pos h2]
      have he := eff_append E g hs ho hl i (by omega) xs
      rw [sub_read hs i (by omega)] at he
      have hlen := append_len (m := m) (s := sub s 0 i) E g (some v) xs
      have hnil : (m.read s).drop j = [] := List.drop_of_length_le (by omega)
      rw [hnil, List.append_nil]
      simp only [sub, Nat.sub_zero] at hlen
      simp only
      split
      · next hlt =>
        have hr := append_room (m := m) (s := sub s 0 i) E g (o := some v) xs (by
          simp only [sub, Nat.sub_zero] at hlt ⊢; omega)
        have hc : (append E g (some v) m (sub s 0 i) xs).2.cap = s.cap := by rw [hr]; simp [sub]
        have ha : (append E g (some v) m (sub s 0 i) xs).2.a = s.a := by rw [hr]; simp [sub]
        have hof : (append E g (some v) m (sub s 0 i) xs).2.off = s.off := by rw [hr]; simp [sub]
        generalize append E g (some v) m (sub s 0 i) xs = r at he hlen hc ha hof hlt
        have := eff_clear E he.wf he.mine he.lt s.len (by omega) (by omega)
        rw [he.read] at this
        have hcl : clearS E r.1 s r.2.len s.len = clearS E r.1 r.2 r.2.len s.len := by
          simp only [clearS, ha, hof]
        rw [hcl]
        exact he.trans this
      · exact he
    · rw [if_neg h2]
      simp only
      have htl : ((m.read s).drop j).length = s.len - j := by rw [List.length_drop, hrl]
      by_cases h3 : s.cap < i + xs.length + ((m.read s).drop j).length
      · rw [if_pos h3]
        exact eff_rebuild E g hs ho hl i (by omega) xs _ _ (by omega)
      · rw [if_neg h3]
        have hc : ∀ k, (m.arr s.a)[s.off + k]? = if k < s.len then (m.read s)[k]? else (m.arr s.a)[s.off + k]? := by
          intro k; rw [read_get]; by_cases h : k < s.len <;> simp [h]
        by_cases h4 : i + xs.length ≤ j
        · rw [if_pos h4]
          have e1 := eff_write_any hs ho hl i xs (by omega) (s' := s) rfl rfl (Nat.le_refl _) h1
          have e2 := eff_write_any e1.wf e1.mine e1.lt (i + xs.length) ((m.read s).drop j) (by omega)
            (s' := { s with len := i + xs.length + ((m.read s).drop j).length }) rfl rfl (Nat.le_refl _) (by simp only; omega)
          have e12 : Eff v m s _ _ ((m.read s).take i ++ xs ++ (m.read s).drop j) := (e1.trans e2).cast (by
            apply List.ext_getElem?
            intro k
            rw [read_get]
            simp only
            rw [write_cell e1.wf (i + xs.length) ((m.read s).drop j) (by omega), write_cell hs i xs (by omega), hc]
            grind)
          rw [← Nat.add_assoc] at e12
          have e3 := eff_clear E e12.wf e12.mine e12.lt s.len (by simp only; omega) (by simp only; omega)
          rw [e12.read] at e3
          exact e12.trans e3
        · rw [if_neg h4]
          have e1 := eff_write_any hs ho hl (i + xs.length) ((m.read s).drop j) (by omega)
            (s' := { s with len := i + xs.length + ((m.read s).drop j).length }) rfl rfl (Nat.le_refl _) (by simp only; omega)
          have e2 := eff_write_any e1.wf e1.mine e1.lt i xs (by simp only; omega)
            (s' := { s with len := i + xs.length + ((m.read s).drop j).length }) rfl rfl (Nat.le_refl _) (by simp only; omega)
          have w2 := fun k => write_cell e1.wf i xs (by simp only; omega) k
          simp only at w2
          have e12 := (e1.trans e2).cast (l' := (m.read s).take i ++ xs ++ (m.read s).drop j) (by
            apply List.ext_getElem?
            intro k
            rw [read_get]
            simp only
            rw [w2, write_cell hs (i + xs.length) ((m.read s).drop j) (by omega), hc]
            grind)
          rw [← Nat.add_assoc] at e12
          exact e12

/-! ## `CompactFunc` -/

theorem compactLoop_spec (eq : T → T → Bool) : ∀ (n : Nat) (s kept rest : List T) (prev : T) (i k : Nat),
    s.length = k + n → 1 ≤ i → i ≤ k → s.take i = kept → s.drop (k - 1) = prev :: rest →
    ∃ s', compactLoop eq n s i k = (s', (kept ++ dedup.go eq prev rest).length) ∧ s'.length = s.length ∧
      s'.take (kept ++ dedup.go eq prev rest).length = kept ++ dedup.go eq prev rest := by
  intro n
  induction n with
  | zero =>
    intro s kept rest prev i k hlen h1 hik hk hd
    have : rest = [] := by
      have := congrArg List.length hd
      simp only [List.length_drop, List.length_cons] at this
      exact List.length_eq_zero_iff.1 (by omega)
    subst this
    have hkl : kept.length = i := by rw [← hk, List.length_take]; omega
    refine ⟨s, ?_, rfl, ?_⟩
    · simp [compactLoop, dedup.go, hkl]
    · simp [dedup.go, hkl, hk]
  | succ n ih =>
    intro s kept rest prev i k hlen h1 hik hk hd
    have hkl : kept.length = i := by rw [← hk, List.length_take]; omega
    cases rest with
    | nil =>
      have := congrArg List.length hd
      simp only [List.length_drop, List.length_cons, List.length_nil] at this
      omega
    | cons x rest =>
      have hx : s[k]? = some x := by
        have := congrArg (fun l => l[1]?) hd
        simp only [List.getElem?_drop] at this
        rw [show k - 1 + 1 = k by omega] at this
        simpa using this
      have hy : s[k - 1]? = some prev := by
        have := congrArg (fun l => l[0]?) hd
        simp only [List.getElem?_drop] at this
        simpa using this
      have hd' : s.drop (k + 1 - 1) = x :: rest := by
        have := congrArg (List.drop 1) hd
        rw [List.drop_drop, show k - 1 + 1 = k + 1 - 1 by omega] at this
        simpa using this
      simp only [compactLoop, hx, hy, dedup.go]
      by_cases he : eq x prev
      · rw [if_pos he, if_pos he]
        exact ih s kept rest x i (k + 1) (by omega) h1 (by omega) hk hd'
      · rw [if_neg he, if_neg he]
        have := ih (if i = k then s else s.set i x) (kept ++ [x]) rest x (i + 1) (k + 1)
          (by split <;> (try rw [List.length_set]) <;> omega) (by omega) (by omega)
          (by
            by_cases e : i = k
            · rw [if_pos e, List.take_add_one, hk, e, hx]; rfl
            · rw [if_neg e, List.take_add_one, List.take_set_of_le (Nat.le_refl _), hk,
                List.getElem?_set_self (by omega)]; rfl)
          (by
            by_cases e : i = k
            · rw [if_pos e]; exact hd'
            · rw [if_neg e, List.drop_set_of_lt (by omega)]; exact hd')
        obtain ⟨s', h3, h4, h5⟩ := this
        refine ⟨s', ?_, ?_, ?_⟩
        · rw [h3]; simp
        · rw [h4]; split <;> simp
        · simpa using h5

theorem dedup_length_le (eq : T → T → Bool) (prev : T) (l : List T) : (dedup.go eq prev l).length ≤ l.length := by
  induction l generalizing prev with
  | nil => simp [dedup.go]
  | cons x l ih =>
    simp only [dedup.go]
    split
    · have := ih x; simp; omega
    · have := ih x; simp; omega

theorem eff_compact (hs : WF m s) (ho : m.own s.a = some v) (hl : s.a < m.na) (eq : T → T → Bool) :
    Eff v m s (compactS E m s eq).1 (compactS E m s eq).2 (dedup eq (m.read s)) := by
  have h1 := hs.len
  have hrl := read_length hs
  unfold compactS
  by_cases h : s.len < 2
  · rw [if_pos h]
    refine (eff_same hs ho hl).cast ?_
    match hr : m.read s with
    | [] => rfl
    | [x] => simp [dedup, dedup.go]
    | x :: y :: l => rw [hr] at hrl; simp at hrl; omega
  · rw [if_neg h]
    simp only
    cases hr : m.read s with
    | nil => rw [hr] at hrl; simp at hrl; omega
    | cons x rest =>
      rw [hr] at hrl
      simp only [List.length_cons] at hrl
      obtain ⟨s', h2, h3, h4⟩ := compactLoop_spec eq (s.len - 1) (x :: rest) [x] rest x 1 1
        (by simp; omega) (Nat.le_refl _) (Nat.le_refl _) rfl rfl
      have hd : [x] ++ dedup.go eq x rest = dedup eq (x :: rest) := rfl
      rw [hd] at h2 h4
      rw [h2]
      simp only
      have hle : (dedup eq (x :: rest)).length ≤ s.len := by
        have := dedup_length_le eq x rest
        simp only [dedup, List.length_cons]; omega
      have e1 := eff_all hs ho hl s' (by rw [h3]; simp; omega)
      have e2 := eff_id e1.wf e1.mine e1.lt (s' := { s with len := (dedup eq (x :: rest)).length }) rfl rfl
        (Nat.le_refl _) (by simp only; omega) hle
      rw [e1.read] at e2
      have e12 := (e1.trans e2).cast (l' := dedup eq (x :: rest)) h4
      have e3 := eff_clear E e12.wf e12.mine e12.lt s.len (by simp only; omega) hle
      rw [e12.read] at e3
      exact e12.trans e3

/-! ## `Reverse` -/

theorem swapL_length (l : List T) (i j : Nat) : (swapL l i j).length = l.length := by
  unfold swapL; split <;> simp

theorem swapL_get (l : List T) (i j : Nat) (hi : i < l.length) (hj : j < l.length) (k : Nat) :
    (swapL l i j)[k]? = if k = j then l[i]? else if k = i then l[j]? else l[k]? := by
  unfold swapL
  rw [List.getElem?_eq_getElem hi, List.getElem?_eq_getElem hj]
  simp only [List.getElem?_set]
  grind

theorem revLoop_spec : ∀ (n : Nat) (l : List T) (i j : Nat), j < l.length → i ≤ j + 1 → j ≤ i + n →
    (revLoop n l i j).length = l.length ∧
    ∀ k, (revLoop n l i j)[k]? = if i ≤ k ∧ k ≤ j then l[i + j - k]? else l[k]? := by
  intro n
  induction n with
  | zero =>
    intro l i j hj hi hn
    refine ⟨rfl, fun k => ?_⟩
    simp only [revLoop]
    split
    · congr 1; omega
    · rfl
  | succ n ih =>
    intro l i j hj hi hn
    simp only [revLoop]
    by_cases h : i < j
    · rw [if_pos h]
      obtain ⟨h1, h2⟩ := ih (swapL l i j) (i + 1) (j - 1) (by rw [swapL_length]; omega) (by omega) (by omega)
      refine ⟨by rw [h1, swapL_length], fun k => ?_⟩
      rw [h2]
      split
      · rw [swapL_get l i j (by omega) hj, if_neg (by omega), if_neg (by omega), if_pos (by omega)]
        congr 1; omega
      · rw [swapL_get l i j (by omega) hj]
        by_cases e1 : k = j
        · rw [if_pos e1, if_pos (by omega)]; congr 1; omega
        · rw [if_neg e1]
          by_cases e2 : k = i
          · rw [if_pos e2, if_pos (by omega)]; congr 1; omega
          · rw [if_neg e2, if_neg (by omega)]
    · rw [if_neg h]
      refine ⟨rfl, fun k => ?_⟩
      split
      · congr 1; omega
      · rfl

theorem eff_reverse (hs : WF m s) (ho : m.own s.a = some v) (hl : s.a < m.na) :
    Eff v m s (reverseS m s) s (m.read s).reverse := by
  have hrl := read_length hs
  unfold reverseS
  by_cases h0 : s.len = 0
  · have hnil : m.read s = [] := List.length_eq_zero_iff.1 (by omega)
    rw [h0, hnil]
    exact eff_all hs ho hl [] (by simp [h0])
  · obtain ⟨h1, h2⟩ := revLoop_spec s.len (m.read s) 0 (s.len - 1) (by omega) (by omega) (by omega)
    refine (eff_all hs ho hl _ (by rw [h1, hrl])).cast ?_
    apply List.ext_getElem?
    intro k
    rw [h2]
    by_cases hk : k < s.len
    · rw [if_pos (by omega), List.getElem?_reverse (by omega), hrl]; congr 1; omega
    · rw [if_neg (by omega), List.getElem?_eq_none (by omega), List.getElem?_eq_none (by simp; omega)]

end Verif.Vec
