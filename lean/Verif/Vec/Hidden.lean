import Verif.Vec.More
/-!
# What a `Vec` keeps beyond its length (C150), and its capacity (C151)

`v.Slice()[:v.Cap()]` shows the whole part of the array that belongs to the vector.
-/
namespace Verif.Vec
variable {T : Type}

/-- `s[:cap(s)]`. -/
def Mem.room (m : Mem T) (s : Slice) : List T := m.read (sub s 0 s.cap)

/-- `v.Slice()[:v.Cap()]`: vec.go:252-254, 158-160. -/
def VMem.room (m : VMem T) (v : Nat) : List T := m.mem.room (m.d v)

/-! ## Specification: the elements beyond the length -/

/-- What is beyond the length after `n` elements were added, `z` the excess capacity if there is a new array. -/
def pushed (E : Elt T) (z n : Nat) (h : List T) : List T := if n ≤ h.length then h.drop n else List.replicate z E.zero

/-- What is beyond the length after room for `n` elements was made. -/
def grown (E : Elt T) (z n : Nat) (h : List T) : List T :=
  if n ≤ h.length then h else h ++ List.replicate (n - h.length + z) E.zero

def hput (hs : Nat → List T) (v : Nat) (h : List T) : Nat → List T := fun w => if w = v then h else hs w

/-- What is beyond the lengths after a call; `s` are the vectors, `hs` what is beyond their lengths before the call, and `z` is the excess capacity, if the
call makes a new array. -/
def hspec (E : Elt T) (z : Nat) (s : SState T) (hs : Nat → List T) : Mut T → Nat → List T
  | .new _ _ => hput hs s.n []
  | .push v xs => hput hs v (pushed E z xs.length (hs v))
  | .pop v => hput hs v ((s.l v).drop ((s.l v).length - 1) ++ hs v)
  | .remove v i => if inR i (s.l v).length then hput hs v ((s.l v).drop ((s.l v).length - 1) ++ hs v) else hs
  | .compareAndRemove v i x =>
    if inR i (s.l v).length ∧ ∃ eq, s.eqOf E v = some eq ∧ ∃ y, (s.l v)[i.toNat]? = some y ∧ eq y x = true then
      hput hs v ((s.l v).drop ((s.l v).length - 1) ++ hs v)
    else hs
  | .clear v => hput hs v (s.l v ++ hs v)
  | .cut v i j => if span i j (s.l v).length then hput hs v ((s.l v).drop ((s.l v).length - (j - i).toNat) ++ hs v) else hs
  | .splitOff v i =>
    if span i (s.l v).length (s.l v).length then
      hput (hput hs v ((s.l v).drop i.toNat ++ hs v)) s.n (pushed E z ((s.l v).length - i.toNat) [])
    else hput hs s.n []
  | .clone v => hput hs s.n (pushed E z (s.l v).length [])
  | .grow v n => hput hs v (grown E z n.toNat (hs v))
  | .clip v => hput hs v []
  | .compact v => match s.eqOf E v with
    | some eq => hput hs v (List.replicate ((s.l v).length - (dedup eq (s.l v)).length) E.zero ++ hs v)
    | none => hs
  | .compactFunc v eq => hput hs v (List.replicate ((s.l v).length - (dedup eq (s.l v)).length) E.zero ++ hs v)
  | .delete v i j => hput hs v (List.replicate (j - i).toNat E.zero ++ hs v)
  | .insert v _ xs => hput hs v (pushed E z xs.length (hs v))
  | .replace v i j xs =>
    if xs.length ≤ (j - i).toNat then hput hs v (List.replicate ((j - i).toNat - xs.length) E.zero ++ hs v)
    else hput hs v (pushed E z (xs.length - (j - i).toNat) (hs v))
  | .set _ _ _ | .swap _ _ _ | .reverse _ | .sort _ | .sortFunc _ _ _ | .sortStable _ | .sortStableFunc _ _ _ | .setCmpLess _ _ | .setCmpEqual _ _ => hs

/-! ## The slice functions -/

section
variable {m : Mem T} {s : Slice} (E : Elt T) (g : Nat → Nat)

theorem room_get (k : Nat) : (m.room s)[k]? = if k < s.cap then (m.arr s.a)[s.off + k]? else none := by
  rw [Mem.room, read_get]; rfl

theorem room_length (hs : WF m s) : (m.room s).length = s.cap := by
  have := hs.cap
  simp only [Mem.room, Mem.read, sub, List.length_take, List.length_drop]; omega

theorem read_room (hs : WF m s) : m.read s = (m.room s).take s.len := by
  have := hs.len
  apply List.ext_getElem?; intro k
  rw [read_get, List.getElem?_take, room_get]
  by_cases h : k < s.len
  · simp [h, show k < s.cap by omega]
  · simp [h]

theorem room_write (hs : WF m s) (p : Nat) (xs : List T) (hp : p + xs.length ≤ s.cap) :
    (m.write s.a (s.off + p) xs).room s = (m.room s).take p ++ xs ++ (m.room s).drop (p + xs.length) := by
  have hl := room_length hs
  apply List.ext_getElem?; intro k
  rw [room_get, write_cell hs p xs hp]
  simp only [List.getElem?_append, List.getElem?_take, List.getElem?_drop, room_get, List.length_append, List.length_take, hl]
  grind

theorem WF.write' (hs : WF m s) (p : Nat) (xs : List T) (hp : p + xs.length ≤ s.cap) : WF (m.write s.a (s.off + p) xs) s := by
  have := hs.cap
  exact hs.write (by omega)

theorem WF.len' (hs : WF m s) {n : Nat} (hn : n ≤ s.cap) : WF m { s with len := n } := ⟨hn, hs.cap⟩

variable {l h : List T}

/-- `append(s[:i], xs...)`. -/
theorem room_append (hs : WF m s) (hr : m.room s = l ++ h) (i : Nat) (hi : i ≤ s.cap) (xs : List T) :
    ∃ z, (append E g o m (sub s 0 i) xs).1.room (append E g o m (sub s 0 i) xs).2 =
      (l ++ h).take i ++ xs ++ if i + xs.length ≤ s.cap then (l ++ h).drop (i + xs.length) else List.replicate z E.zero := by
  have hl := room_length hs
  refine ⟨g m.na, ?_⟩
  unfold append
  by_cases hf : (sub s 0 i).len + xs.length ≤ (sub s 0 i).cap
  · rw [if_pos hf]
    simp only [sub, Nat.sub_zero, Nat.add_zero] at hf ⊢
    rw [if_pos hf, ← hr]
    exact room_write hs i xs hf
  · rw [if_neg hf]
    have hw : WF m (sub s 0 i) := ⟨by simp [sub, hi], by simpa [sub] using hs.cap⟩
    have hrd : m.read (sub s 0 i) = (l ++ h).take i := by
      rw [read_room hw, ← hr]; rfl
    rw [hrd]
    simp only [sub, Nat.sub_zero, Nat.add_zero] at hf ⊢
    rw [if_neg hf]
    have hll : ((l ++ h).take i).length = i := by rw [List.length_take, ← hr, hl]; omega
    simp only [Mem.room, Mem.read, sub, Mem.alloc, if_true, List.drop_zero, Nat.add_zero]
    rw [List.take_of_length_le]
    simp only [List.length_append, hll, List.length_replicate]; omega


theorem room_hid (hs : WF m s) (hr : m.room s = l ++ h) (hl : l.length = s.len) : h.length = s.cap - s.len ∧ m.read s = l := by
  have := room_length hs
  rw [hr, List.length_append] at this
  refine ⟨by omega, ?_⟩
  rw [read_room hs, hr, List.take_append_of_le_length (by omega), List.take_of_length_le (by omega)]

theorem drop_room {n : Nat} (hn : l.length ≤ n) : (l ++ h).drop n = h.drop (n - l.length) := by
  rw [List.drop_append, List.drop_of_length_le hn, List.nil_append]

theorem room_grow (hs : WF m s) (hr : m.room s = l ++ h) (hl : l.length = s.len) (n : Nat) :
    ∃ z, (growS E g o m s n).1.room (growS E g o m s n).2 = l ++ grown E z n h := by
  have hc := hs.len
  obtain ⟨hh, _⟩ := room_hid hs hr hl
  have hll : (l ++ h).length = s.cap := by rw [List.length_append]; omega
  unfold growS
  by_cases hn : 0 < n - (s.cap - s.len)
  · rw [if_pos hn]
    obtain ⟨z, hz⟩ := room_append (o := o) E g hs hr s.cap (Nat.le_refl _) (List.replicate (n - (s.cap - s.len)) E.zero)
    refine ⟨z, Eq.trans (by rfl) (hz.trans ?_)⟩
    rw [if_neg (by rw [List.length_replicate]; omega), List.take_of_length_le (by omega), grown, if_neg (by omega), hh]
    simp only [List.append_assoc, List.replicate_append_replicate]
  · rw [if_neg hn]
    exact ⟨0, by rw [grown, if_pos (by omega)]; exact hr⟩

theorem room_push (hs : WF m s) (hr : m.room s = l ++ h) (hl : l.length = s.len) (xs : List T) :
    ∃ z, (append E g o m s xs).1.room (append E g o m s xs).2 = l ++ xs ++ pushed E z xs.length h := by
  have hc := hs.len
  obtain ⟨hh, _⟩ := room_hid hs hr hl
  obtain ⟨z, hz⟩ := room_append (o := o) E g hs hr s.len hc xs
  refine ⟨z, hz.trans ?_⟩
  rw [List.take_append_of_le_length (by omega), List.take_of_length_le (by omega), pushed, ← hl]
  congr 1
  by_cases hx : l.length + xs.length ≤ s.cap
  · rw [if_pos hx, if_pos (by omega), List.drop_append]
    rw [List.drop_of_length_le (by omega)]; simp
  · rw [if_neg hx, if_neg (by omega)]

theorem room_rebuild (hs : WF m s) (hr : m.room s = l ++ h) (hl : l.length = s.len) (i : Nat) (hi : i ≤ s.len) (xs tail : List T) (n : Nat)
    (hn : n = xs.length + tail.length) (hf : s.cap < i + n) (ho : m.own s.a = some v) (hlt : s.a < m.na) :
    ∃ z, (((append E g (some v) m (sub s 0 i) (List.replicate n E.zero)).1.write
        (append E g (some v) m (sub s 0 i) (List.replicate n E.zero)).2.a
        ((append E g (some v) m (sub s 0 i) (List.replicate n E.zero)).2.off + i) xs).write
        (append E g (some v) m (sub s 0 i) (List.replicate n E.zero)).2.a
        ((append E g (some v) m (sub s 0 i) (List.replicate n E.zero)).2.off + i + xs.length) tail).room
      (append E g (some v) m (sub s 0 i) (List.replicate n E.zero)).2 = l.take i ++ xs ++ tail ++ List.replicate z E.zero := by
  have hc := hs.len
  obtain ⟨z, hz⟩ := room_append (o := some v) E g hs hr i (by omega) (List.replicate n E.zero)
  have he := eff_append E g hs ho hlt i (by omega) (List.replicate n E.zero)
  have hlen := append_len (m := m) (s := sub s 0 i) E g (some v) (List.replicate n E.zero)
  refine ⟨z, ?_⟩
  generalize append E g (some v) m (sub s 0 i) (List.replicate n E.zero) = r at he hlen hz
  simp only [sub, Nat.sub_zero, List.length_replicate] at hlen
  have hw := he.wf.len
  rw [List.length_replicate, if_neg (by omega), List.take_append_of_le_length (by omega)] at hz
  have hrl := room_length he.wf
  have h1 := room_write he.wf i xs (by omega)
  have w1 := he.wf.write' i xs (by omega)
  have h2 := room_write w1 (i + xs.length) tail (by omega)
  rw [← Nat.add_assoc] at h2
  refine h2.trans ?_
  rw [h1, hz]
  have hti : (l.take i).length = i := by rw [List.length_take]; omega
  apply List.ext_getElem?; intro k
  simp only [List.getElem?_append, List.getElem?_take, List.getElem?_drop, List.length_append, List.length_take, List.length_replicate,
    List.getElem?_replicate, List.length_drop]
  grind

theorem room_insert (hs : WF m s) (hr : m.room s = l ++ h) (hl : l.length = s.len) (ho : m.own s.a = some v) (hlt : s.a < m.na) (i : Nat) (hi : i ≤ s.len)
    (xs : List T) : ∃ z, (insertS E g (some v) m s i xs).1.room (insertS E g (some v) m s i xs).2 = l.take i ++ xs ++ l.drop i ++ pushed E z xs.length h := by
  have hc := hs.len
  obtain ⟨hh, hrd⟩ := room_hid hs hr hl
  unfold insertS
  by_cases h0 : xs.length = 0
  · rw [if_pos h0]
    refine ⟨0, ?_⟩
    rw [List.length_eq_zero_iff.1 h0]; simp [pushed, hr]
  · rw [if_neg h0]
    by_cases h2 : i = s.len
    · rw [if_pos h2]
      obtain ⟨z, hz⟩ := room_push (o := some v) E g hs hr hl xs
      refine ⟨z, hz.trans ?_⟩
      rw [List.take_of_length_le (by omega), List.drop_of_length_le (by omega)]; simp
    · rw [if_neg h2]
      by_cases h3 : s.cap < s.len + xs.length
      · rw [if_pos h3, hrd]
        obtain ⟨z, hz⟩ := room_rebuild E g hs hr hl i hi xs (l.drop i) (s.len + xs.length - i) (by rw [List.length_drop]; omega) (by omega) ho hlt
        refine ⟨z, hz.trans ?_⟩
        rw [pushed, if_neg (by omega)]
      · rw [if_neg h3]
        simp only [hrd]
        have hdl : (l.drop i).length = s.len - i := by rw [List.length_drop]; omega
        have h4 := room_write hs (i + xs.length) (l.drop i) (by omega)
        have w4 := hs.write' (i + xs.length) (l.drop i) (by omega)
        have h5 := room_write w4 i xs (by omega)
        rw [← Nat.add_assoc] at h4 h5
        refine ⟨0, Eq.trans (by rfl) (h5.trans ?_)⟩
        rw [h4, hr, pushed, if_pos (by omega)]
        have hA : ((l ++ h).take (i + xs.length)).length = i + xs.length := by rw [List.length_take, List.length_append]; omega
        rw [List.append_assoc ((l ++ h).take (i + xs.length)), List.take_append_of_le_length (by omega), List.take_take, Nat.min_eq_left (by omega),
          List.take_append_of_le_length (by omega), List.drop_left' hA, drop_room (by omega), show i + xs.length + (l.drop i).length - l.length = xs.length by omega]
        simp

/-- `A` has been stored in front; then the rest of the elements is cleared. -/
theorem room_clear (hs : WF m s) (hl : l.length = s.len) {A : List T} (hr : m.room s = A ++ (l ++ h).drop A.length) (hA : A.length ≤ s.len) (n : Nat)
    (hn : n = A.length) : (clearS E m s n s.len).room s = A ++ (List.replicate (s.len - A.length) E.zero ++ h) := by
  subst hn
  have hc := hs.len
  unfold clearS
  rw [room_write hs _ _ (by rw [List.length_replicate]; omega), hr, List.length_replicate, List.take_left, List.append_assoc]
  congr 2
  rw [List.drop_append, List.drop_of_length_le (by omega), List.nil_append, List.drop_drop, drop_room (by omega), show A.length + (A.length + (s.len - A.length) - A.length) - l.length = 0 by omega, List.drop_zero]

theorem room_store (hs : WF m s) (hr : m.room s = l ++ h) (i : Nat) (hi : i ≤ l.length) (xs : List T) (hx : i + xs.length ≤ s.cap) :
    (m.write s.a (s.off + i) xs).room s = (l.take i ++ xs) ++ (l ++ h).drop (l.take i ++ xs).length := by
  rw [room_write hs i xs hx, hr, List.take_append_of_le_length hi, List.length_append, List.length_take, Nat.min_eq_left hi]

theorem room_store2 (hs : WF m s) {A R : List T} (hr : m.room s = A ++ R.drop A.length) (ys : List T) (n : Nat) (hn : n = A.length) (hx : n + ys.length ≤ s.cap) :
    (m.write s.a (s.off + n) ys).room s = (A ++ ys) ++ R.drop (A ++ ys).length := by
  subst hn
  rw [room_write hs _ ys hx, hr, List.take_left, List.drop_append, List.drop_of_length_le (by omega), List.nil_append, List.drop_drop, List.length_append]
  congr 2; omega

theorem room_delete (hs : WF m s) (hr : m.room s = l ++ h) (hl : l.length = s.len) (i j : Nat) (hij : i ≤ j)
    (hj : j ≤ s.len) : (deleteS E g o m s i j).1.room (deleteS E g o m s i j).2 = l.take i ++ l.drop j ++ (List.replicate (j - i) E.zero ++ h) := by
  have hc := hs.len
  obtain ⟨hh, hrd⟩ := room_hid hs hr hl
  unfold deleteS
  by_cases h' : i = j
  · rw [if_pos h', h']; simp [hr]
  · rw [if_neg h']
    simp only [hrd]
    have hdl : (l.drop j).length = s.len - j := by rw [List.length_drop]; omega
    have hA : (l.take i ++ l.drop j).length = i + (l.drop j).length := by rw [List.length_append, List.length_take]; omega
    rw [append_room (m := m) (s := sub s 0 i) E g (o := o) (l.drop j) (by simp [sub]; omega)]
    have h2 := room_clear E (hs.write' i (l.drop j) (by omega)) hl (room_store hs hr i (by omega) (l.drop j) (by omega)) (by omega) (i + (l.drop j).length) hA.symm
    refine Eq.trans (by rfl) (h2.trans ?_)
    rw [hA, show s.len - (i + (l.drop j).length) = j - i by omega]

theorem room_replace (hs : WF m s) (hr : m.room s = l ++ h) (hl : l.length = s.len) (ho : m.own s.a = some v) (hlt : s.a < m.na) (i j : Nat) (hij : i ≤ j)
    (hj : j ≤ s.len) (xs : List T) : ∃ z, (replaceS E g (some v) m s i j xs).1.room (replaceS E g (some v) m s i j xs).2 =
      l.take i ++ xs ++ l.drop j ++ if xs.length ≤ j - i then List.replicate (j - i - xs.length) E.zero ++ h else pushed E z (xs.length - (j - i)) h := by
  have hc := hs.len
  obtain ⟨hh, hrd⟩ := room_hid hs hr hl
  have hdl : (l.drop j).length = s.len - j := by rw [List.length_drop]; omega
  have hti : (l.take i).length = i := by rw [List.length_take]; omega
  have hA : (l.take i ++ xs).length = i + xs.length := by rw [List.length_append, hti]
  unfold replaceS
  by_cases h' : i = j
  · rw [if_pos h', ← h']
    obtain ⟨z, hz⟩ := room_insert E g hs hr hl ho hlt i (by omega) xs
    refine ⟨z, hz.trans ?_⟩
    congr 1
    by_cases hx : xs.length ≤ i - i
    · rw [if_pos hx, List.length_eq_zero_iff.1 (show xs.length = 0 by omega)]; simp [pushed]
    · rw [if_neg hx]; simp
  · rw [if_neg h']
    by_cases h2 : j = s.len
    · rw [if_pos h2]
      have hnil : l.drop j = [] := List.drop_of_length_le (by omega)
      rw [hnil, List.append_nil]
      by_cases hf : i + xs.length ≤ s.cap
      · refine ⟨0, ?_⟩
        have hst := room_store hs hr i (by omega) xs hf
        rw [append_room (m := m) (s := sub s 0 i) E g (o := some v) xs (by simpa [sub] using hf)]
        simp only [sub, Nat.sub_zero, Nat.add_zero]
        by_cases hx : i + xs.length < s.len
        · simp only [hx, ↓reduceIte]
          rw [if_pos (by omega)]
          have h2 := room_clear E (hs.write' i xs hf) hl hst (by omega) (i + xs.length) hA.symm
          refine Eq.trans (by rfl) (h2.trans ?_)
          rw [hA, show s.len - (i + xs.length) = j - i - xs.length by omega]
        · simp only [hx, ↓reduceIte]
          refine Eq.trans (by rfl) (hst.trans ?_)
          rw [hA, drop_room (by omega)]
          congr 1
          by_cases hx' : xs.length ≤ j - i
          · rw [if_pos hx', show i + xs.length - l.length = 0 by omega, show j - i - xs.length = 0 by omega]; simp
          · rw [if_neg hx', pushed, if_pos (by omega)]; congr 1; omega
      · obtain ⟨z, hz⟩ := room_append (o := some v) E g hs hr i (by omega) xs
        have hlen := append_len (m := m) (s := sub s 0 i) E g (some v) xs
        have hsl : (sub s 0 i).len = i := by simp [sub]
        rw [List.take_append_of_le_length (by omega), if_neg hf] at hz
        refine ⟨z, ?_⟩
        simp only
        rw [if_neg (by omega), hz, if_neg (by omega), pushed, if_neg (by omega)]
    · rw [if_neg h2]
      simp only [hrd]
      by_cases h3 : s.cap < i + xs.length + (l.drop j).length
      · rw [if_pos h3]
        obtain ⟨z, hz⟩ := room_rebuild E g hs hr hl i (by omega) xs (l.drop j) (i + xs.length + (l.drop j).length - i) (by omega) (by omega) ho hlt
        refine ⟨z, hz.trans ?_⟩
        rw [if_neg (by omega), pushed, if_neg (by omega)]
      · rw [if_neg h3]
        have hB : (l.take i ++ xs ++ l.drop j).length = i + xs.length + (l.drop j).length := by rw [List.length_append, hA]
        refine ⟨0, ?_⟩
        by_cases h4 : i + xs.length ≤ j
        · rw [if_pos h4, if_pos (by omega)]
          have hst := room_store hs hr i (by omega) xs (by omega)
          have w1 := hs.write' i xs (by omega)
          have hst2 := room_store2 w1 hst (l.drop j) (i + xs.length) hA.symm (by omega)
          have h5 := room_clear E (w1.write' (i + xs.length) (l.drop j) (by omega)) hl hst2 (by omega) _ hB.symm
          rw [← Nat.add_assoc] at h5
          refine Eq.trans (by rfl) (h5.trans ?_)
          rw [hB, show s.len - (i + xs.length + (l.drop j).length) = j - i - xs.length by omega]
        · rw [if_neg h4, if_neg (by omega)]
          have hst := room_write hs (i + xs.length) (l.drop j) (by omega)
          have w1 := hs.write' (i + xs.length) (l.drop j) (by omega)
          have hst2 := room_write w1 i xs (by omega)
          rw [← Nat.add_assoc] at hst hst2
          refine Eq.trans (by rfl) (hst2.trans ?_)
          have hC : ((l ++ h).take (i + xs.length)).length = i + xs.length := by rw [List.length_take, List.length_append]; omega
          rw [hst, hr, List.append_assoc ((l ++ h).take (i + xs.length)), List.take_append_of_le_length (by omega), List.take_take, Nat.min_eq_left (by omega),
            List.take_append_of_le_length (by omega), List.drop_left' hC, drop_room (by omega), pushed, if_pos (by omega),
            show i + xs.length + (l.drop j).length - l.length = xs.length - (j - i) by omega]
          simp

theorem room_compact (hs : WF m s) (hr : m.room s = l ++ h) (hl : l.length = s.len) (eq : T → T → Bool) :
    (compactS E m s eq).1.room (compactS E m s eq).2 = dedup eq l ++ (List.replicate (l.length - (dedup eq l).length) E.zero ++ h) := by
  have hc := hs.len
  obtain ⟨hh, hrd⟩ := room_hid hs hr hl
  unfold compactS
  by_cases h' : s.len < 2
  · rw [if_pos h']
    match l with
    | [] => simp [hr, dedup]
    | [x] => simp [hr, dedup, dedup.go]
    | x :: y :: l => simp at hl; omega
  · rw [if_neg h']
    simp only [hrd]
    cases l with
    | nil => simp at hl; omega
    | cons x rest =>
      simp only [List.length_cons] at hl
      obtain ⟨s', h2, h3, h4⟩ := compactLoop_spec eq (s.len - 1) (x :: rest) [x] rest x 1 1
        (by simp; omega) (Nat.le_refl _) (Nat.le_refl _) rfl rfl
      rw [show [x] ++ dedup.go eq x rest = dedup eq (x :: rest) from rfl] at h2 h4
      rw [h2]
      simp only
      have hle : (dedup eq (x :: rest)).length ≤ s.len := by
        have := dedup_length_le eq x rest
        simp only [dedup, List.length_cons]; omega
      have hs' : s'.length = s.len := by rw [h3]; simp; omega
      have h5 := room_write hs 0 s' (by omega)
      have w5 := hs.write' 0 s' (by omega)
      rw [hr, Nat.add_zero] at h5
      rw [Nat.add_zero] at w5
      have h6 := room_write w5 (dedup eq (x :: rest)).length (List.replicate (s.len - (dedup eq (x :: rest)).length) E.zero) (by rw [List.length_replicate]; omega)
      refine Eq.trans (by rfl) (h6.trans ?_)
      rw [h5, List.length_replicate, List.take_zero, List.nil_append, List.take_append_of_le_length (by omega), h4, drop_room (by omega), drop_room (by simp; omega),
        List.drop_drop, show (x :: rest).length = s.len by simp; omega, List.append_assoc]
      congr 2
      rw [show 0 + s'.length - s.len + ((dedup eq (x :: rest)).length + (s.len - (dedup eq (x :: rest)).length) - s'.length) = 0 by omega]
      rfl

theorem room_inside (hs : WF m s) (p : Nat) (xs : List T) (hp : p + xs.length ≤ s.len) :
    ((m.write s.a (s.off + p) xs).room s).drop s.len = (m.room s).drop s.len := by
  have hc := hs.len
  have hl := room_length hs
  have hA : ((m.room s).take p ++ xs).length = p + xs.length := by rw [List.length_append, List.length_take]; omega
  rw [room_write hs p xs (by omega), drop_room (by omega), List.drop_drop, hA]
  congr 1; omega

theorem room_split {m' : Mem T} (hs : WF m s) (hr : m.room s = l ++ h) (hl : l.length = s.len) (hs' : WF m' s)
    (hd : (m'.room s).drop s.len = (m.room s).drop s.len) : m'.room s = m'.read s ++ h := by
  rw [read_room hs']
  have := List.take_append_drop s.len (m'.room s)
  rw [hd, hr, ← hl, List.drop_left, hl] at this
  exact this.symm

end

/-! ## Vectors -/

variable {E : Elt T} {g : Nat → Nat} {P : SortImpl T} {m : VMem T} {s : SState T} {hs : Nat → List T}

/-- The vectors are those of `s`, with `hs` beyond their lengths. -/
structure RelH (m : VMem T) (s : SState T) (hs : Nat → List T) : Prop where
  rel : Rel m s
  room : ∀ v, v < m.nv → m.room v = s.l v ++ hs v

theorem RelH.wf (h : RelH m s hs) {v : Nat} (hv : v < m.nv) : WF m.mem (m.d v) := (h.rel.wf v hv).1

theorem RelH.len (h : RelH m s hs) {v : Nat} (hv : v < m.nv) : (s.l v).length = (m.d v).len := (h.rel.len hv).symm

theorem RelH.setD (h : RelH m s hs) {v : Nat} (hv : v < m.nv) {r : Mem T × Slice} {l' h' : List T} (hrel : Rel (m.setD v r) (s.put v l'))
    (hf : ∀ a, a ≠ (m.d v).a → a < m.mem.na → r.1.arr a = m.mem.arr a) (hr : r.1.room r.2 = l' ++ h') :
    RelH (m.setD v r) (s.put v l') (hput hs v h') := by
  refine ⟨hrel, fun w hw => ?_⟩
  by_cases e : w = v
  · subst e
    simp only [VMem.room, setD_d, setD_mem, SState.put, hput, if_true]
    exact hr
  · have hd : (m.setD v r).d w = m.d w := by simp [VMem.setD, VMem.d, e]
    simp only [VMem.room, hd, setD_mem, SState.put, hput, if_neg e]
    refine Eq.trans ?_ (h.room w hw)
    obtain ⟨_, o1, l1⟩ := h.rel.wf w hw
    obtain ⟨_, o2, _⟩ := h.rel.wf v hv
    have hne : (m.d w).a ≠ (m.d v).a := by
      intro e'
      rw [e', o2] at o1
      injection o1 with o1
      exact e o1.symm
    simp only [VMem.room, Mem.room, Mem.read, sub, hf _ hne l1]

theorem RelH.eff (h : RelH m s hs) {v : Nat} (hv : v < m.nv) {r : Mem T × Slice} {l' h' : List T}
    (he : Eff v m.mem (m.d v) r.1 r.2 l') (hr : r.1.room r.2 = l' ++ h') : RelH (m.setD v r) (s.put v l') (hput hs v h') :=
  h.setD hv (h.rel.setD hv he) he.frame hr

theorem RelH.same (h : RelH m s hs) {v : Nat} (hv : v < m.nv) {r : Mem T × Slice} {h' : List T}
    (he : Eff v m.mem (m.d v) r.1 r.2 (m.mem.read (m.d v))) (hr : r.1.room r.2 = s.l v ++ h') : RelH (m.setD v r) s (hput hs v h') := by
  have e := h.rel.list v hv
  rw [show m.mem.read (m.d v) = s.l v from e] at he
  have := h.eff hv he hr
  rwa [put_self] at this

theorem hput_self (v : Nat) : hput hs v (hs v) = hs := by
  funext w; unfold hput; split
  · next e => rw [e]
  · rfl

/-- A call that writes within the length. -/
theorem RelH.inside (h : RelH m s hs) {v : Nat} (hv : v < m.nv) {m' : Mem T} {l' : List T} (hrel : Rel (m.setD v (m', m.d v)) (s.put v l'))
    (hf : ∀ a, a ≠ (m.d v).a → a < m.mem.na → m'.arr a = m.mem.arr a) (hd : (m'.room (m.d v)).drop (m.d v).len = (m.mem.room (m.d v)).drop (m.d v).len) :
    RelH (m.setD v (m', m.d v)) (s.put v l') hs := by
  have w' := (hrel.wf v hv).1
  rw [setD_d, setD_mem] at w'
  have hr := room_split (h.wf hv) (h.room v hv) (h.len hv) w' hd
  have hl := hrel.list v hv
  simp only [VMem.list, setD_d, setD_mem, SState.put, if_true] at hl
  rw [hl] at hr
  have := h.setD hv hrel hf hr
  rwa [hput_self] at this

theorem RelH.new (h : RelH m s hs) (less eq : Cmp T) : RelH (m.new less eq)
    { l := fun w => if w = s.n then [] else s.l w
      less := fun w => if w = s.n then less else s.less w
      eq := fun w => if w = s.n then eq else s.eq w
      n := s.n + 1 } (hput hs s.n []) := by
  have hn := h.rel.n
  refine ⟨h.rel.new less eq, fun w hw => ?_⟩
  simp only [VMem.new] at hw
  by_cases e : w = s.n
  · simp [VMem.room, Mem.room, VMem.new, VMem.d, hn, e, Mem.read, hput, sub]
  · have hlt : w < m.nv := by omega
    obtain ⟨_, _, l1⟩ := h.rel.wf w hlt
    simp only [VMem.room, VMem.new, VMem.d, hn, e, if_false, hput]
    rw [← h.room w hlt]
    simp only [VMem.room, Mem.room, Mem.read, sub, Mem.alloc, VMem.d] at l1 ⊢
    rw [if_neg (by omega)]

theorem RelH.push (h : RelH m s hs) {v : Nat} (hv : v < m.nv) (xs : List T) :
    ∃ z, RelH (push E g m v xs) (s.put v (s.l v ++ xs)) (hput hs v (pushed E z xs.length (hs v))) := by
  have key : ∀ (m : VMem T) (hs : Nat → List T), RelH m s hs → v < m.nv →
      ∃ z, RelH (m.setD v (append E g (some v) m.mem (m.d v) xs)) (s.put v (s.l v ++ xs)) (hput hs v (pushed E z xs.length (hs v))) := by
    intro m hs h hv
    obtain ⟨w1, o1, l1⟩ := h.rel.wf v hv
    have he := append_self E g w1 xs o1 l1
    rw [show m.mem.read (m.d v) = s.l v from h.rel.list v hv] at he
    obtain ⟨z, hz⟩ := room_push (o := some v) E g w1 (h.room v hv) (h.len hv) xs
    exact ⟨z, h.eff hv he hz⟩
  have hh := (room_hid (h.wf hv) (h.room v hv) (h.len hv)).1
  have hc := (h.wf hv).len
  have hml : m.len v = (m.d v).len := rfl
  unfold Vec.push
  simp only
  split
  · next hlt =>
    obtain ⟨w1, o1, l1⟩ := h.rel.wf v hv
    obtain ⟨z, hz⟩ := room_grow (o := some v) E g w1 (h.room v hv) (h.len hv) xs.length
    have h1 := h.same hv (eff_grow E g w1 o1 l1 xs.length).1 hz
    obtain ⟨z', h2⟩ := key _ _ h1 hv
    refine ⟨z, ?_⟩
    have e : hput (hput hs v (grown E z xs.length (hs v))) v (pushed E z' xs.length (hput hs v (grown E z xs.length (hs v)) v)) =
        hput hs v (pushed E z xs.length (hs v)) := by
      funext w
      simp only [hput, if_true]
      by_cases hw : w = v
      · have hg : grown E z xs.length (hs v) = hs v ++ List.replicate (xs.length - (hs v).length + z) E.zero := by rw [grown, if_neg (by omega)]
        simp only [hw, if_true]
        rw [hg, pushed, pushed, if_pos (by rw [List.length_append, List.length_replicate]; omega), if_neg (by omega), List.drop_append,
          List.drop_of_length_le (by omega), List.nil_append, List.drop_replicate]
        congr 1; omega
      · simp [hw]
    rw [e] at h2
    exact h2
  · exact key _ _ h hv

theorem RelH.remove (h : RelH m s hs) {v : Nat} (hv : v < m.nv) (i : Int) :
    RelH (remove E m v i).1 (remAt E s v i).1
      (if inR i (s.l v).length then hput hs v ((s.l v).drop ((s.l v).length - 1) ++ hs v) else hs) := by
  have hrel := (h.rel.remove (E := E) hv i).1
  have w1 := h.wf hv
  have hlen := h.len hv
  have hc := w1.len
  have hml : m.len v = (m.d v).len := rfl
  unfold Vec.remove remAt inR at *
  simp only at hrel ⊢
  by_cases hi : i ≥ (m.len v : Int) ∨ i < 0
  · rw [if_pos hi, if_neg (by omega), if_neg (by omega)]
    exact h
  · rw [if_neg hi, if_pos (show 0 ≤ i ∧ i < ((s.l v).length : Int) by omega)] at hrel ⊢
    rw [if_pos (show 0 ≤ i ∧ i < ((s.l v).length : Int) by omega)]
    have hle : m.mem.read (m.d v) = s.l v := h.rel.list v hv
    by_cases h2 : i.toNat = m.len v - 1
    · rw [if_pos h2] at hrel ⊢
      refine h.setD hv hrel (fun _ _ _ => rfl) (Eq.trans (by rfl) ((h.room v hv).trans ?_))
      rw [List.eraseIdx_eq_take_drop_succ, List.drop_of_length_le (i := i.toNat + 1) (by omega), List.append_nil, ← List.append_assoc,
        show (s.l v).length - 1 = i.toNat by omega, List.take_append_drop]
    · rw [if_neg h2] at hrel ⊢
      refine h.setD hv hrel (fun _ hne _ => write_other _ _ _ _ hne) ?_
      rw [hle]
      refine Eq.trans (by rfl) ((room_store w1 (h.room v hv) i.toNat (by omega) ((s.l v).drop (i.toNat + 1)) (by rw [List.length_drop]; omega)).trans ?_)
      rw [List.eraseIdx_eq_take_drop_succ]
      congr 1
      rw [List.drop_append_of_le_length (by simp only [List.length_append, List.length_take, List.length_drop]; omega)]
      congr 2
      simp only [List.length_append, List.length_take, List.length_drop]; omega

theorem RelH.cut (h : RelH m s hs) {v : Nat} (hv : v < m.nv) (i j : Int) (hsp : span i j (s.l v).length) :
    RelH (cut E g m v i j).1 (s.put v ((s.l v).take i.toNat ++ (s.l v).drop j.toNat))
      (hput hs v ((s.l v).drop ((s.l v).length - (j - i).toNat) ++ hs v)) := by
  have hrel := ((h.rel.cut (E := E) (g := g) hv i j).1 hsp).1
  have w1 := h.wf hv
  have hlen := h.len hv
  have hc := w1.len
  have hml : m.len v = (m.d v).len := rfl
  have hle : m.mem.read (m.d v) = s.l v := h.rel.list v hv
  obtain ⟨_, o1, l1⟩ := h.rel.wf v hv
  unfold span at hsp
  unfold Vec.cut at *
  rw [if_neg (by omega)] at hrel ⊢
  have hdl : ((s.l v).drop j.toNat).length = (s.l v).length - j.toNat := List.length_drop
  refine h.setD hv hrel (eff_append E g w1 o1 l1 i.toNat (by omega) _).frame ?_
  rw [hle]
  obtain ⟨z, hz⟩ := room_append (o := some v) E g w1 (h.room v hv) i.toNat (by omega) ((s.l v).drop j.toNat)
  rw [hz, if_pos (by omega), List.take_append_of_le_length (by omega), List.drop_append_of_le_length (by omega)]
  congr 3
  omega

theorem RelH.sort (h : RelH m s hs) {v : Nat} (hv : v < m.nv) {f : (T → T → Option Int) → List T → Option (List T)} (hf : Sorts f)
    {cmp : T → T → Option Int} {m' : VMem T} {r : Res T} (he : sortBy (f cmp) m v = some (m', r)) {s' : SState T} (hrel : Rel m' s')
    (hp : ∃ l, s' = s.put v l) : RelH m' s' hs := by
  obtain ⟨l, rfl⟩ := hp
  have w1 := h.wf hv
  have hle : m.mem.read (m.d v) = s.l v := h.rel.list v hv
  have hlen := h.len hv
  unfold sortBy at he
  rw [hle] at he
  obtain ⟨l', hl', he⟩ := Option.map_eq_some_iff.1 he
  obtain ⟨rfl, rfl⟩ := Prod.mk.inj he
  have hpl := (hf.perm _ _ _ hl').length_eq
  refine h.inside hv hrel (fun _ hne _ => write_other _ _ _ _ hne) ?_
  have := room_inside w1 0 l' (by omega)
  rwa [Nat.add_zero] at this

theorem hput_hput (v : Nat) (a b : List T) : hput (hput hs v a) v b = hput hs v b := by
  funext w; unfold hput; split <;> rfl

theorem RelH.change {s' : SState T} {hs' : Nat → List T} (h : RelH m s hs) (h' : Rel m s') (e : hs = hs') : RelH m s' hs' :=
  ⟨h', fun v hv => by rw [h.room v hv, ← h.rel.list v hv, h'.list v hv, e]⟩

/-- One call. -/
theorem step_hid (h : RelH m s hs) (op : Mut T) (hok : ∀ v, op.recv = some v → v < m.nv) {m' : VMem T} {r : Res T} (he : exec E g P m op = some (m', r)) :
    ∃ s' p z, spec E P s op = some (s', p) ∧ RelH m' s' (hspec E z s hs op) := by
  rcases step' (E := E) (g := g) (P := P) h.rel op hok with ⟨e1, _⟩ | ⟨m1, r1, s', p, e1, e2, hrel, _⟩
  · rw [he] at e1; cases e1
  rw [he] at e1
  obtain ⟨rfl, rfl⟩ := Prod.mk.inj (Option.some.inj e1)
  refine ⟨s', p, ?_⟩
  simp only [e2, true_and]
  cases op with
  | new less eq =>
    simp only [exec, spec, Option.some.injEq, Prod.mk.injEq] at he e2
    obtain ⟨rfl, _⟩ := he; obtain ⟨rfl, _⟩ := e2
    exact ⟨0, h.new _ _⟩
  | setCmpLess v f =>
    simp only [exec, spec, Option.some.injEq, Prod.mk.injEq] at he e2
    obtain ⟨rfl, _⟩ := he; obtain ⟨rfl, _⟩ := e2
    refine ⟨0, hrel, fun w hw => Eq.trans ?_ (h.room w hw)⟩
    simp only [VMem.room, VMem.d]
    by_cases e : w = v <;> simp [e]
  | setCmpEqual v f =>
    simp only [exec, spec, Option.some.injEq, Prod.mk.injEq] at he e2
    obtain ⟨rfl, _⟩ := he; obtain ⟨rfl, _⟩ := e2
    refine ⟨0, hrel, fun w hw => Eq.trans ?_ (h.room w hw)⟩
    simp only [VMem.room, VMem.d]
    by_cases e : w = v <;> simp [e]
  | push v xs =>
    simp only [exec, spec, Option.some.injEq, Prod.mk.injEq] at he e2
    obtain ⟨rfl, _⟩ := he; obtain ⟨rfl, _⟩ := e2
    exact h.push (hok v rfl) xs
  | pop v =>
    simp only [exec, spec, Option.some.injEq] at he e2
    have hl := h.rel.len (hok v rfl)
    have := h.remove (E := E) (hok v rfl) ((m.len v : Int) - 1)
    rw [he, hl, e2] at this
    refine ⟨0, ?_⟩
    simp only [hspec]
    by_cases hi : inR (((s.l v).length : Int) - 1) (s.l v).length
    · rw [if_pos hi] at this; exact this
    · rw [if_neg hi] at this
      have hn : s.l v = [] := by
        unfold inR at hi
        exact List.length_eq_zero_iff.1 (by omega)
      rw [hn]
      simpa [hput_self] using this
  | remove v i =>
    simp only [exec, spec, Option.some.injEq] at he e2
    have := h.remove (E := E) (hok v rfl) i
    rw [he, e2] at this
    exact ⟨0, this⟩
  | compareAndRemove v i x =>
    have hv := hok v rfl
    have hlen := h.rel.len hv
    simp only [exec, spec, compareAndRemove] at he e2
    refine ⟨0, ?_⟩
    simp only [hspec]
    by_cases hi : inR i (s.l v).length
    · rw [if_pos hi] at e2
      rw [if_neg (by unfold inR at hi; omega), h.rel.eqOf] at he
      cases heq : s.eqOf E v with
      | none => rw [heq] at he; cases he
      | some eq =>
        rw [heq] at he e2
        simp only at he e2
        rw [h.rel.at_eq hv (by unfold inR at hi; omega)] at he
        have hg : (s.l v)[i.toNat]? = some ((s.l v)[i.toNat]?.getD E.zero) := by
          rw [List.getElem?_eq_getElem (by unfold inR at hi; omega)]; rfl
        by_cases hx : eq ((s.l v)[i.toNat]?.getD E.zero) x = true
        · rw [if_pos hx] at he e2
          have := h.remove (E := E) hv i
          simp only [Option.some.injEq] at he e2
          rw [he, e2, if_pos hi] at this
          rw [if_pos ⟨hi, eq, rfl, _, hg, hx⟩]
          exact this
        · rw [if_neg hx] at he e2
          simp only [Option.some.injEq, Prod.mk.injEq] at he e2
          obtain ⟨rfl, _⟩ := he; obtain ⟨rfl, _⟩ := e2
          rw [if_neg]
          · exact h
          · rintro ⟨_, eq', he', y, hy, hyx⟩
            cases he'
            rw [hy] at hx
            exact hx hyx
    · rw [if_neg hi] at e2
      rw [if_pos (by unfold inR at hi; omega)] at he
      simp only [Option.some.injEq, Prod.mk.injEq] at he e2
      obtain ⟨rfl, _⟩ := he; obtain ⟨rfl, _⟩ := e2
      rw [if_neg (fun h => hi h.1)]
      exact h
  | set v i x =>
    have hv := hok v rfl
    have hlen := h.rel.len hv
    have hml : m.len v = (m.d v).len := rfl
    simp only [exec, spec] at he e2
    refine ⟨0, ?_⟩
    simp only [hspec]
    by_cases hi : inR i (s.l v).length
    · rw [if_pos hi] at e2
      unfold inR at hi
      rw [if_neg (by omega)] at he
      simp only [Option.some.injEq, Prod.mk.injEq] at he e2
      obtain ⟨rfl, _⟩ := he; obtain ⟨rfl, _⟩ := e2
      exact h.inside hv hrel (fun _ hne _ => write_other _ _ _ _ hne) (room_inside (h.wf hv) i.toNat [x] (by simp; omega))
    · rw [if_neg hi] at e2
      unfold inR at hi
      rw [if_pos (by omega)] at he
      simp only [Option.some.injEq, Prod.mk.injEq] at he e2
      obtain ⟨rfl, _⟩ := he; obtain ⟨rfl, _⟩ := e2
      exact h
  | clear v =>
    have hv := hok v rfl
    simp only [exec, spec, Option.some.injEq, Prod.mk.injEq] at he e2
    obtain ⟨rfl, _⟩ := he; obtain ⟨rfl, _⟩ := e2
    exact ⟨0, h.setD hv hrel (fun _ _ _ => rfl) (h.room v hv)⟩
  | cut v i j =>
    have hv := hok v rfl
    simp only [exec, spec, Option.some.injEq, Prod.mk.injEq] at he e2
    obtain ⟨rfl, _⟩ := he
    refine ⟨0, ?_⟩
    simp only [hspec]
    by_cases hsp : span i j (s.l v).length
    · rw [if_pos hsp] at e2 ⊢
      simp only [Option.some.injEq, Prod.mk.injEq] at e2
      obtain ⟨rfl, _⟩ := e2
      exact h.cut hv i j hsp
    · rw [if_neg hsp] at e2 ⊢
      simp only [Option.some.injEq, Prod.mk.injEq] at e2
      obtain ⟨rfl, _⟩ := e2
      rw [(h.rel.cut (E := E) (g := g) hv i j).2 hsp]
      exact h
  | splitOff v i =>
    have hv := hok v rfl
    have hn := h.rel.n
    have hvn : ¬ v = s.n := by omega
    simp only [exec, spec, Option.some.injEq, Prod.mk.injEq] at he e2
    obtain ⟨rfl, _⟩ := he
    have h1 := h.new (.same v) (.same v)
    have hv1 : v < (m.new (.same v) (.same v)).nv := by simp only [VMem.new]; omega
    have hnv : s.n < (m.new (.same v) (.same v)).nv := by simp only [VMem.new]; omega
    have hle : (m.new (.same v) (.same v)).len v = (s.l v).length := by
      rw [h1.rel.len hv1]; simp only; rw [if_neg hvn]
    simp only [hspec]
    unfold splitOff at hrel ⊢
    simp only at hrel ⊢
    rw [hle, hn] at hrel ⊢
    by_cases hsp : span i (s.l v).length (s.l v).length
    · rw [if_pos hsp] at e2
      simp only [if_pos hsp]
      simp only [Option.some.injEq, Prod.mk.injEq] at e2
      obtain ⟨rfl, _⟩ := e2
      have h2 := h1.cut (E := E) (g := g) hv1 i (s.l v).length (by simp only [if_neg hvn]; exact hsp)
      simp only [if_neg hvn] at h2
      have hnv2 : s.n < (cut E g (m.new (.same v) (.same v)) v i (s.l v).length).1.nv := by
        rw [show (cut E g (m.new (.same v) (.same v)) v i (s.l v).length).1.nv = (m.new (.same v) (.same v)).nv by unfold cut; split <;> rfl]; exact hnv
      obtain ⟨z, h3⟩ := h2.push (E := E) (g := g) hnv2
        ((cut E g (m.new (.same v) (.same v)) v i (s.l v).length).1.elems (cut E g (m.new (.same v) (.same v)) v i (s.l v).length).2)
      refine ⟨z, ?_⟩
      have hx := h3.rel.list s.n (by rw [h3.rel.n]; simp [SState.put])
      rw [hrel.list s.n (by rw [h3.rel.n]; simp [SState.put])] at hx
      simp only [SState.put, SState.addLike, if_true, show ¬ s.n = v by omega, if_false, List.nil_append] at hx
      refine h3.change hrel ?_
      rw [← hx]
      unfold span at hsp
      funext w
      have e1 : (s.l v).length - (((s.l v).length : Int) - i).toNat = i.toNat := by omega
      simp only [hput, if_neg hvn, show ¬ s.n = v by omega, if_false, if_true, List.length_drop, e1]
      by_cases hw : w = s.n
      · simp [hw]
      · simp [hw]
    · rw [if_neg hsp] at e2
      simp only [if_neg hsp]
      simp only [Option.some.injEq, Prod.mk.injEq] at e2
      obtain ⟨rfl, _⟩ := e2
      have hc := (h1.rel.cut (E := E) (g := g) hv1 i (s.l v).length).2 (by simp only [if_neg hvn]; exact hsp)
      rw [hc] at hrel ⊢
      obtain ⟨z, h2⟩ := h1.push (E := E) (g := g) hnv []
      refine ⟨z, h2.change hrel ?_⟩
      rw [hput_hput]
      simp [hput, pushed]
  | swap v i j =>
    have hv := hok v rfl
    have hlen := h.rel.len hv
    have hml : m.len v = (m.d v).len := rfl
    have w1 := h.wf hv
    simp only [exec, spec, swap, Option.some.injEq, Prod.mk.injEq] at he e2
    refine ⟨0, ?_⟩
    simp only [hspec]
    by_cases hi : inR i (s.l v).length ∧ inR j (s.l v).length
    · rw [if_pos hi] at e2
      unfold inR at hi
      rw [if_neg (by omega)] at he
      obtain ⟨rfl, _⟩ := he
      simp only [Option.some.injEq, Prod.mk.injEq] at e2
      obtain ⟨rfl, _⟩ := e2
      refine h.inside hv hrel (fun _ hne _ => (write_other _ _ _ _ hne).trans (write_other _ _ _ _ hne)) ?_
      have hc := w1.len
      rw [room_inside (w1.write' i.toNat _ (by simp; omega)) j.toNat _ (by simp; omega), room_inside w1 i.toNat _ (by simp; omega)]
    · rw [if_neg hi] at e2
      unfold inR at hi
      rw [if_pos (by omega)] at he
      obtain ⟨rfl, _⟩ := he
      simp only [Option.some.injEq, Prod.mk.injEq] at e2
      obtain ⟨rfl, _⟩ := e2
      exact h
  | grow v n =>
    have hv := hok v rfl
    simp only [exec, spec] at he e2
    by_cases hn : n < 0
    · rw [if_pos hn] at he; cases he
    · rw [if_neg hn] at he
      rw [if_pos (by omega)] at e2
      simp only [Option.some.injEq, Prod.mk.injEq] at he e2
      obtain ⟨rfl, _⟩ := he; obtain ⟨rfl, _⟩ := e2
      obtain ⟨w1, o1, l1⟩ := h.rel.wf v hv
      obtain ⟨z, hz⟩ := room_grow (o := some v) E g w1 (h.room v hv) (h.len hv) n.toNat
      exact ⟨z, h.same hv (eff_grow E g w1 o1 l1 n.toNat).1 hz⟩
  | clip v =>
    have hv := hok v rfl
    obtain ⟨w1, o1, l1⟩ := h.rel.wf v hv
    simp only [exec, spec, Option.some.injEq, Prod.mk.injEq] at he e2
    obtain ⟨rfl, _⟩ := he; obtain ⟨rfl, _⟩ := e2
    refine ⟨0, ?_⟩
    rw [← put_self s v] at hrel ⊢
    refine h.setD hv hrel (fun _ _ _ => rfl) ?_
    rw [List.append_nil]
    exact h.rel.list v hv
  | clone v =>
    have hv := hok v rfl
    have hn := h.rel.n
    simp only [exec, spec, Option.some.injEq, Prod.mk.injEq] at he e2
    obtain ⟨rfl, _⟩ := he; obtain ⟨rfl, _⟩ := e2
    have h1 := h.new (.same v) (.same v)
    obtain ⟨z, h2⟩ := h1.push (E := E) (g := g) (v := m.nv) (by simp only [VMem.new]; omega) (m.mem.read (m.d v))
    refine ⟨z, h2.change hrel ?_⟩
    rw [hn, hput_hput]
    simp only [hspec]
    rw [show m.mem.read (m.d v) = s.l v from h.rel.list v hv]
    simp [hput]
  | compact v =>
    have hv := hok v rfl
    have w1 := h.wf hv
    simp only [exec, spec] at he e2
    rw [h.rel.len hv, h.rel.eqOf] at he
    refine ⟨0, ?_⟩
    simp only [hspec]
    by_cases h2 : (s.l v).length < 2
    · rw [if_pos h2] at he e2
      simp only [Option.some.injEq, Prod.mk.injEq] at he e2
      obtain ⟨rfl, _⟩ := he; obtain ⟨rfl, _⟩ := e2
      cases s.eqOf E v with
      | none => exact h
      | some eq =>
        simp only
        have : dedup eq (s.l v) = s.l v := by
          match hl : s.l v with
          | [] => rfl
          | [x] => simp [dedup, dedup.go]
          | x :: y :: l => rw [hl] at h2; simp at h2; omega
        rw [this, Nat.sub_self]
        simpa [hput_self] using h
    · rw [if_neg h2] at he e2
      cases heq : s.eqOf E v with
      | none => rw [heq] at he; cases he
      | some eq =>
        rw [heq] at he e2
        simp only [Option.some.injEq, Prod.mk.injEq] at he e2
        obtain ⟨rfl, _⟩ := he; obtain ⟨rfl, _⟩ := e2
        obtain ⟨_, o1, l1⟩ := h.rel.wf v hv
        exact h.setD hv hrel (eff_compact E w1 o1 l1 eq).frame (room_compact E w1 (h.room v hv) (h.len hv) eq)
  | compactFunc v eq =>
    have hv := hok v rfl
    obtain ⟨w1, o1, l1⟩ := h.rel.wf v hv
    simp only [exec, spec, Option.some.injEq, Prod.mk.injEq] at he e2
    obtain ⟨rfl, _⟩ := he; obtain ⟨rfl, _⟩ := e2
    exact ⟨0, h.setD hv hrel (eff_compact E w1 o1 l1 eq).frame (room_compact E w1 (h.room v hv) (h.len hv) eq)⟩
  | delete v i j =>
    have hv := hok v rfl
    obtain ⟨w1, o1, l1⟩ := h.rel.wf v hv
    have hlen := h.len hv
    simp only [exec, spec, span] at he e2
    rw [h.rel.len hv] at he
    by_cases hsp : 0 ≤ i ∧ i ≤ j ∧ j ≤ (s.l v).length
    · rw [if_pos hsp] at he e2
      simp only [Option.some.injEq, Prod.mk.injEq] at he e2
      obtain ⟨rfl, _⟩ := he; obtain ⟨rfl, _⟩ := e2
      refine ⟨0, h.setD hv hrel (eff_delete E g w1 o1 l1 i.toNat j.toNat (by omega) (by omega)).frame ?_⟩
      rw [room_delete E g w1 (h.room v hv) hlen i.toNat j.toNat (by omega) (by omega), show j.toNat - i.toNat = (j - i).toNat by omega]
    · rw [if_neg hsp] at he; cases he
  | insert v i xs =>
    have hv := hok v rfl
    obtain ⟨w1, o1, l1⟩ := h.rel.wf v hv
    have hlen := h.len hv
    simp only [exec, spec, span] at he e2
    rw [h.rel.len hv] at he
    by_cases hsp : 0 ≤ i ∧ i ≤ (s.l v).length
    · rw [if_pos hsp] at he
      rw [if_pos (by omega)] at e2
      simp only [Option.some.injEq, Prod.mk.injEq] at he e2
      obtain ⟨rfl, _⟩ := he; obtain ⟨rfl, _⟩ := e2
      obtain ⟨z, hz⟩ := room_insert E g w1 (h.room v hv) hlen o1 l1 i.toNat (by omega) xs
      exact ⟨z, h.setD hv hrel (eff_insert E g w1 o1 l1 i.toNat (by omega) xs).frame hz⟩
    · rw [if_neg hsp] at he; cases he
  | replace v i j xs =>
    have hv := hok v rfl
    obtain ⟨w1, o1, l1⟩ := h.rel.wf v hv
    have hlen := h.len hv
    simp only [exec, spec, span] at he e2
    rw [h.rel.len hv] at he
    by_cases hsp : 0 ≤ i ∧ i ≤ j ∧ j ≤ (s.l v).length
    · rw [if_pos hsp] at he e2
      simp only [Option.some.injEq, Prod.mk.injEq] at he e2
      obtain ⟨rfl, _⟩ := he; obtain ⟨rfl, _⟩ := e2
      obtain ⟨z, hz⟩ := room_replace E g w1 (h.room v hv) hlen o1 l1 i.toNat j.toNat (by omega) (by omega) xs
      have := h.setD hv hrel (eff_replace E g w1 o1 l1 i.toNat j.toNat (by omega) (by omega) xs).frame hz
      refine ⟨z, ?_⟩
      simp only [hspec]
      rw [show j.toNat - i.toNat = (j - i).toNat by omega] at this
      by_cases hx : xs.length ≤ (j - i).toNat
      · rw [if_pos hx] at this ⊢; exact this
      · rw [if_neg hx] at this ⊢; exact this
    · rw [if_neg hsp] at he; cases he
  | reverse v =>
    have hv := hok v rfl
    obtain ⟨w1, o1, l1⟩ := h.rel.wf v hv
    simp only [exec, spec, Option.some.injEq, Prod.mk.injEq] at he e2
    obtain ⟨rfl, _⟩ := he; obtain ⟨rfl, _⟩ := e2
    refine ⟨0, h.inside hv hrel (eff_reverse w1 o1 l1).frame ?_⟩
    have hrl := read_length w1
    have := room_inside w1 0 (revLoop (m.d v).len (m.mem.read (m.d v)) 0 ((m.d v).len - 1)) (by
      rcases Nat.eq_zero_or_pos (m.d v).len with h0 | h0
      · rw [h0, List.length_eq_zero_iff.1 (hrl.trans h0)]; simp [revLoop]
      · rw [(revLoop_spec (m.d v).len (m.mem.read (m.d v)) 0 ((m.d v).len - 1) (by omega) (by omega) (by omega)).1]; omega)
    rwa [Nat.add_zero] at this
  | sort v =>
    simp only [exec, spec] at he e2
    obtain ⟨l, _, e2⟩ := Option.map_eq_some_iff.1 e2
    exact ⟨0, h.sort (hok v rfl) P.sort_ok he hrel ⟨l, (Prod.mk.inj e2).1.symm⟩⟩
  | sortFunc v less eq =>
    simp only [exec, spec] at he e2
    obtain ⟨l, _, e2⟩ := Option.map_eq_some_iff.1 e2
    exact ⟨0, h.sort (hok v rfl) P.sort_ok he hrel ⟨l, (Prod.mk.inj e2).1.symm⟩⟩
  | sortStable v =>
    simp only [exec, spec] at he e2
    obtain ⟨l, _, e2⟩ := Option.map_eq_some_iff.1 e2
    exact ⟨0, h.sort (hok v rfl) P.stable_ok he hrel ⟨l, (Prod.mk.inj e2).1.symm⟩⟩
  | sortStableFunc v less eq =>
    simp only [exec, spec] at he e2
    obtain ⟨l, _, e2⟩ := Option.map_eq_some_iff.1 e2
    exact ⟨0, h.sort (hok v rfl) P.stable_ok he hrel ⟨l, (Prod.mk.inj e2).1.symm⟩⟩

/-! ## C150 -/

/-- The program of calls on sequences, with what is beyond their lengths. -/
inductive HRun (E : Elt T) (P : SortImpl T) : List (Mut T) → SState T → (Nat → List T) → Prop
  | nil : HRun E P [] SState.empty (fun _ => [])
  | snoc {h s hs op s' p} (z : Nat) : HRun E P h s hs → spec E P s op = some (s', p) → HRun E P (h ++ [op]) s' (hspec E z s hs op)

theorem Run.relH {h : List (Mut T)} {rs : List (Res T)} (hr : Run E g P h rs m) : ∃ s hs, HRun E P h s hs ∧ RelH m s hs := by
  induction hr with
  | nil => exact ⟨_, _, .nil, ⟨rfl, fun _ => rfl, fun _ => rfl, fun _ hv => absurd hv (Nat.not_lt_zero _), fun _ hv => absurd hv (Nat.not_lt_zero _)⟩,
      fun _ hv => absurd hv (Nat.not_lt_zero _)⟩
  | snoc _ hok he ih =>
    obtain ⟨s, hs, h1, h2⟩ := ih
    obtain ⟨s', p, z, h3, h4⟩ := step_hid h2 _ hok he
    exact ⟨_, _, h1.snoc z h3, h4⟩

/-- **C150**: after every program of calls, `v.Slice()[:v.Cap()]` shows the elements of the vector followed by what `hspec` says. -/
theorem C150_exact {h : List (Mut T)} {rs : List (Res T)} (hr : Run E g P h rs m) :
    ∃ s hs, HRun E P h s hs ∧ m.nv = s.n ∧ ∀ v, v < m.nv → m.room v = s.l v ++ hs v ∧ m.list v = s.l v ∧ m.cap v = (s.l v).length + (hs v).length := by
  obtain ⟨s, hs, h1, h2⟩ := hr.relH
  refine ⟨s, hs, h1, h2.rel.n, fun v hv => ⟨h2.room v hv, h2.rel.list v hv, ?_⟩⟩
  rw [← List.length_append, ← h2.room v hv]
  exact (room_length (h2.wf hv)).symm

theorem HRun.srun {h : List (Mut T)} (hr : HRun E P h s hs) : ∃ ps, SRun E P h ps s := by
  induction hr with
  | nil => exact ⟨_, .nil⟩
  | snoc _ _ he ih => obtain ⟨ps, ih⟩ := ih; exact ⟨_, ih.snoc he⟩

/-- The room after a call. -/
theorem Run.room {h : List (Mut T)} {rs : List (Res T)} (hr : Run E g P h rs m) {op : Mut T} (hok : ∀ v, op.recv = some v → v < m.nv) {m' : VMem T}
    {r : Res T} (he : exec E g P m op = some (m', r)) : ∃ s hs z s' p, RelH m s hs ∧ spec E P s op = some (s', p) ∧ RelH m' s' (hspec E z s hs op) := by
  obtain ⟨s, hs, _, h2⟩ := hr.relH
  obtain ⟨s', p, z, h3, h4⟩ := step_hid h2 op hok he
  exact ⟨s, hs, z, s', p, h2, h3, h4⟩

/-- **C150**: Pop and Clear leave all elements where they are. -/
theorem C150_pop {h : List (Mut T)} {rs : List (Res T)} (hr : Run E g P h rs m) {v : Nat} (hv : v < m.nv) {op : Mut T} (ho : op = .pop v ∨ op = .clear v)
    {m' : VMem T} {r : Res T} (he : exec E g P m op = some (m', r)) : m'.room v = m.room v := by
  obtain ⟨s, hs, z, s', p, h1, h2, h3⟩ := hr.room (op := op) (by rcases ho with rfl | rfl <;> (intro w hw; cases hw; exact hv)) he
  have hv' : v < m'.nv := by
    have := h3.rel.n
    have := h1.rel.n
    rcases ho with rfl | rfl
    · simp only [spec, remAt, Option.some.injEq] at h2
      split at h2 <;> (obtain ⟨rfl, _⟩ := Prod.mk.inj h2; (try simp only [SState.put] at *); omega)
    · simp only [spec, Option.some.injEq, Prod.mk.injEq] at h2
      obtain ⟨rfl, _⟩ := h2; simp only [SState.put] at *; omega
  rw [h3.room v hv', h1.room v hv]
  rcases ho with rfl | rfl
  · simp only [spec, remAt, Option.some.injEq] at h2
    split at h2
    · next hi =>
      obtain ⟨rfl, _⟩ := Prod.mk.inj h2
      unfold inR at hi
      simp only [SState.put, if_true, hspec, hput]
      rw [List.eraseIdx_eq_take_drop_succ, List.drop_of_length_le (i := _ + 1) (by omega), List.append_nil, ← List.append_assoc,
        show ((s.l v).length - 1 : Int).toNat = (s.l v).length - 1 by omega, List.take_append_drop]
    · next hi =>
      obtain ⟨rfl, _⟩ := Prod.mk.inj h2
      have hn : s.l v = [] := by
        unfold inR at hi
        exact List.length_eq_zero_iff.1 (by omega)
      simp [hspec, hput, hn]
  · simp only [spec, Option.some.injEq, Prod.mk.injEq] at h2
    obtain ⟨rfl, _⟩ := h2
    simp [SState.put, hspec, hput]

/-- **C150**, partial: Delete, and Replace by nothing, leave zero values in the places they vacate.  Missing: Pop, Remove, ConpareAndRemove, Clear, Cut and
SplitOff, which leave elements (`C150_exact`). -/
theorem C150_partial {h : List (Mut T)} {rs : List (Res T)} (hr : Run E g P h rs m) {v : Nat} (hv : v < m.nv) (i j : Int) {op : Mut T}
    (ho : op = .delete v i j ∨ op = .replace v i j []) {m' : VMem T} {r : Res T} (he : exec E g P m op = some (m', r)) :
    m'.room v = m'.list v ++ (List.replicate (j - i).toNat E.zero ++ (m.room v).drop (m.len v)) := by
  obtain ⟨s, hs, z, s', p, h1, h2, h3⟩ := hr.room (op := op) (by rcases ho with rfl | rfl <;> (intro w hw; cases hw; exact hv)) he
  have hv' : v < m'.nv := by
    have := h3.rel.n
    have := h1.rel.n
    rcases ho with rfl | rfl <;>
    · simp only [spec] at h2
      split at h2
      · simp only [Option.some.injEq, Prod.mk.injEq] at h2
        obtain ⟨rfl, _⟩ := h2; simp only [SState.put] at *; omega
      · cases h2
  have hh : (m.room v).drop (m.len v) = hs v := by rw [h1.room v hv, h1.rel.len hv, List.drop_left]
  rw [h3.room v hv', h3.rel.list v hv', hh]
  rcases ho with rfl | rfl <;> simp [hspec, hput]

/-- **C150**, partial: CompactFunc (and Compact, which calls it) leaves zero values. -/
theorem C150_compact_partial {h : List (Mut T)} {rs : List (Res T)} (hr : Run E g P h rs m) {v : Nat} (hv : v < m.nv) (eq : T → T → Bool)
    {m' : VMem T} {r : Res T} (he : exec E g P m (.compactFunc v eq) = some (m', r)) :
    m'.room v = m'.list v ++ (List.replicate (m.len v - m'.len v) E.zero ++ (m.room v).drop (m.len v)) := by
  obtain ⟨s, hs, z, s', p, h1, h2, h3⟩ := hr.room (op := .compactFunc v eq) (by intro w hw; cases hw; exact hv) he
  simp only [spec, Option.some.injEq, Prod.mk.injEq] at h2
  obtain ⟨rfl, _⟩ := h2
  have hv' : v < m'.nv := by
    have := h3.rel.n
    have := h1.rel.n
    simp only [SState.put] at *; omega
  have hh : (m.room v).drop (m.len v) = hs v := by rw [h1.room v hv, h1.rel.len hv, List.drop_left]
  rw [h3.room v hv', h3.rel.list v hv', hh, h1.rel.len hv, h3.rel.len hv']
  simp [hspec, hput, SState.put]

/-- The room of vector 0 after some calls. -/
def room0 (h : List (Mut Int)) : Option (List Int) := (play (fun _ => 1) (mergeImpl Int) .empty h).map fun r => r.1.room 0

/-- **C150**, refuted: a popped element is still in the array. -/
theorem C150_false : ¬ ∀ (g : Nat → Nat) (P : SortImpl Int) (h : List (Mut Int)) (rs : List (Res Int)) (m m' : VMem Int) (x : Int),
    Run EInt g P h rs m → 0 < m.nv → exec EInt g P m (.pop 0) = some (m', .elem x true) → x ∉ m'.list 0 → x ∉ m'.room 0 := by
  intro hall
  have := hall (fun _ => 0) (mergeImpl Int) _ _ (one [1, 2, 3]) _ 3 (one_run [1, 2, 3]) (by decide) rfl (by decide)
  revert this
  decide

example : room0 [.new none none, .push 0 [1, 2, 3]] = some [1, 2, 3, 0] := by decide
example : room0 [.new none none, .push 0 [1, 2, 3, 4, 5], .remove 0 1] = some [1, 3, 4, 5, 5, 0] := by decide
example : room0 [.new none none, .push 0 [1, 2, 3, 4, 5], .cut 0 1 3] = some [1, 4, 5, 4, 5, 0] := by decide
example : room0 [.new none none, .push 0 [1, 2, 3, 4, 5], .delete 0 1 3] = some [1, 4, 5, 0, 0, 0] := by decide
example : room0 [.new none none, .push 0 [1, 2, 3, 4, 5], .clear 0, .grow 0 7] = some [1, 2, 3, 4, 5, 0, 0, 0] := by decide
example : room0 [.new none none, .push 0 [1, 1, 2, 2], .compact 0] = some [1, 2, 0, 0, 0] := by decide
example : room0 [.new none none, .push 0 [1, 2, 3, 4], .replace 0 0 3 [9], .clip 0] = some [9, 4] := by decide
example : room0 [.new none none, .push 0 [1, 2, 3, 4], .splitOff 0 1, .insert 0 0 [7]] = some [7, 1, 3, 4, 0] := by decide

/-! ## C151: capacity -/

/-- Calls that never change the capacity of their receiver. -/
def Mut.keepsCap : Mut T → Prop
  | .new _ _ | .push _ _ | .grow _ _ | .clip _ | .insert _ _ _ | .replace _ _ _ _ => False
  | _ => True

/-- **C151**: only Push, Insert, Replace, Grow and Clip change `Cap`. -/
theorem C151_cap {h : List (Mut T)} {rs : List (Res T)} (hr : Run E g P h rs m) {op : Mut T} (hok : ∀ v, op.recv = some v → v < m.nv)
    (hk : op.keepsCap) {m' : VMem T} {r : Res T} (he : exec E g P m op = some (m', r)) {v : Nat} (hv : v < m.nv) : m'.cap v = m.cap v := by
  have ed : ∀ (eq : T → T → Bool) (l : List T), (dedup eq l).length ≤ l.length := by
    intro eq l; cases l with
    | nil => simp [dedup]
    | cons x l => have := dedup_length_le eq x l; simp [dedup]; omega
  obtain ⟨s, hs, z, s', p, h1, h2, h3⟩ := hr.room hok he
  have hn := h1.rel.n
  have hcap : ∀ {m : VMem T} {s hs}, RelH m s hs → v < m.nv → m.cap v = (s.l v).length + (hs v).length := by
    intro m s hs h hv
    rw [← List.length_append, ← h.room v hv]
    exact (room_length (h.wf hv)).symm
  have key : v < m'.nv ∧ (s'.l v).length + (hspec E z s hs op v).length = (s.l v).length + (hs v).length := by
    rw [h3.rel.n]
    cases op with
    | new _ _ => exact hk.elim
    | push _ _ => exact hk.elim
    | grow _ _ => exact hk.elim
    | clip _ => exact hk.elim
    | insert _ _ _ => exact hk.elim
    | replace _ _ _ _ => exact hk.elim
    | setCmpLess w f => cases h2; exact ⟨by simpa [← hn] using hv, rfl⟩
    | setCmpEqual w f => cases h2; exact ⟨by simpa [← hn] using hv, rfl⟩
    | pop w =>
      simp only [spec, remAt, Option.some.injEq] at h2
      split at h2
      · next hi =>
        obtain ⟨rfl, _⟩ := Prod.mk.inj h2
        refine ⟨by simpa [SState.put, ← hn] using hv, ?_⟩
        unfold inR at hi
        by_cases hw : v = w
        · subst hw
          simp [SState.put, hspec, hput, List.length_eraseIdx]; omega
        · simp [SState.put, hspec, hput, hw]
      · next hi =>
        obtain ⟨rfl, _⟩ := Prod.mk.inj h2
        refine ⟨by omega, ?_⟩
        unfold inR at hi
        by_cases hw : v = w
        · subst hw
          simp [hspec, hput]; omega
        · simp [hspec, hput, hw]
    | remove w i =>
      simp only [spec, remAt, Option.some.injEq] at h2
      split at h2
      · next hi =>
        obtain ⟨rfl, _⟩ := Prod.mk.inj h2
        refine ⟨by simpa [SState.put, ← hn] using hv, ?_⟩
        have hi' := hi
        unfold inR at hi'
        simp only [hspec, if_pos hi]
        by_cases hw : v = w
        · subst hw
          simp [SState.put, hput, List.length_eraseIdx, show i.toNat < (s.l v).length by omega]; omega
        · simp [SState.put, hput, hw]
      · next hi =>
        obtain ⟨rfl, _⟩ := Prod.mk.inj h2
        exact ⟨by omega, by simp [hspec, hi]⟩
    | compareAndRemove w i x =>
      simp only [spec, remAt] at h2
      split at h2
      · next hi =>
        split at h2
        · cases h2
        · next eq heq =>
          have hi' := hi
          unfold inR at hi'
          have hget : (s.l w)[i.toNat]? = some ((s.l w)[i.toNat]'(by omega)) := List.getElem?_eq_getElem _
          split at h2
          · next hx =>
            simp only [Option.some.injEq] at h2
            obtain ⟨rfl, _⟩ := Prod.mk.inj h2
            refine ⟨by simpa [SState.put, ← hn] using hv, ?_⟩
            rw [hget] at hx
            have hc : inR i (s.l w).length ∧ ∃ eq, s.eqOf E w = some eq ∧ ∃ y, (s.l w)[i.toNat]? = some y ∧ eq y x = true :=
              ⟨hi, eq, heq, _, hget, by simpa using hx⟩
            simp only [hspec, if_pos hc]
            by_cases hw : v = w
            · subst hw
              simp [SState.put, hput, List.length_eraseIdx, show i.toNat < (s.l v).length by omega]; omega
            · simp [SState.put, hput, hw]
          · next hx =>
            simp only [Option.some.injEq] at h2
            obtain ⟨rfl, _⟩ := Prod.mk.inj h2
            rw [hget] at hx
            have hc : ¬ (inR i (s.l w).length ∧ ∃ eq, s.eqOf E w = some eq ∧ ∃ y, (s.l w)[i.toNat]? = some y ∧ eq y x = true) := by
              rintro ⟨_, eq', he', y, hy, hz⟩
              rw [heq] at he'; cases he'
              rw [hget] at hy; cases hy
              exact hx (by simpa using hz)
            exact ⟨by omega, by simp only [hspec, if_neg hc]⟩
      · next hi =>
        simp only [Option.some.injEq] at h2
        obtain ⟨rfl, _⟩ := Prod.mk.inj h2
        refine ⟨by omega, ?_⟩
        simp only [hspec]
        rw [if_neg (fun hc => hi hc.1)]
    | set w i x =>
      simp only [spec] at h2
      split at h2 <;> simp only [Option.some.injEq] at h2 <;> obtain ⟨rfl, _⟩ := Prod.mk.inj h2
      · refine ⟨by simpa [SState.put, ← hn] using hv, ?_⟩
        by_cases hw : v = w <;> simp [SState.put, hspec, hw]
      · exact ⟨by omega, rfl⟩
    | clear w =>
      simp only [spec, Option.some.injEq] at h2
      obtain ⟨rfl, _⟩ := Prod.mk.inj h2
      refine ⟨by simpa [SState.put, ← hn] using hv, ?_⟩
      by_cases hw : v = w <;> simp [SState.put, hspec, hput, hw]
    | cut w i j =>
      simp only [spec] at h2
      split at h2
      · next hi =>
        simp only [Option.some.injEq] at h2
        obtain ⟨rfl, _⟩ := Prod.mk.inj h2
        refine ⟨by simpa [SState.put, ← hn] using hv, ?_⟩
        have hi' := hi
        unfold span at hi'
        simp only [hspec, if_pos hi]
        by_cases hw : v = w
        · subst hw
          simp [SState.put, hput]; omega
        · simp [SState.put, hput, hw]
      · next hi =>
        simp only [Option.some.injEq] at h2
        obtain ⟨rfl, _⟩ := Prod.mk.inj h2
        exact ⟨by omega, by simp only [hspec, if_neg hi]⟩
    | splitOff w i =>
      have hvn : v ≠ s.n := by omega
      simp only [spec] at h2
      split at h2
      · next hi =>
        simp only [Option.some.injEq] at h2
        obtain ⟨rfl, _⟩ := Prod.mk.inj h2
        refine ⟨by simp [SState.put, SState.addLike]; omega, ?_⟩
        simp only [hspec, if_pos hi]
        have hi' := hi
        unfold span at hi'
        by_cases hw : v = w
        · subst hw
          simp [SState.put, SState.addLike, hput, hvn]; omega
        · simp [SState.put, SState.addLike, hput, hw, hvn]
      · next hi =>
        simp only [Option.some.injEq] at h2
        obtain ⟨rfl, _⟩ := Prod.mk.inj h2
        refine ⟨by simp [SState.addLike]; omega, ?_⟩
        simp only [hspec, if_neg hi]
        simp [SState.addLike, hput, hvn]
    | swap w i j =>
      simp only [spec] at h2
      split at h2 <;> simp only [Option.some.injEq] at h2 <;> obtain ⟨rfl, _⟩ := Prod.mk.inj h2
      · refine ⟨by simpa [SState.put, ← hn] using hv, ?_⟩
        by_cases hw : v = w <;> simp [SState.put, hspec, hw, swapL_length]
      · exact ⟨by omega, rfl⟩
    | clone w =>
      have hvn : v ≠ s.n := by omega
      simp only [spec, Option.some.injEq] at h2
      obtain ⟨rfl, _⟩ := Prod.mk.inj h2
      exact ⟨by simp [SState.addLike]; omega, by simp [SState.addLike, hspec, hput, hvn]⟩
    | compact w =>
      simp only [spec] at h2
      split at h2
      · next hl =>
        simp only [Option.some.injEq] at h2
        obtain ⟨rfl, _⟩ := Prod.mk.inj h2
        refine ⟨by omega, ?_⟩
        simp only [hspec]
        cases heq : s.eqOf E w with
        | none => rfl
        | some eq =>
          by_cases hw : v = w
          · subst hw
            have : (dedup eq (s.l v)).length = (s.l v).length := by
              match hs' : s.l v, hl with
              | [], _ => simp [dedup]
              | [x], _ => simp [dedup, dedup.go]
              | _ :: _ :: _, hl => simp [hs'] at hl; omega
            simp [hput, this]
          · simp [hput, hw]
      · split at h2
        · cases h2
        · next eq heq =>
          simp only [Option.some.injEq] at h2
          obtain ⟨rfl, _⟩ := Prod.mk.inj h2
          refine ⟨by simpa [SState.put, ← hn] using hv, ?_⟩
          simp only [hspec, heq]
          have := ed eq (s.l w)
          by_cases hw : v = w
          · subst hw
            simp [SState.put, hput]; omega
          · simp [SState.put, hput, hw]
    | compactFunc w eq =>
      simp only [spec, Option.some.injEq] at h2
      obtain ⟨rfl, _⟩ := Prod.mk.inj h2
      refine ⟨by simpa [SState.put, ← hn] using hv, ?_⟩
      have := ed eq (s.l w)
      by_cases hw : v = w
      · subst hw
        simp [SState.put, hspec, hput]; omega
      · simp [SState.put, hspec, hput, hw]
    | delete w i j =>
      simp only [spec] at h2
      split at h2
      · next hi =>
        simp only [Option.some.injEq] at h2
        obtain ⟨rfl, _⟩ := Prod.mk.inj h2
        refine ⟨by simpa [SState.put, ← hn] using hv, ?_⟩
        unfold span at hi
        by_cases hw : v = w
        · subst hw
          simp [SState.put, hspec, hput]; omega
        · simp [SState.put, hspec, hput, hw]
      · cases h2
    | reverse w =>
      simp only [spec, Option.some.injEq] at h2
      obtain ⟨rfl, _⟩ := Prod.mk.inj h2
      refine ⟨by simpa [SState.put, ← hn] using hv, ?_⟩
      by_cases hw : v = w <;> simp [SState.put, hspec, hw]
    | sort w | sortFunc w _ _ =>
      simp only [spec, Option.map_eq_some_iff] at h2
      obtain ⟨l, hl, h2⟩ := h2
      obtain ⟨rfl, _⟩ := Prod.mk.inj h2
      refine ⟨by simpa [SState.put, ← hn] using hv, ?_⟩
      have := (P.sort_ok.perm _ _ _ hl).length_eq
      by_cases hw : v = w <;> simp [SState.put, hspec, hw, this]
    | sortStable w | sortStableFunc w _ _ =>
      simp only [spec, Option.map_eq_some_iff] at h2
      obtain ⟨l, hl, h2⟩ := h2
      obtain ⟨rfl, _⟩ := Prod.mk.inj h2
      refine ⟨by simpa [SState.put, ← hn] using hv, ?_⟩
      have := (P.stable_ok.perm _ _ _ hl).length_eq
      by_cases hw : v = w <;> simp [SState.put, hspec, hw, this]
  rw [hcap h3 key.1, hcap h1 hv, key.2]

/-- **C151**, refuted: "Clear the vector and shrink 1/4 the capacity": the capacity is the same. -/
theorem C151_false : ¬ ∀ (g : Nat → Nat) (P : SortImpl Int) (h : List (Mut Int)) (rs : List (Res Int)) (m m' : VMem Int),
    Run EInt g P h rs m → 0 < m.nv → exec EInt g P m (.clear 0) = some (m', .unit) → 0 < m.cap 0 → m'.cap 0 < m.cap 0 := by
  intro hall
  have := hall (fun _ => 0) (mergeImpl Int) _ _ (one [1, 2, 3]) _ (one_run [1, 2, 3]) (by decide) rfl (by decide)
  revert this
  decide

/-- **C151**: Push, while it fits, changes neither the capacity nor the array: it writes behind the last element. -/
theorem C151_push {h : List (Mut T)} {rs : List (Res T)} (hr : Run E g P h rs m) {v : Nat} (hv : v < m.nv) {xs : List T}
    (hc : m.len v + xs.length ≤ m.cap v) {m' : VMem T} {r : Res T} (he : exec E g P m (.push v xs) = some (m', r)) :
    m'.cap v = m.cap v ∧ m'.mem.na = m.mem.na ∧ (m'.d v).a = (m.d v).a ∧
      m'.room v = m.list v ++ (xs ++ ((m.room v).drop (m.len v)).drop xs.length) := by
  obtain ⟨s, hs, z, s', p, h1, h2, h3⟩ := hr.room (op := .push v xs) (by intro w hw; cases hw; exact hv) he
  simp only [spec, Option.some.injEq, Prod.mk.injEq] at h2
  obtain ⟨rfl, _⟩ := h2
  have hcap : m.cap v = (s.l v).length + (hs v).length := by
    rw [← List.length_append, ← h1.room v hv]
    exact (room_length (h1.wf hv)).symm
  have hlen := h1.rel.len hv
  have he' : m' = m.setD v (append E g (some v) m.mem (m.d v) xs) := by
    simp only [exec, push, Option.some.injEq, Prod.mk.injEq] at he
    rw [if_neg (by simp only [VMem.cap] at hc; omega)] at he
    exact he.1.symm
  have ha := append_room (m := m.mem) (s := m.d v) E g (o := some v) xs (by simpa [VMem.len, VMem.cap] using hc)
  have hnv : m'.nv = m.nv := by subst he'; rfl
  refine ⟨?_, ?_, ?_, ?_⟩
  · subst he'; simp [VMem.cap, setD_d, ha]
  · subst he'; rw [ha]; rfl
  · subst he'; simp [setD_d, ha]
  · rw [h3.room v (by omega), h1.rel.list v hv, h1.room v hv, hlen, List.drop_left]
    simp only [SState.put, if_true, hspec, hput, pushed]
    rw [if_pos (by omega), List.append_assoc]

/-- **C151**: Clip makes the capacity the length. -/
theorem C151_clip {h : List (Mut T)} {rs : List (Res T)} (hr : Run E g P h rs m) {v : Nat} (hv : v < m.nv)
    {m' : VMem T} {r : Res T} (he : exec E g P m (.clip v) = some (m', r)) : m'.cap v = m.len v ∧ m'.room v = m.list v := by
  obtain ⟨s, hs, z, s', p, h1, h2, h3⟩ := hr.room (op := .clip v) (by intro w hw; cases hw; exact hv) he
  simp only [spec, Option.some.injEq, Prod.mk.injEq] at h2
  obtain ⟨rfl, _⟩ := h2
  have hv' : v < m'.nv := by have := h3.rel.n; have := h1.rel.n; omega
  constructor
  · rw [h1.rel.len hv, ← List.append_nil (s.l v), ← show (hspec E z s hs (.clip v)) v = [] by simp [hspec, hput], ← h3.room v hv']
    exact (room_length (h3.wf hv')).symm
  · rw [h3.room v hv', h1.rel.list v hv]; simp [hspec, hput]

/-- The capacity of vector 0 after some calls. -/
def cap0 (h : List (Mut Int)) : Option Nat := (play (fun _ => 1) (mergeImpl Int) .empty h).map fun r => r.1.cap 0

example : cap0 [.new none none, .push 0 [1, 2, 3, 4, 5, 6, 7], .clear 0] = some 8 := by decide
example : cap0 [.new none none, .push 0 [1, 2, 3, 4, 5, 6, 7], .delete 0 0 6, .push 0 [1, 2, 3]] = some 8 := by decide
example : cap0 [.new none none, .push 0 [1, 2, 3, 4, 5, 6, 7], .delete 0 0 6, .clip 0] = some 1 := by decide
example : cap0 [.new none none, .push 0 [1, 2, 3], .splitOff 0 1, .push 1 [5]] = some 4 := by decide

end Verif.Vec
