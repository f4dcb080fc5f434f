import Verif.Dllist.SortAny
/-!
# All calls, with the values of sentinels (C193)

`Any` of `Stale.lean` has the calls without loops; the loops of `Model.lean` make no other memories (C140), and here it is shown that those of
`Push.lean`, `SliceAny.lean` and `SortAny.lean`, which know the value of a sentinel, do not either. So C140 and C190 to C192 hold after all of them.
-/
namespace Verif.Dllist.Push
open Verif.Dllist Verif.Dllist.Spec
variable {T : Type}

/-- The memories all calls that return lead to, in any order and with any arguments. -/
inductive All (z : T) : Mem T → Prop
  | start : All z Mem.empty
  | plain {m m' : Mem T} {op : Op T} {r : Res T} : All z m → plain op = true → exec 0 m op = some (m', r) → All z m'
  | pushBackList {m m' : Mem T} {l o : Nat} : All z m → pushBackList z m l o = some m' → All z m'
  | pushFrontList {m m' : Mem T} {l o : Nat} : All z m → pushFrontList z m l o = some m' → All z m'
  | pushBackListTo {m m' : Mem T} {l o mark : Nat} : All z m → pushBackListTo z m l o mark = some m' → All z m'
  | pushFrontListTo {m m' : Mem T} {l o mark : Nat} : All z m → pushFrontListTo z m l o mark = some m' → All z m'
  | slice {m m' : Mem T} {l fuel : Nat} {vs : List T} : All z m → slice z fuel m l = some (some (m', vs)) → All z m'
  | sort {m m' : Mem T} {l fuel : Nat} {less : T → T → Bool} : All z m → sort z less fuel m l = some m' → All z m'

theorem any_loop (z : T) {l : Nat} (w : At) (fwd : Bool) : ∀ {i : Nat} {m m' : Mem T} {e : Option Ptr}, Any m → m.inited l = true → w.ok m l →
    loop z l w fwd i m e = some m' → Any m'
  | 0, m, _, e, h, _, _, he => by cases he; exact h
  | i + 1, m, m', e, h, hi, hw, he => by
    simp only [loop, Option.bind_eq_bind, Option.bind_eq_some_iff] at he
    obtain ⟨p, _, ⟨m1, n⟩, h3, h4⟩ := he
    obtain ⟨a, ha, hma⟩ := hw.ptr h.sound hi
    obtain ⟨m2, h5, _, h6, h7⟩ := h.sound.insertValue hi (valueZ z m p) hma
    have hin : m1.inited l = true := by rw [ha, h5] at h3; cases h3; rw [h6]; exact hi
    refine any_loop z w fwd (m := m1) ?_ hin ?_ h4
    · cases w with
      | front => exact h.pushFront (l := l) (v := valueZ z m p) (n := n) (by simp only [Dllist.pushFront, lazyInit_of hi]; exact h3)
      | back => exact h.pushBack (l := l) (v := valueZ z m p) (n := n) (by simp only [Dllist.pushBack, lazyInit_of hi]; exact h3)
      | behind k => exact h.insertAfter hw h3
    · cases w with
      | front => trivial
      | back => trivial
      | behind k => exact h.owner_keep hw h3

theorem any_body {z : T} {t : T → Nat} {m m' : Mem T} {a a' : Unit} {e : Ptr} {c : Bool} (h : Any m) (he : pushBody z t m a e = some (m', a', c)) : Any m' := by
  simp only [pushBody, Option.bind_eq_bind, Option.bind_eq_some_iff] at he
  obtain ⟨⟨m1, n⟩, h1, h2⟩ := he
  cases h2
  exact h.pushBack h1

theorem any_sort (z : T) {less : T → T → Bool} : ∀ {fuel : Nat} {m : Mem T} {l : Nat} {m' : Mem T}, Any m → sort z less fuel m l = some m' → Any m'
  | 0, _, _, _, _, he => by cases he
  | fuel + 1, m, l, m', h, he => by
    rw [sort] at he
    split at he
    · cases he; exact h
    simp only [Option.bind_eq_bind, Option.bind_eq_some_iff] at he
    obtain ⟨f, _, f', _, ⟨m1, _, _⟩, h1, m2, h2, m3, h3, ⟨m4, _, _⟩, h4, ⟨m5, _⟩, h5, ⟨m6, _, _⟩, h6, h7⟩ := he
    cases h7
    have a1 : Any m1 := Any.rangeLoop (fun hm hb => any_body hm hb) (((h.front l).new.new).front l) h1
    have a3 : Any m3 := any_sort z (any_sort z a1 h2) h3
    have a4 : Any m4 := Any.range (fun hm hb => any_body hm hb) (a3.clear l) h4
    exact Any.range (fun hm hb => any_body hm hb) (a4.pushBack h5) h6

/-- **C193**: the calls with loops, which may read a sentinel's value, lead to no memory that the calls without loops do not lead to. -/
theorem C193_all {z : T} {m : Mem T} : All z m ↔ Any m := by
  constructor
  · intro h
    induction h with
    | start => exact .start
    | plain _ hp he ih => exact ih.call hp he
    | pushBackList _ he ih => exact any_loop z .back true ((ih.lazyInit _).front _) (front_inited _ (ih.sound.lazyInit _).2.1) trivial he
    | pushFrontList _ he ih => exact any_loop z .front false ((ih.lazyInit _).back _) (back_inited _ (ih.sound.lazyInit _).2.1) trivial he
    | pushBackListTo _ he ih =>
      unfold pushBackListTo at he
      split at he
      · cases he; exact ih
      · next ho =>
        have ho := not_not.1 ho
        exact any_loop z (.behind _) true (ih.front _) (front_inited _ (ih.sound.ini _ _ ho)) (by simp only [At.ok, front_owner ih.sound, ho]) he
    | pushFrontListTo _ he ih =>
      unfold pushFrontListTo at he
      split at he
      · cases he; exact ih
      · next ho =>
        have ho := not_not.1 ho
        exact any_loop z (.behind _) false (ih.back _) (back_inited _ (ih.sound.ini _ _ ho)) (by simp only [At.ok, back_owner ih.sound, ho]) he
    | slice _ he ih =>
      unfold slice at he
      split at he
      · cases he
      · simp only [Option.bind_eq_bind, Option.bind_eq_some_iff] at he
        obtain ⟨⟨m2, _, _⟩, h1, h2⟩ := he
        cases h2
        refine Any.range ?_ ih h1
        intro m a e m' a' c hm hb
        cases hb
        exact hm
    | sort _ he ih => exact any_sort z ih he
  · intro h
    induction h with
    | start => exact .start
    | call _ hp he ih => exact .plain ih hp he

/-! ## A list that was never initialised counts 0 -/

/-- Counts are changed only of lists that are initialised then, and these stay initialised. -/
structure Keep (m m' : Mem T) : Prop where
  ini : ∀ l, m.inited l = true → m'.inited l = true
  len : ∀ l, m'.inited l = false → m'.len l = m.len l

theorem Keep.of_eq {m m' : Mem T} (hi : m'.inited = m.inited) (hl : m'.len = m.len) : Keep m m' := ⟨fun l h => by rw [hi]; exact h, fun l _ => by rw [hl]⟩
theorem Keep.refl (m : Mem T) : Keep m m := .of_eq rfl rfl
theorem Keep.trans {m m' m'' : Mem T} (h : Keep m m') (h' : Keep m' m'') : Keep m m'' where
  ini l hl := h'.ini l (h.ini l hl)
  len l hl := by
    rw [h'.len l hl]
    refine h.len l ?_
    cases hc : m'.inited l with
    | false => rfl
    | true => rw [h'.ini l hc] at hl; cases hl

theorem Keep.of_upd {m m' : Mem T} {l : Nat} {k : Int} (h : m.inited l = true) (hi : m'.inited = m.inited) (hl : m'.len = upd m.len l k) : Keep m m' := by
  refine ⟨fun l h => by rw [hi]; exact h, fun x hx => ?_⟩
  rw [hl]
  unfold upd
  split
  · next hc => subst hc; rw [hi, h] at hx; cases hx
  · rfl

theorem keep_clear (m : Mem T) (l : Nat) : Keep m (clear m l) := by
  refine ⟨fun x hx => ?_, fun x hx => ?_⟩
  · show upd m.inited l true x = true
    unfold upd; split
    · rfl
    · exact hx
  · have hx : upd m.inited l true x = false := hx
    show upd m.len l 0 x = _
    unfold upd at hx ⊢
    split at hx
    · cases hx
    · next h => rw [if_neg h]

theorem keep_lazyInit (m : Mem T) (l : Nat) : Keep m (lazyInit m l) := by
  unfold lazyInit
  split
  · exact .refl m
  · exact keep_clear m l

theorem keep_front (m : Mem T) (l : Nat) : Keep m (front m l).1 := by
  unfold front
  split
  · exact .refl m
  · exact keep_lazyInit m l

theorem keep_back (m : Mem T) (l : Nat) : Keep m (back m l).1 := by
  unfold back
  split
  · exact .refl m
  · exact keep_lazyInit m l

theorem keep_insert {m m' : Mem T} {l : Nat} {v : T} {a : Option Ptr} {n : Nat} (hi : m.inited l = true) (h : insertValue m l v a = some (m', n)) : Keep m m' := by
  simp only [insertValue, insert, Option.bind_eq_bind, Option.bind_eq_some_iff] at h
  obtain ⟨_, ⟨_, _, _, _, _, _, h1⟩, h2⟩ := h
  cases h1; cases h2
  exact .of_upd hi rfl rfl

theorem keep_remove {m m' : Mem T} {l : Nat} {e : Ptr} (hi : m.inited l = true) (h : remove m l e = some m') : Keep m m' := by
  simp only [remove, Option.bind_eq_bind, Option.bind_eq_some_iff] at h
  obtain ⟨_, _, _, _, h1⟩ := h
  cases h1
  exact .of_upd hi rfl rfl

theorem keep_move {m m' : Mem T} {e : Ptr} {a : Option Ptr} (h : move m e a = some m') : Keep m m' := by
  unfold move at h
  split at h
  · cases h; exact .refl m
  · simp only [Option.bind_eq_bind, Option.bind_eq_some_iff] at h
    obtain ⟨_, _, _, _, _, _, _, _, _, _, h1⟩ := h
    cases h1
    exact .of_eq rfl rfl

theorem keep_swap {m m' : Mem T} {l a b : Nat} (h : swap m l a b = some m') : Keep m m' := by
  unfold swap at h
  simp only [Option.bind_eq_bind] at h
  split at h
  · cases h; exact .refl m
  split at h
  · simp only [Option.bind_eq_some_iff] at h
    obtain ⟨_, _, _, _, h1⟩ := h
    cases h1
    exact .of_eq rfl rfl
  split at h
  · simp only [Option.bind_eq_some_iff] at h
    obtain ⟨_, _, _, _, h1⟩ := h
    cases h1
    exact .of_eq rfl rfl
  · simp only [Option.bind_eq_some_iff] at h
    obtain ⟨_, _, _, _, _, _, _, _, h1⟩ := h
    cases h1
    exact .of_eq rfl rfl

theorem keep_plain {m m' : Mem T} (hs : Sound m) {op : Op T} (hp : plain op = true) {r : Res T} (h : exec 0 m op = some (m', r)) : Keep m m' := by
  cases op with
  | slice | pushBackList | pushFrontList | pushBackListTo | pushFrontListTo | sort => simp [Dllist.plain] at hp
  | new => cases h; exact (Keep.of_eq (m := m) (m' := (zeroList m).1) rfl rfl).trans (keep_clear _ _)
  | zero => cases h; exact .of_eq rfl rfl
  | clear l => cases h; exact keep_clear _ _
  | pushFront l v =>
    simp only [exec, Dllist.pushFront, Option.bind_eq_bind, Option.bind_eq_some_iff] at h
    obtain ⟨⟨_, _⟩, h1, h2⟩ := h
    cases h2
    exact (keep_lazyInit m l).trans (keep_insert (hs.lazyInit l).2.1 h1)
  | pushBack l v =>
    simp only [exec, Dllist.pushBack, Option.bind_eq_bind, Option.bind_eq_some_iff] at h
    obtain ⟨⟨_, _⟩, h1, h2⟩ := h
    cases h2
    exact (keep_lazyInit m l).trans (keep_insert (hs.lazyInit l).2.1 h1)
  | insertBefore l v mark =>
    simp only [exec, Dllist.insertBefore, Option.bind_eq_bind, Option.bind_eq_some_iff] at h
    obtain ⟨⟨_, _⟩, h1, h2⟩ := h
    cases h2
    split at h1
    · cases h1; exact .refl m
    · next ho =>
      simp only [Option.bind_eq_some_iff] at h1
      obtain ⟨⟨_, _⟩, h1, h2⟩ := h1
      cases h2
      exact keep_insert (hs.ini _ _ (not_not.1 ho)) h1
  | insertAfter l v mark =>
    simp only [exec, Dllist.insertAfter, Option.bind_eq_bind, Option.bind_eq_some_iff] at h
    obtain ⟨⟨_, _⟩, h1, h2⟩ := h
    cases h2
    split at h1
    · cases h1; exact .refl m
    · next ho =>
      simp only [Option.bind_eq_some_iff] at h1
      obtain ⟨⟨_, _⟩, h1, h2⟩ := h1
      cases h2
      exact keep_insert (hs.ini _ _ (not_not.1 ho)) h1
  | remove l e =>
    simp only [exec, Dllist.lRemove, Option.bind_eq_bind, Option.bind_eq_some_iff] at h
    obtain ⟨⟨_, _⟩, h1, h2⟩ := h
    cases h2
    split at h1
    · next ho =>
      simp only [Option.bind_eq_some_iff] at h1
      obtain ⟨_, h1, h2⟩ := h1
      cases h2
      exact keep_remove (hs.ini _ _ ho) h1
    · cases h1; exact .refl m
  | moveToFront l e =>
    simp only [exec, Dllist.moveToFront, Option.bind_eq_bind, Option.bind_eq_some_iff] at h
    obtain ⟨_, h1, h2⟩ := h
    cases h2
    split at h1
    · cases h1; exact .refl m
    · exact (keep_lazyInit m l).trans (keep_move h1)
  | moveToBack l e =>
    simp only [exec, Dllist.moveToBack, Option.bind_eq_bind, Option.bind_eq_some_iff] at h
    obtain ⟨_, h1, h2⟩ := h
    cases h2
    split at h1
    · cases h1; exact .refl m
    · exact (keep_lazyInit m l).trans (keep_move h1)
  | moveBefore l e mark =>
    simp only [exec, Dllist.moveBefore, Option.bind_eq_bind, Option.bind_eq_some_iff] at h
    obtain ⟨_, h1, h2⟩ := h
    cases h2
    split at h1
    · cases h1; exact .refl m
    · exact keep_move h1
  | moveAfter l e mark =>
    simp only [exec, Dllist.moveAfter, Option.bind_eq_bind, Option.bind_eq_some_iff] at h
    obtain ⟨_, h1, h2⟩ := h
    cases h2
    split at h1
    · cases h1; exact .refl m
    · exact keep_move h1
  | swap l a b =>
    simp only [exec, Option.bind_eq_bind, Option.bind_eq_some_iff] at h
    obtain ⟨_, h1, h2⟩ := h
    cases h2
    exact keep_swap h1
  | elRemove e =>
    simp only [exec, Dllist.elRemove, Option.bind_eq_bind, Option.bind_eq_some_iff] at h
    obtain ⟨⟨_, _⟩, h1, h2⟩ := h
    cases h2
    split at h1
    · next ho =>
      simp only [Option.bind_eq_some_iff] at h1
      obtain ⟨m1, h1, h2⟩ := h1
      cases h2
      exact (keep_remove (hs.ini _ _ ho) h1).trans (.of_eq rfl rfl)
    · cases h1; exact .of_eq rfl rfl
  | elInsertBefore e v =>
    simp only [exec, Dllist.elInsertBefore, Option.bind_eq_bind, Option.bind_eq_some_iff] at h
    obtain ⟨⟨_, _⟩, h1, h2⟩ := h
    cases h2
    split at h1
    · cases h1; exact .refl m
    · next ho =>
      simp only [Option.bind_eq_some_iff] at h1
      obtain ⟨⟨_, _⟩, h1, h2⟩ := h1
      cases h2
      exact keep_insert (hs.ini _ _ ho) h1
  | elInsertAfter e v =>
    simp only [exec, Dllist.elInsertAfter, Option.bind_eq_bind, Option.bind_eq_some_iff] at h
    obtain ⟨⟨_, _⟩, h1, h2⟩ := h
    cases h2
    split at h1
    · cases h1; exact .refl m
    · next ho =>
      simp only [Option.bind_eq_some_iff] at h1
      obtain ⟨⟨_, _⟩, h1, h2⟩ := h1
      cases h2
      exact keep_insert (hs.ini _ _ ho) h1
  | elNext e => cases h; exact .refl m
  | elPrev e => cases h; exact .refl m
  | getValue e => cases h; exact .refl m
  | setValue e v => cases h; exact .of_eq rfl rfl
  | len l => cases h; exact .refl m
  | front l => cases h; exact keep_front m l
  | back l => cases h; exact keep_back m l
  | get l i =>
    simp only [exec, Dllist.get, Option.bind_eq_bind, Option.bind_eq_some_iff] at h
    obtain ⟨⟨_, _⟩, h1, h2⟩ := h
    cases h2
    split at h1
    · cases h1; exact .refl m
    · split at h1
      all_goals
        simp only [Option.bind_eq_some_iff] at h1
        obtain ⟨_, _, h1⟩ := h1
        cases h1
        exact keep_lazyInit m l

/-- **C193**: a list that was never initialised counts 0. -/
theorem C193_zero {z : T} {m : Mem T} (h : All z m) {l : Nat} (hl : m.inited l = false) : m.len l = 0 := by
  have h := C193_all.1 h
  induction h with
  | start => rfl
  | @call m m' op r ha hp he ih =>
    have k := keep_plain ha.sound hp he
    rw [k.len l hl]
    refine ih (by simpa using C193_all.2 ha) ?_
    cases hc : m.inited l with
    | false => rfl
    | true => rw [k.ini l hc] at hl; cases hl

/-- **C193**: `Sort` of any list that exists, after all calls: it comes back. -/
theorem C193_sort (z : T) (less : T → T → Bool) {m : Mem T} (h : All z m) {l : Nat} (hl : l < m.freshL) :
    (m.len l ≤ 1 → ∀ fuel, 0 < fuel → sort z less fuel m l = some m) ∧
    (1 < m.len l → ∃ ps, Walk m l ps ∧ ps.Nodup ∧ SortRes z less m l (ps.map (valueZ z m))) := by
  cases hi : m.inited l with
  | true => exact C192_sort z less (C193_all.1 h) hl hi
  | false =>
    have := C193_zero h hi
    refine ⟨fun h1 fuel hf => ?_, fun h1 => by omega⟩
    obtain ⟨j, rfl⟩ : ∃ j, fuel = j + 1 := ⟨fuel - 1, by omega⟩
    simp only [sort, h1, if_true]

/-- A list of which the sentinel's value was pushed, sorted and pushed to itself. -/
def sample4 : Option (Mem Nat) := do
  let m ← sample
  let m ← pushBackList 77 m 1 0
  let m ← sort 77 (fun a b => decide (b < a)) 5 m 1
  pushFrontList 77 m 1 1

example : (sample4.map fun m => (m.len 1, (slice 77 9 m 1).map fun r => r.map (·.2))) = some (4, some (some [77, 9, 77, 9])) := rfl

end Verif.Dllist.Push
