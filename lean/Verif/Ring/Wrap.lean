import Verif.Ring.Props
import Mathlib.Tactic.NormNum
/-!
# `Unlink` with integers of 32 or 64 bits (C130)

The model of ring.go has unbounded integers.  The only arithmetic on an argument is `n + 1` in `Unlink` (ring.go:77); the loops of `Move`
(ring.go:34-41) count towards 0, so they do not overflow.
-/
namespace Verif.Ring
open Verif.Ring.Spec
variable {T : Type}

/-- What an `int` of `w` bits has for `x`: Go drops the bits that do not fit. -/
def intw (w : Nat) (x : Int) : Int := Int.bmod x (2 ^ w)

/-- An `int` of `w` bits. -/
def IsInt (w : Nat) (x : Int) : Prop := -2 ^ (w - 1) ≤ x ∧ x < 2 ^ (w - 1)

/-- `Unlink`: ring.go:73-78, with the sum of line 77 in `w` bits. -/
def unlinkW (w : Nat) (m : Mem T) (r : Nat) (n : Int) : Option (Mem T × Option Nat) :=
  if n ≤ 0 then some (m, none)
  else do
    let (m, s) ← move m r (intw w (n + 1))
    link m r s

/-- `intw` drops multiples of `2 ^ w` and gives an `int`. -/
theorem intw_spec (w : Nat) (hw : 0 < w) (x : Int) : IsInt w (intw w x) ∧ ∃ q : Int, intw w x = x + q * 2 ^ w := by
  have hp : (2 : Int) ^ w = 2 * 2 ^ (w - 1) := by
    obtain ⟨w, rfl⟩ : ∃ v, w = v + 1 := ⟨w - 1, by omega⟩
    rw [Int.pow_succ]; simp [Int.mul_comm]
  have hpn : ((2 ^ w : Nat) : Int) = 2 * 2 ^ (w - 1) := by rw [← hp]; simp
  have hpos : (0 : Int) < 2 ^ (w - 1) := Int.pow_pos (by norm_num)
  have h1 := Int.le_bmod (x := x) (m := 2 ^ w) (Nat.pow_pos (by norm_num))
  have h2 := Int.bmod_lt (x := x) (m := 2 ^ w) (Nat.pow_pos (by norm_num))
  rw [hpn] at h1 h2
  refine ⟨⟨by unfold intw; omega, by unfold intw; omega⟩, ?_⟩
  have h3 := Int.dvd_bmod_sub_self (x := x) (m := 2 ^ w)
  obtain ⟨q, hq⟩ := h3
  refine ⟨q, ?_⟩
  unfold intw
  have : ((2 ^ w : Nat) : Int) = 2 ^ w := by simp
  rw [this, Int.mul_comm] at hq
  omega

theorem intw_id {w : Nat} (hw : 0 < w) {x : Int} (hx : IsInt w x) : intw w x = x := by
  obtain ⟨⟨h1, h2⟩, q, hq⟩ := intw_spec w hw x
  have hp : (2 : Int) ^ w = 2 * 2 ^ (w - 1) := by
    obtain ⟨w, rfl⟩ : ∃ v, w = v + 1 := ⟨w - 1, by omega⟩
    rw [Int.pow_succ]; simp [Int.mul_comm]
  have hpos : (0 : Int) < 2 ^ (w - 1) := Int.pow_pos (by norm_num)
  obtain ⟨h3, h4⟩ := hx
  rw [hp] at hq
  have : q = 0 := by
    rcases Int.lt_trichotomy q 0 with h | h | h
    · have : q * (2 * 2 ^ (w - 1)) ≤ -1 * (2 * 2 ^ (w - 1)) := Int.mul_le_mul_of_nonneg_right (by omega) (by omega)
      omega
    · exact h
    · have : 1 * (2 * 2 ^ (w - 1)) ≤ q * (2 * 2 ^ (w - 1)) := Int.mul_le_mul_of_nonneg_right (by omega) (by omega)
      omega
  rw [hq, this]; omega

/-- The largest `int` plus 1. -/
theorem intw_max {w : Nat} (hw : 0 < w) : intw w (2 ^ (w - 1)) = -2 ^ (w - 1) := by
  obtain ⟨⟨h1, h2⟩, q, hq⟩ := intw_spec w hw (2 ^ (w - 1))
  have hp : (2 : Int) ^ w = 2 * 2 ^ (w - 1) := by
    obtain ⟨w, rfl⟩ : ∃ v, w = v + 1 := ⟨w - 1, by omega⟩
    rw [Int.pow_succ]; simp [Int.mul_comm]
  have hpos : (0 : Int) < 2 ^ (w - 1) := Int.pow_pos (by norm_num)
  rw [hp] at hq
  have : q = -1 := by
    rcases Int.lt_trichotomy q (-1) with h | h | h
    · have : q * (2 * 2 ^ (w - 1)) ≤ -2 * (2 * 2 ^ (w - 1)) := Int.mul_le_mul_of_nonneg_right (by omega) (by omega)
      omega
    · exact h
    · have : 0 * (2 * 2 ^ (w - 1)) ≤ q * (2 * 2 ^ (w - 1)) := Int.mul_le_mul_of_nonneg_right (by omega) (by omega)
      omega
  rw [hq, this]; omega

/-- **C130**: what `Unlink(n)` does for every `int` `n > 0`: it cuts out the elements up to the one that `Move` finds. -/
theorem C130_exact {dflt : T} {h : List (Op T × Res T)} {m : Mem T} (hr : MRun dflt h m) {r : Nat}
    {A : List Nat} (h1 : IsRing m (r :: A)) (w : Nat) {n : Int} (hn : 0 < n) :
    ∃ m', unlinkW w m r n = some (m', (A ++ [r]).head?) ∧
      CutOut m m' r (A.take ((intw w (n + 1) - 1) % (r :: A).length).toNat)
        (A.drop ((intw w (n + 1) - 1) % (r :: A).length).toNat) := by
  obtain ⟨S, _, hs⟩ := hr.sim
  have e1 := hs.isRing.1 h1
  have hl : (0 : Int) < ((r :: A).length : Int) := by simp
  -- an argument for which there is no overflow and `Move` finds the same element
  have hk0 := Int.emod_nonneg (intw w (n + 1) - 1) (show ((r :: A).length : Int) ≠ 0 by omega)
  obtain ⟨n', hn'⟩ : ∃ n', n' = (intw w (n + 1) - 1) % (r :: A).length + (r :: A).length := ⟨_, rfl⟩
  have hn'0 : 0 < n' := by omega
  have hmod : n' % (r :: A).length = (intw w (n + 1) - 1) % (r :: A).length := by
    rw [hn', Int.add_emod_right, Int.emod_emod_of_dvd _ (Int.dvd_refl _)]
  have hmod1 : (n' + 1) % (r :: A).length = intw w (n + 1) % (r :: A).length := by
    rw [Int.add_emod, hmod, ← Int.add_emod]; simp
  have hun : unlinkW w m r n = unlink m r n' := by
    have hrf := h1.alloc r (by simp)
    unfold unlinkW unlink
    rw [if_neg (by omega), if_neg (by omega), hs.move hrf, hs.move hrf]
    rw [e1]
    unfold at_
    rw [hmod1]
  obtain ⟨m', q1, q2⟩ := hs.unlink (h1.alloc r (by simp)) hn'0
  rw [e1, at_one] at q1
  rw [e1, List.tail_cons, hmod] at q2
  exact ⟨m', hun.trans q1, hs.cutOut (by rwa [List.take_append_drop]) q2⟩

/-- **C130**: `Unlink(n)` for `n <= 0` changes nothing, and returns nil. -/
theorem C130_nothing (w : Nat) (m : Mem T) (r : Nat) {n : Int} (hn : n ≤ 0) : unlinkW w m r n = some (m, none) := by
  unfold unlinkW; rw [if_pos hn]

/-- **C130**, except for the largest `int` in rings whose length is no power of two: `Unlink(n)` is that of C42. The full statement is that of `C130_false`. -/
theorem C130_partial {dflt : T} {h : List (Op T × Res T)} {m : Mem T} (hr : MRun dflt h m) {r : Nat}
    {A : List Nat} (h1 : IsRing m (r :: A)) {w : Nat} (hw : 0 < w) {n : Int} (hi : IsInt w n) (hn : 0 < n)
    (hx : n + 1 < 2 ^ (w - 1) ∨ ((r :: A).length : Int) ∣ 2 ^ w) :
    ∃ m', unlinkW w m r n = some (m', (A ++ [r]).head?) ∧
      CutOut m m' r (A.take (n % (r :: A).length).toNat) (A.drop (n % (r :: A).length).toNat) := by
  have e : (intw w (n + 1) - 1) % (r :: A).length = n % (r :: A).length := by
    rcases hx with hx | hx
    · rw [intw_id hw ⟨by obtain ⟨h1, _⟩ := hi; omega, hx⟩]; simp
    · obtain ⟨_, q, hq⟩ := intw_spec w hw (n + 1)
      obtain ⟨c, hc⟩ := hx
      rw [hq, hc, show n + 1 + q * (((r :: A).length : Int) * c) - 1 = n + ((r :: A).length : Int) * (q * c) by
        rw [Int.mul_left_comm]; omega, Int.add_mul_emod_self_left]
  have := C130_exact hr h1 w hn
  rwa [e] at this

/-- The number of elements cut out is wrong in all other cases. -/
theorem C130_wrong {w : Nat} (hw : 0 < w) {n : Int} {len : Nat} (hl : 0 < len) (hi : IsInt w n)
    (hx : ¬ (n + 1 < 2 ^ (w - 1) ∨ (len : Int) ∣ 2 ^ w)) :
    (intw w (n + 1) - 1) % len ≠ n % len := by
  have hp : (2 : Int) ^ w = 2 * 2 ^ (w - 1) := by
    obtain ⟨w, rfl⟩ : ∃ v, w = v + 1 := ⟨w - 1, by omega⟩
    rw [Int.pow_succ]; simp [Int.mul_comm]
  have hn : n + 1 = 2 ^ (w - 1) := by obtain ⟨_, h2⟩ := hi; omega
  intro he
  refine hx (.inr ?_)
  have := Int.dvd_of_emod_eq_zero (Int.emod_eq_emod_iff_emod_sub_eq_zero.1 he)
  rw [hn, intw_max hw, show -2 ^ (w - 1) - 1 - n = -(2 ^ w : Int) by rw [hp]; omega] at this
  exact (Int.dvd_neg).1 this

/-- **C130** is false: in a ring of 3 elements `Unlink` of the largest `int` of 64 bits removes nothing; `n mod 3` is 1. -/
theorem C130_false : ¬ ∀ (h : List (Op Nat × Res Nat)) (m : Mem Nat) (r : Nat) (A : List Nat) (n : Int),
    MRun 0 h m → IsRing m (r :: A) → IsInt 64 n → 0 < n →
    ∃ m', unlinkW 64 m r n = some (m', (A ++ [r]).head?) ∧
      CutOut m m' r (A.take (n % (r :: A).length).toNat) (A.drop (n % (r :: A).length).toNat) := by
  intro H
  obtain ⟨m, x, A, hs, hring, hlen, -⟩ := (C39_new (dflt := 0) (.nil) 3).2 (by omega)
  have hrun : MRun 0 [(.new 3, .elem (some x))] m := .snoc .nil (by simp [Mem.Args]) hs
  match A, hring, hlen with
  | [a, b], hring, _ =>
    have hi : IsInt 64 (2 ^ 63 - 1) := ⟨by norm_num, by norm_num⟩
    obtain ⟨m1, h1, hc1, -⟩ := H _ m x [a, b] (2 ^ 63 - 1) hrun hring hi (by norm_num)
    obtain ⟨m2, h2, hc2, -⟩ := C130_exact hrun hring 64 (n := 2 ^ 63 - 1) (by norm_num)
    rw [h1] at h2
    simp only [Option.some.injEq, Prod.mk.injEq, and_true] at h2
    subst h2
    have e1 : ((2 ^ 63 - 1 : Int) % ([x, a, b] : List Nat).length).toNat = 1 := by norm_num
    have e2 : ((intw 64 (2 ^ 63 - 1 + 1) - 1) % ([x, a, b] : List Nat).length).toNat = 0 := by
      have : intw 64 (2 ^ 63 - 1 + 1) = -2 ^ 63 := by
        have := intw_max (w := 64) (by norm_num)
        norm_num at this ⊢; exact this
      rw [this]; norm_num
    rw [e1] at hc1
    rw [e2] at hc2
    -- the same memory has a ring of 2 and one of 3 elements at `x`
    have hn := hc2.nodup
    have n1 := hc1.next 0 x rfl
    have n2 := hc2.next 0 x rfl
    rw [n1] at n2
    simp at n2
    simp [n2] at hn

/-- The largest `int` is right for a ring of 4 elements, not for one of 6. -/
example : ((4 : Nat) : Int) ∣ 2 ^ 64 ∧ ¬ ((6 : Nat) : Int) ∣ 2 ^ 64 := by norm_num

/-- In 8 bits, `Unlink(127)` of a ring of 5 elements removes 1 (`-128 - 1` modulo 5) instead of 2; `Unlink(126)` removes 1. -/
example : (intw 8 (127 + 1) - 1) % 5 = 1 ∧ (127 : Int) % 5 = 2 ∧ (intw 8 (126 + 1) - 1) % 5 = 1 ∧ (126 : Int) % 5 = 1 := by decide +kernel
end Verif.Ring
