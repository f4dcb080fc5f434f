import Verif.HashRing.Crc
import Mathlib.Data.List.Nodup
/-!
# Which labels have the same CRC-32 (C177)

The points of a node `n` are the CRC-32 of the labels `n-0`, `n-1`, … (hashring.go:85-87). Labels of the same length that differ only within four bytes in a row have
different CRC-32; that settles the replicas of a node, and rings of nodes such as `node1`, `node2`, …
-/
namespace Verif.HashRing

/-- Bytes. -/
def Bytes (l : Str) : Prop := ∀ b ∈ l, b < 256

/-! ## CRC-32 -/

/-- `k` bits. -/
def crcBits (k c : Nat) : Nat := Nat.repeat crcBit k c

theorem crcBits_zero (c : Nat) : crcBits 0 c = c := rfl
theorem crcBits_succ (k c : Nat) : crcBits (k + 1) c = crcBit (crcBits k c) := rfl

theorem crcBits_add (j k c : Nat) : crcBits (j + k) c = crcBits j (crcBits k c) := by
  induction j with
  | zero => rw [Nat.zero_add, crcBits_zero]
  | succ j ih => rw [Nat.succ_add, crcBits_succ, crcBits_succ, ih]

theorem xor_cancel {a b x : Nat} (h : a ^^^ x = b ^^^ x) : a = b := by
  have := congrArg (· ^^^ x) h
  simpa [Nat.xor_assoc] using this

theorem crcBit_xor (a x : Nat) : crcBit a ^^^ x = crcBit (a ^^^ (2 * x)) := by
  have h1 : (a ^^^ (2 * x)) % 2 = a % 2 := by
    have := Nat.xor_mod_two_pow (a := a) (b := 2 * x) (n := 1)
    simpa using this
  have h2 : (a ^^^ (2 * x)) / 2 = a / 2 ^^^ x := by
    rw [Nat.xor_div_two]; congr 1; omega
  simp only [crcBit, h1, h2]
  split
  · rw [Nat.xor_assoc, Nat.xor_assoc, Nat.xor_comm x]
  · rfl

/-- What is mixed in after `k` bits could have been mixed in before, `k` places up. -/
theorem crcBits_xor (k a x : Nat) : crcBits k a ^^^ x = crcBits k (a ^^^ (2 ^ k * x)) := by
  induction k generalizing x with
  | zero => simp [crcBits_zero]
  | succ k ih => rw [crcBits_succ, crcBits_succ, crcBit_xor, ih, Nat.pow_succ, Nat.mul_assoc]

/-- The bytes as one number, the first the lowest. -/
def word : Str → Nat
  | [] => 0
  | b :: l => b ^^^ (2 ^ 8 * word l)

/-- A string mixes its word in. -/
theorem fold_word (l : Str) (c : Nat) : l.foldl crcByte c = crcBits (8 * l.length) (c ^^^ word l) := by
  induction l generalizing c with
  | nil => simp [word, crcBits_zero]
  | cons b l ih =>
    rw [List.foldl_cons, ih]
    have e : crcByte c b = crcBits 8 (c ^^^ b) := rfl
    rw [e, crcBits_xor, ← crcBits_add, word, Nat.xor_assoc]
    rfl

theorem crcBit_lt {c : Nat} (h : c < 2 ^ 32) : crcBit c < 2 ^ 32 := by
  unfold crcBit
  split
  · exact Nat.xor_lt_two_pow (by omega) (by decide)
  · omega

theorem crcBits_lt {c : Nat} (h : c < 2 ^ 32) (k : Nat) : crcBits k c < 2 ^ 32 := by
  induction k with
  | zero => exact h
  | succ k ih => exact crcBit_lt ih

theorem crcBit_inj {a b : Nat} (ha : a < 2 ^ 32) (hb : b < 2 ^ 32) (h : crcBit a = crcBit b) : a = b := by
  have top : ∀ c, c < 2 ^ 32 → (crcBit c).testBit 31 = decide (c % 2 = 1) := by
    intro c hc
    have h0 : (c / 2).testBit 31 = false := Nat.testBit_lt_two_pow (by omega)
    unfold crcBit
    split
    · next h1 => rw [Nat.testBit_xor, h0, h1]; decide
    · next h1 => rw [h0]; simp [h1]
  have h1 := top a ha
  rw [h, top b hb, decide_eq_decide] at h1
  have h2 : a / 2 = b / 2 := by
    unfold crcBit at h
    by_cases h3 : a % 2 = 1
    · rw [if_pos h3, if_pos (h1.2 h3)] at h
      exact xor_cancel h
    · rw [if_neg h3, if_neg (fun h4 => h3 (h1.1 h4))] at h
      exact h
  omega

theorem crcBits_inj (k : Nat) {a b : Nat} (ha : a < 2 ^ 32) (hb : b < 2 ^ 32) (h : crcBits k a = crcBits k b) : a = b := by
  induction k with
  | zero => exact h
  | succ k ih => exact ih (crcBit_inj (crcBits_lt ha k) (crcBits_lt hb k) h)

theorem fold_lt {l : Str} (hl : Bytes l) {c : Nat} (hc : c < 2 ^ 32) : l.foldl crcByte c < 2 ^ 32 := by
  induction l generalizing c with
  | nil => exact hc
  | cons b l ih =>
    have hb : b < 256 := hl b (by simp)
    exact ih (fun x hx => hl x (by simp [hx])) (crcBits_lt (Nat.xor_lt_two_pow hc (by omega)) 8)

theorem fold_inj {l : Str} (hl : Bytes l) {c d : Nat} (hc : c < 2 ^ 32) (hd : d < 2 ^ 32) (h : l.foldl crcByte c = l.foldl crcByte d) : c = d := by
  induction l generalizing c d with
  | nil => exact h
  | cons b l ih =>
    have hb : b < 256 := hl b (by simp)
    have hc' := Nat.xor_lt_two_pow hc (show b < 2 ^ 32 by omega)
    have hd' := Nat.xor_lt_two_pow hd (show b < 2 ^ 32 by omega)
    have := crcBits_inj 8 hc' hd' (ih (fun x hx => hl x (by simp [hx])) (crcBits_lt hc' 8) (crcBits_lt hd' 8) h)
    exact xor_cancel this

theorem word_lt {l : Str} (hl : Bytes l) : word l < 2 ^ (8 * l.length) := by
  induction l with
  | nil => simp [word]
  | cons b l ih =>
    have hb : b < 256 := hl b (by simp)
    have hw := ih (fun x hx => hl x (by simp [hx]))
    refine Nat.xor_lt_two_pow ?_ ?_
    · exact Nat.lt_of_lt_of_le hb (Nat.pow_le_pow_right (n := 2) (i := 8) (j := 8 * (b :: l).length) (by decide) (by rw [List.length_cons]; omega))
    · rw [List.length_cons, Nat.mul_add, Nat.pow_add, Nat.mul_comm (2 ^ 8)]
      exact Nat.mul_lt_mul_of_pos_right hw (by decide)

theorem word_inj {a b : Str} (ha : Bytes a) (hb : Bytes b) (hl : a.length = b.length) (h : word a = word b) : a = b := by
  induction a generalizing b with
  | nil => exact (List.length_eq_zero_iff.1 hl.symm).symm
  | cons x a ih =>
    cases b with
    | nil => cases hl
    | cons y b =>
      have hx : x < 2 ^ 8 := ha x (by simp)
      have hy : y < 2 ^ 8 := hb y (by simp)
      have h1 := congrArg (· % 2 ^ 8) h
      have h2 := congrArg (· / 2 ^ 8) h
      simp only [word, Nat.xor_mod_two_pow, Nat.mul_mod_right, Nat.xor_zero, Nat.mod_eq_of_lt hx, Nat.mod_eq_of_lt hy] at h1
      simp only [word, Nat.xor_div_two_pow, Nat.mul_div_cancel_left _ (show 0 < 2 ^ 8 by decide), Nat.div_eq_of_lt hx, Nat.div_eq_of_lt hy, Nat.zero_xor] at h2
      rw [h1, ih (fun z hz => ha z (by simp [hz])) (fun z hz => hb z (by simp [hz])) (by simpa using hl) h2]

/-- **C177**: two strings that differ only in at most four bytes in a row have different CRC-32. -/
theorem C177_burst (p a b q : Str) (hp : Bytes p) (ha : Bytes a) (hb : Bytes b) (hq : Bytes q) (hl : a.length = b.length) (h4 : a.length ≤ 4)
    (h : crc32 (p ++ a ++ q) = crc32 (p ++ b ++ q)) : a = b := by
  have h1 : (p ++ a ++ q).foldl crcByte 0xFFFFFFFF = (p ++ b ++ q).foldl crcByte 0xFFFFFFFF := xor_cancel h
  simp only [List.foldl_append] at h1
  have hc := fold_lt hp (show 0xFFFFFFFF < 2 ^ 32 by decide)
  have h2 := fold_inj hq (fold_lt ha hc) (fold_lt hb hc) h1
  rw [fold_word a, fold_word b, hl] at h2
  have hw : ∀ l : Str, Bytes l → l.length ≤ 4 → word l < 2 ^ 32 := fun l h1 h2 =>
    Nat.lt_of_lt_of_le (word_lt h1) (Nat.pow_le_pow_right (by decide) (by omega))
  have h3 := crcBits_inj _ (Nat.xor_lt_two_pow hc (hw a ha h4)) (Nat.xor_lt_two_pow hc (hw b hb (hl ▸ h4))) h2
  exact word_inj ha hb hl (xor_cancel (x := p.foldl crcByte 0xFFFFFFFF) (by rw [Nat.xor_comm, h3, Nat.xor_comm]))

theorem crcBit_linear (a b : Nat) : crcBit (a ^^^ b) = crcBit a ^^^ crcBit b := by
  have h1 : (a ^^^ b) % 2 = (a % 2 + b % 2) % 2 := by
    have := Nat.xor_mod_two_pow (a := a) (b := b) (n := 1)
    simp only [Nat.pow_one] at this
    rw [this]
    rcases Nat.mod_two_eq_zero_or_one a with h | h <;> rcases Nat.mod_two_eq_zero_or_one b with h' | h' <;> rw [h, h'] <;> rfl
  simp only [crcBit, h1, Nat.xor_div_two]
  rcases Nat.mod_two_eq_zero_or_one a with h | h <;> rcases Nat.mod_two_eq_zero_or_one b with h' | h' <;> simp [h, h']
  · simp only [Nat.xor_assoc]
  · simp only [Nat.xor_assoc, Nat.xor_comm (b / 2)]
  · rw [Nat.xor_assoc, Nat.xor_comm (b / 2), ← Nat.xor_assoc 3988292384, Nat.xor_self, Nat.zero_xor]

theorem crcBits_linear (k a b : Nat) : crcBits k (a ^^^ b) = crcBits k a ^^^ crcBits k b := by
  induction k with
  | zero => rfl
  | succ k ih => rw [crcBits_succ, ih, crcBit_linear]; rfl

/-- **C177**: whether two strings of the same length, whatever that is, have the same CRC-32 behind another string does not depend on that string. -/
theorem C177_prefix (p p' a b : Str) (hl : a.length = b.length) (h : crc32 (p ++ a) = crc32 (p ++ b)) : crc32 (p' ++ a) = crc32 (p' ++ b) := by
  have h1 : (p ++ a).foldl crcByte 0xFFFFFFFF = (p ++ b).foldl crcByte 0xFFFFFFFF := xor_cancel h
  simp only [List.foldl_append, fold_word a, fold_word b, hl, crcBits_linear] at h1
  rw [Nat.xor_comm, Nat.xor_comm (crcBits (8 * b.length) (p.foldl _ _))] at h1
  have h2 := xor_cancel h1
  simp only [crc32, List.foldl_append, fold_word a, fold_word b, hl, crcBits_linear, h2]

/-! ## Labels -/

theorem dec_inj {i j : Nat} (h : dec i = dec j) : i = j := by
  have h1 : Nat.toDigits 10 i = Nat.toDigits 10 j := by
    refine List.map_inj_right (fun a b h => ?_) |>.1 h
    exact Char.toNat_inj.1 h
  rw [← Nat.ofDigitChars_ten_toDigits (n := i), h1, Nat.ofDigitChars_ten_toDigits]

theorem dec_bytes (i : Nat) : Bytes (dec i) := by
  intro b hb
  obtain ⟨c, hc, rfl⟩ := List.mem_map.1 hb
  have := Nat.isDigit_of_mem_toDigits (by decide) (by decide) hc
  simp only [Char.isDigit, Bool.and_eq_true, decide_eq_true_eq] at this
  have h2 : c.val.toNat ≤ 57 := UInt32.le_iff_toNat_le.1 this.2
  have e : c.toNat = c.val.toNat := rfl
  omega

theorem dec_dash (i : Nat) : 45 ∉ dec i := by
  intro hb
  obtain ⟨c, hc, e⟩ := List.mem_map.1 hb
  have := Nat.isDigit_of_mem_toDigits (by decide) (by decide) hc
  simp only [Char.isDigit, Bool.and_eq_true, decide_eq_true_eq] at this
  have h2 : 48 ≤ c.val.toNat := UInt32.le_iff_toNat_le.1 this.1
  have e' : c.toNat = c.val.toNat := rfl
  omega

/-- **C177**: different nodes or replicas have different labels, so points coincide by the CRC-32 only. -/
theorem C177_labels {m n : Str} {i j : Nat} (h : m ++ 45 :: dec i = n ++ 45 :: dec j) : m = n ∧ i = j := by
  rcases List.append_eq_append_iff.1 h with ⟨c, h1, h2⟩ | ⟨c, h1, h2⟩
  · cases c with
    | nil => simp only [List.nil_append, List.cons.injEq, true_and] at h2; exact ⟨by simp [h1], dec_inj h2⟩
    | cons x c =>
      injection h2 with _ h2
      exact absurd (by rw [h2]; simp) (dec_dash i)
  · cases c with
    | nil => simp only [List.nil_append, List.cons.injEq, true_and] at h2; exact ⟨by simp [h1], dec_inj h2.symm⟩
    | cons x c =>
      injection h2 with _ h2
      exact absurd (by rw [h2]; simp) (dec_dash j)

theorem dec_short {i : Nat} (h : i < 10000) : (dec i).length ≤ 4 := by
  rw [dec, List.length_map]
  exact (Nat.length_toDigits_le_iff (by decide) (by decide)).2 (by simpa using h)

theorem dec_digit : (List.range 10).all (fun i => dec i == [48 + i]) = true := by decide +kernel

theorem dec_one {i : Nat} (h : i < 10) : dec i = [48 + i] := by
  simpa using List.all_eq_true.1 dec_digit i (List.mem_range.2 h)

/-- **C177**, replicas: of a node, whatever its name, two replicas below 10000 whose numbers have as many digits have different points. -/
theorem C177_replicas (n : Str) (hn : Bytes n) {i j : Nat} (hi : i < 10000) (hl : (dec i).length = (dec j).length)
    (h : strHash n i = strHash n j) : i = j := by
  have hp : Bytes (n ++ [45]) := fun b hb => by
    rcases List.mem_append.1 hb with hb | hb
    · exact hn b hb
    · simp at hb; omega
  exact dec_inj (C177_burst (n ++ [45]) (dec i) (dec j) [] hp (dec_bytes i) (dec_bytes j) (fun _ h => by simp at h) hl (dec_short hi)
    (by simpa [strHash] using h))

/-- **C177**: a node with at most ten replicas has as many points. -/
theorem C177_ten (n : Str) (hn : Bytes n) {r : Nat} (hr : r ≤ 10) : ((points strHash r n).map Pt.hash).Nodup := by
  have e : (points strHash r n).map Pt.hash = (List.range r).map (strHash n) := by simp [points]
  rw [e]
  refine (List.nodup_map_iff_inj_on List.nodup_range).2 fun i hi j hj h => ?_
  rw [List.mem_range] at hi hj
  exact C177_replicas n hn (by omega) (by rw [dec_one (by omega), dec_one (by omega)]; rfl) h

/-- **C177**: two nodes that have the same point for one replica have it for all. -/
theorem C177_twins {m n : Str} (hm : Bytes m) (hn : Bytes n) {i : Nat} (h : strHash m i = strHash n i) (j : Nat) : strHash m j = strHash n j := by
  have hs : Bytes (45 :: dec i) := fun b hb => by
    rcases List.mem_cons.1 hb with rfl | hb
    · decide
    · exact dec_bytes i b hb
  have h1 : (m ++ 45 :: dec i).foldl crcByte 0xFFFFFFFF = (n ++ 45 :: dec i).foldl crcByte 0xFFFFFFFF := xor_cancel h
  rw [List.foldl_append, List.foldl_append] at h1
  have h2 := fold_inj hs (fold_lt hm (by decide)) (fold_lt hn (by decide)) h1
  rw [strHash, strHash, crc32, crc32, List.foldl_append, List.foldl_append, h2]

/-- **C177**: whether two replicas whose numbers have as many digits have the same point does not depend on the node. -/
theorem C177_same_replicas {i j : Nat} (hl : (dec i).length = (dec j).length) (m n : Str) (h : strHash m i = strHash m j) : strHash n i = strHash n j := by
  have := C177_prefix (m ++ [45]) (n ++ [45]) (dec i) (dec j) hl (by simpa [strHash] using h)
  simpa [strHash] using this

/-- `"xusund"` -/
def xusund : Str := [120, 117, 115, 117, 110, 100]

/-- With eleven replicas a node can have ten: `xusund-4` and `xusund-10` have the same CRC-32. -/
theorem C177_eleven : ¬ ∀ n, Bytes n → ((points strHash 11 n).map Pt.hash).Nodup := by
  intro h
  exact absurd (h xusund (by intro b hb; simp [xusund] at hb; omega)) (by decide +kernel)

/-- Names that are alike but for the last two bytes. -/
def Alike (p : Str) (n : Str) : Prop := ∃ x y, x < 256 ∧ y < 256 ∧ n = p ++ [x, y]

/-- **C177**, nodes: with names alike but for the last two bytes and at most ten replicas, all points differ. -/
theorem C177_nodes (p : Str) (hp : Bytes p) {m n : Str} (hm : Alike p m) (hn : Alike p n) {i j : Nat} (hi : i < 10) (hj : j < 10)
    (h : strHash m i = strHash n j) : m = n ∧ i = j := by
  obtain ⟨x, y, hx, hy, rfl⟩ := hm
  obtain ⟨x', y', hx', hy', rfl⟩ := hn
  have := C177_burst p [x, y, 45, 48 + i] [x', y', 45, 48 + j] [] hp
    (by intro b hb; simp at hb; omega) (by intro b hb; simp at hb; omega) (fun _ h => by simp at h) rfl (by simp)
    (by simpa [strHash, dec_one hi, dec_one hj] using h)
  simp at this
  obtain ⟨rfl, rfl, e⟩ := this
  exact ⟨rfl, e⟩

section
variable (ω : GoSet.Ord Str) (g : Nat → Nat) (P : Vec.SortImpl (Pt Str)) (p : Str) (hp : Bytes p) {r : Int} (cs : List (Call Str))
include hp

theorem alike_apart (hr : r ≤ 10) (hm : ∀ n, members cs n → Alike p n) : Apart strHash r.toNat (members cs) := by
  rintro ⟨a, ha⟩ ⟨b, hb⟩ ⟨h1, i, hi, h2⟩ ⟨h3, j, hj, h4⟩ h
  simp only at h1 h2 h3 h4 h
  exact (C177_nodes p hp (hm _ h1) (hm _ h3) (i := i) (j := j) (by omega) (by omega) (by rw [← h2, ← h4, h])).1

/-- **C177**, rings: if the names of the nodes and the key are alike but for the last two bytes, and there are at most ten replicas, `GetNode` returns a node. -/
theorem C177_member (h0 : 0 < r) (hr : r ≤ 10) (hm : ∀ n, members cs n → Alike p n) (hne : ∃ n, members cs n) (key : Str) (hk : Alike p key) :
    ∃ R n, run (strEnv ω g P) r cs = some R ∧ getNode (strEnv ω g P) R key = some n ∧ members cs n := by
  obtain ⟨R, n, h1, h2, _, h3⟩ := C61_partial (e := strEnv ω g P) r cs key h0 hne
  refine ⟨R, n, h1, h2, h3 ?_⟩
  rintro ⟨a, ha⟩ ⟨h4, i, hi, h5⟩ h6
  simp only at h4 h5 h6 ⊢
  exact (C177_nodes p hp (hm _ h4) hk (i := i) (j := 0) (by omega) (by omega) (by rw [← show ha = strHash a i from h5]; exact h6)).1

/-- **C177**, history: such rings with the same nodes give every key, whatever it is, to the same node. -/
theorem C177_history (ω' : GoSet.Ord Str) (g' : Nat → Nat) (P' : Vec.SortImpl (Pt Str)) (cs' : List (Call Str)) (hr : r ≤ 10)
    (hm : ∀ n, members cs n → Alike p n) (hs : ∀ n, members cs n ↔ members cs' n) (key : Str) :
    ∃ R R' n, run (strEnv ω g P) r cs = some R ∧ run (strEnv ω' g' P') r cs' = some R' ∧ getNode (strEnv ω g P) R key = some n ∧
      getNode (strEnv ω' g' P') R' key = some n :=
  C63 (e := strEnv ω g P) (strEnv ω' g' P') rfl rfl r cs cs' hs (alike_apart p hp cs hr hm) key

end

/-! ## Examples -/

/-- `node-07` and `node-42`. -/
example : Alike [110, 111, 100, 101, 45] [110, 111, 100, 101, 45, 48, 55] ∧ Alike [110, 111, 100, 101, 45] [110, 111, 100, 101, 45, 52, 50] :=
  ⟨⟨48, 55, by decide, by decide, rfl⟩, ⟨52, 50, by decide, by decide, rfl⟩⟩

/-- Five bytes in a row are too many: two strings that differ in five have the same CRC-32. -/
example : crc32 [0, 0, 0, 0, 0] = crc32 [1, 150, 48, 7, 119] := by decide +kernel

/-- The two of `C61_false`. -/
example : strHash itstrus 123 = strHash node1 123 := by decide +kernel

example : strHash xusund 4 = strHash xusund 10 ∧ strHash xusund 4 ≠ strHash xusund 5 := by decide +kernel

end Verif.HashRing
