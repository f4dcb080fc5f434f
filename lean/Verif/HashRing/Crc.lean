import Verif.HashRing.Props
import Verif.Vec.More
/-!
# The hash function of the ring, and examples

`hash/crc32.ChecksumIEEE` (the CRC-32 of IEEE 802.3, reflected, polynomial `0xEDB88320`) of the bytes of
`fmt.Sprintf("%v-%d", key, index)`, for nodes that are strings.  The definition is the bitwise one; the
tables and instructions used by the Go library are an optimisation of it.
-/
namespace Verif.HashRing

/-- One bit. -/
def crcBit (c : Nat) : Nat := if c % 2 = 1 then (c / 2) ^^^ 0xEDB88320 else c / 2
/-- One byte. -/
def crcByte (c b : Nat) : Nat := Nat.repeat crcBit 8 (c ^^^ b)
/-- `crc32.ChecksumIEEE`. -/
def crc32 (bs : List Nat) : Nat := bs.foldl crcByte 0xFFFFFFFF ^^^ 0xFFFFFFFF

/-- A Go string: its bytes. -/
abbrev Str := List Nat

/-- The decimal digits of a number, as `%d` prints it. -/
def dec (n : Nat) : Str := (Nat.toDigits 10 n).map Char.toNat

/-- `hashKey` for strings: hashring.go:85-87. -/
def strHash (key : Str) (index : Nat) : Nat := crc32 (key ++ 45 :: dec index)

/-- The check value of CRC-32 and some values printed by other implementations. -/
example : crc32 [49, 50, 51, 52, 53, 54, 55, 56, 57] = 0xCBF43926 := by decide +kernel
example : crc32 [] = 0 := by decide +kernel
example : dec 120 = [49, 50, 48] := by decide +kernel

/-- Rings of strings, with any iteration orders, allocator and sorting function. -/
def strEnv (ω : GoSet.Ord Str) (g : Nat → Nat) (P : Vec.SortImpl (Pt Str)) : Env Str :=
  { hash := strHash, zero := [], ω, g, P }

/-- `"node1"` -/
def node1 : Str := [110, 111, 100, 101, 49]
/-- `"itstrus"` -/
def itstrus : Str := [105, 116, 115, 116, 114, 117, 115]

/-- The values of other implementations of CRC-32 for `"node1-0"` and `"node1-12"`. -/
example : strHash node1 0 = 4233586193 ∧ strHash node1 12 = 1770191064 := by decide +kernel

theorem collision : strHash itstrus 0 = strHash node1 0 := by decide +kernel

/-- C61 is false of the code: in a ring with the single node `"node1"`, `GetNode("itstrus")` is `"itstrus"`,
which never was a node; `hash("itstrus-0") = hash("node1-0")`. -/
theorem C61_false (ω : GoSet.Ord Str) (g : Nat → Nat) (P : Vec.SortImpl (Pt Str)) : ¬ C61_statement (strEnv ω g P) := by
  intro h
  obtain ⟨hr, n, h1, h2, h3⟩ := h 1 [.add [node1]] itstrus (by decide) ⟨node1, by simp [members, Call.apply]⟩
  obtain ⟨hr', n', h1', h2', _, h3', _⟩ := C62_exact (e := strEnv ω g P) 1 [.add [node1]] itstrus
  rw [h1] at h1'
  injection h1' with h1'
  subst h1'
  rw [h2] at h2'
  injection h2' with h2'
  subst h2'
  have := h3' ⟨⟨node1, strHash node1 0⟩, ⟨by simp [members, Call.apply], 0, by decide, rfl⟩, collision.symm⟩
  subst this
  simp [members, Call.apply, itstrus, node1] at h3

/-! ## A sorting function that can be run in the kernel -/

/-- Insert before the first element that is not smaller. -/
def ins {T : Type} (le : T → T → Bool) (a : T) : List T → List T
  | [] => [a]
  | b :: l => if le a b = true then a :: b :: l else b :: ins le a l
/-- Insertion sort. -/
def isort {T : Type} (le : T → T → Bool) : List T → List T
  | [] => []
  | a :: l => ins le a (isort le l)

theorem ins_perm {T : Type} (le : T → T → Bool) (a : T) (l : List T) : (ins le a l).Perm (a :: l) := by
  induction l with
  | nil => exact .refl _
  | cons b l ih =>
    unfold ins
    split
    · exact .refl _
    · exact (ih.cons b).trans (.swap a b l)

theorem isort_perm {T : Type} (le : T → T → Bool) (l : List T) : (isort le l).Perm l := by
  induction l with
  | nil => exact .refl _
  | cons a l ih => exact (ins_perm le a _).trans (ih.cons a)

theorem ins_sorted {T : Type} (cmp : T → T → Int) (h : Vec.SWO cmp) (a : T) (l : List T)
    (hl : l.Pairwise (fun a b => Vec.leOf cmp a b = true)) :
    (ins (Vec.leOf cmp) a l).Pairwise (fun a b => Vec.leOf cmp a b = true) := by
  induction l with
  | nil => simp [ins]
  | cons b l ih =>
    unfold ins
    rw [List.pairwise_cons] at hl
    split
    · next hab =>
      rw [List.pairwise_cons, List.pairwise_cons]
      refine ⟨?_, hl⟩
      intro c hc
      rcases List.mem_cons.1 hc with rfl | hc
      · exact hab
      · exact Vec.leOf_trans cmp h a b c hab (hl.1 c hc)
    · next hab =>
      rw [List.pairwise_cons]
      refine ⟨?_, ih hl.2⟩
      intro c hc
      rcases List.mem_cons.1 ((ins_perm _ a l).mem_iff.1 hc) with rfl | hc
      · have := Vec.leOf_total cmp h c b
        rw [Bool.or_eq_true] at this
        exact this.resolve_left hab
      · exact hl.1 c hc

theorem isort_sorted {T : Type} (cmp : T → T → Int) (h : Vec.SWO cmp) (l : List T) :
    (isort (Vec.leOf cmp) l).Pairwise (fun a b => Vec.leOf cmp a b = true) := by
  induction l with
  | nil => exact .nil
  | cons a l ih => exact ins_sorted cmp h a _ ih

theorem ins_stable {T : Type} (cmp : T → T → Int) (h : Vec.SWO cmp) (x a : T) (l : List T) :
    (ins (Vec.leOf cmp) a l).filter (Vec.equivB cmp x) = (a :: l).filter (Vec.equivB cmp x) := by
  induction l with
  | nil => rfl
  | cons b l ih =>
    unfold ins
    split
    · rfl
    · next hab =>
      rw [List.filter_cons, ih]
      by_cases hb : Vec.equivB cmp x b = true
      · have ha : ¬ Vec.equivB cmp x a = true := fun ha => hab (Vec.equiv_le cmp x a b h ha hb)
        simp [hb, ha]
      · simp [List.filter_cons, hb]

theorem ins_map {A T : Type} (f : A → T) (le : T → T → Bool) (a : A) (l : List A) :
    ins le (f a) (l.map f) = (ins (fun x y => le (f x) (f y)) a l).map f := by
  induction l with
  | nil => rfl
  | cons b l ih =>
    simp only [List.map_cons, ins]
    split
    · rfl
    · rw [ih]; rfl

theorem isort_map {A T : Type} (f : A → T) (le : T → T → Bool) (l : List A) :
    isort le (l.map f) = (isort (fun x y => le (f x) (f y)) l).map f := by
  induction l with
  | nil => rfl
  | cons a l ih => rw [List.map_cons, isort, ih, ins_map]; rfl

/-- A list sorted as a list of its own elements. -/
theorem isort_attach {T : Type} (cmp : T → T → Int) (l : List T) :
    isort (Vec.leOf cmp) l = (isort (Vec.leOf fun a b : {x // x ∈ l} => cmp a b) l.attach).map Subtype.val := by
  have := isort_map (Subtype.val : {x // x ∈ l} → T) (Vec.leOf cmp) l.attach
  rw [List.attach_map_subtype_val] at this
  exact this

theorem isort_sorted_on {T : Type} (cmp : T → T → Int) (l : List T) (h : Vec.SWO (fun a b : {x // x ∈ l} => cmp a b)) :
    (isort (Vec.leOf cmp) l).Pairwise (fun a b => ¬ cmp b a < 0) := by
  rw [isort_attach, List.pairwise_map]
  exact (isort_sorted _ h _).imp (by intro a b hab; simpa [Vec.leOf] using hab)

theorem isort_stable {T : Type} (cmp : T → T → Int) (h : Vec.SWO cmp) (x : T) (l : List T) :
    (isort (Vec.leOf cmp) l).filter (Vec.equivB cmp x) = l.filter (Vec.equivB cmp x) := by
  induction l with
  | nil => rfl
  | cons a l ih =>
    show (ins (Vec.leOf cmp) a (isort (Vec.leOf cmp) l)).filter _ = _
    rw [ins_stable cmp h, List.filter_cons, ih, List.filter_cons]

theorem isort_stable_on {T : Type} (cmp : T → T → Int) (l : List T) (h : Vec.SWO (fun a b : {x // x ∈ l} => cmp a b))
    (x : T) (hx : x ∈ l) : (isort (Vec.leOf cmp) l).filter (Vec.equivB cmp x) = l.filter (Vec.equivB cmp x) := by
  have h4 := congrArg (List.map Subtype.val) (isort_stable _ h ⟨x, hx⟩ l.attach)
  have hc : (Vec.equivB (fun a b : {x // x ∈ l} => cmp a b) ⟨x, hx⟩) = Vec.equivB cmp x ∘ Subtype.val := rfl
  rw [hc, ← List.filter_map, ← List.filter_map, List.attach_map_subtype_val, ← isort_attach] at h4
  exact h4

/-- Insertion sort as a sorting function. -/
def insertImpl (T : Type) : Vec.SortImpl T where
  sort := Vec.checked fun cmp l => isort (Vec.leOf cmp) l
  sort_ok := Vec.checked_sorts (fun _ l => isort_perm _ l) isort_sorted_on
  stable := Vec.checked fun cmp l => isort (Vec.leOf cmp) l
  stable_ok := Vec.checked_sorts (fun _ l => isort_perm _ l) isort_sorted_on
  stable_stable cmp l l' h he x hx := by
    rcases Vec.checked_some he with ⟨_, rfl⟩ | rfl
    · rfl
    · exact isort_stable_on cmp l h x hx

/-! ## Examples -/

/-- The order of first insertion. -/
def idOrd (N : Type) : GoSet.Ord N := { order := fun _ l => l, perm := fun _ _ => .refl _ }

/-- The reverse of it. -/
def revOrd (N : Type) : GoSet.Ord N := { order := fun _ l => l.reverse, perm := fun _ l => l.reverse_perm }

/-- An environment with numbers as nodes; node `n` has the points `100 * n`, `100 * n + 37`, … modulo 1000. -/
def numEnv : Env Nat :=
  { hash := fun n i => (100 * n + 37 * i) % 1000, zero := 0, ω := revOrd Nat, g := fun _ => 1, P := insertImpl _ }

/-- `GetNode` of some keys after some calls. -/
def gets (e : Env Nat) (r : Int) (cs : List (Call Nat)) (keys : List Nat) : Option (List Nat) :=
  (run e r cs).bind fun hr => keys.mapM (getNode e hr)

def ptsOf (e : Env Nat) (r : Int) (cs : List (Call Nat)) : Option (List (Nat × Nat)) :=
  (run e r cs).map fun hr => hr.pts.map fun p => (p.node, p.hash)

-- C65
example : ptsOf numEnv 2 [.add [7, 2, 7], .add [2, 4], .remove [4, 9]] = some [(2, 200), (2, 237), (7, 700), (7, 737)] := by
  decide +kernel
example : ptsOf numEnv 2 [.add [7, 2], .reset [], .add [3]] = some [(3, 300), (3, 337)] := by decide +kernel
example : ptsOf numEnv (-1) [.add [7, 2]] = some [] := by decide +kernel
-- C61, C62: between two points, on a point of a member, after the last point, before the first
example : gets numEnv 2 [.add [7, 2]] [3, 5, 7, 8, 9, 1] = some [7, 7, 7, 2, 2, 2] := by decide +kernel
example : gets numEnv 2 [] [3] = some [0] := by decide +kernel
example : gets numEnv 0 [.add [7]] [3] = some [0] := by decide +kernel
-- the key 12 has the hash of node 2
example : gets numEnv 2 [.add [7, 2]] [12] = some [12] := by decide +kernel

/-- C62, C64: the hypotheses hold of the keys below 10. -/
theorem num_apart : Apart numEnv.hash 2 (fun n => n < 10) := by
  rintro ⟨n, h⟩ ⟨m, h'⟩ ⟨h1, i, hi, e1⟩ ⟨h2, j, hj, e2⟩ he
  simp only [numEnv] at *
  omega

theorem num_keyApart {key : Nat} (hk : key < 10) : KeyApart numEnv.hash 2 (fun n => n < 10) key := by
  rintro ⟨n, h⟩ ⟨h1, i, hi, e1⟩ he
  simp only [numEnv] at *
  omega

example : Owns numEnv.hash 2 (members [.add [7, 2]]) (numEnv.hash 5 0) 7 := by
  have hm : ∀ x, members [Call.add [7, 2]] x ↔ x = 7 ∨ x = 2 := by simp [members, Call.apply]
  obtain ⟨hr, h1, _, h2⟩ := C62 (e := numEnv) 2 [.add [7, 2]] 5
    ((num_keyApart (by decide)).mono fun x hx => by rcases (hm x).1 hx with rfl | rfl <;> decide)
  obtain ⟨n, h3, h4⟩ := h2 (by decide) ⟨7, (hm 7).2 (.inl rfl)⟩
  have h5 : gets numEnv 2 [.add [7, 2]] [5] = some [7] := by decide +kernel
  simp only [gets, h1, Option.bind_some, List.mapM_cons, h3, List.mapM_nil, Option.bind_eq_bind, Option.pure_def,
    Option.some.injEq, List.cons.injEq, and_true] at h5
  subst h5; exact h4

-- C63
example : gets numEnv 2 [.add [7, 2], .add [4]] [3, 5, 8] = gets { numEnv with ω := idOrd Nat, g := fun n => n } 2
    [.add [9], .reset [4, 1], .add [2, 7], .remove [1]] [3, 5, 8] := by decide +kernel
-- C64
example : gets numEnv 2 [.add [7, 2]] [1, 3, 5, 8] = some [2, 7, 7, 2] := by decide +kernel
example : gets numEnv 2 [.add [7, 2], .add [4]] [1, 3, 5, 8] = some [2, 4, 7, 2] := by decide +kernel
example : gets numEnv 2 [.add [7, 2, 4], .remove [2]] [1, 3, 5, 8] = some [4, 4, 7, 4] := by decide +kernel

def strGet (cs : List (Call Str)) (key : Str) : Option Str :=
  let e := strEnv (idOrd Str) (fun _ => 1) (insertImpl _)
  (run e 1 cs).bind fun hr => getNode e hr key

/-- C63 needs `Apart`: for CRC-32 and colliding nodes the owner depends on the order of the calls. -/
theorem C63_collision : strGet [.add [node1], .add [itstrus]] [97] = some node1 ∧
    strGet [.add [itstrus], .add [node1]] [97] = some itstrus := by decide +kernel

/-- C64 needs `KeyApart`: after adding `"node1"` the key `"itstrus"` maps to neither the old nor the new node. -/
theorem C64_collision : strGet [.add [[97]]] itstrus = some [97] ∧
    strGet [.add [[97]], .add [node1]] itstrus = some itstrus := by decide +kernel

end Verif.HashRing
