import Verif.Set.Float
import Verif.HashRing.Crc
import Mathlib.Data.List.Perm.Basic
import Mathlib.Data.List.Induction
/-!
# Hash rings of floats

The nodes of a ring are of any ordered type (hashring.go:12), floats included.  The model of `Verif.HashRing.Model` assumes a lawful equality.
Here `==` is only symmetric and transitive (`EqOp`), as in `Verif.Set.Float`: the sets and the vector are values, every loop over a map has an order of its own.
`hash` is `hashKey` (hashring.go:85-87); equal nodes may have different hashes, since 0 and -0 print differently.
-/
namespace Verif.HashRing.Float
open Verif.GoSet.Float (EqOp Order Has contain push difference intersection slice clearAll clearLoop nans WF C121_float nil_has)
variable {F : Type}

/-- The fields of a ring: hashring.go:12-16. -/
structure St (F : Type) where
  raw : List F
  pts : List (Pt F)

/-- `Sort` of the vector (hashring.go:53), by the hashes. -/
structure Sorter (F : Type) where
  f : List (Pt F) → List (Pt F)
  perm : ∀ l, (f l).Perm l
  sorted : ∀ l, (f l).Pairwise fun p q => p.hash ≤ q.hash

/-- The orders of the loops of one call. -/
structure Ords (F : Type) where
  (a b c d e g h : Order F)

/-- What does not change: `==`, the hash, `replicas`, the sort, and which of the two ways of `maps.Clear` it is (`Verif.Set.Float`). -/
structure Env (F : Type) where
  Q : EqOp F
  hash : F → Nat → Nat
  r : Int
  srt : Sorter F
  /-- `maps.Clear` deletes the keys it meets -/
  old : Bool

variable (E : Env F) (o : Ords F)

/-- `rawNodes.Clear()`: set.go:70-73. -/
def clear (l : List F) : List F := if E.old then clearLoop E.Q o.d l else clearAll l

/-- `AddNodes`: hashring.go:38-55. -/
def addNodes (st : St F) (ns : List F) : St F :=
  if ns.length = 0 then st
  else
    let s := difference E.Q o.a (push E.Q [] ns) st.raw
    let pts := st.pts ++ (slice o.b s).flatMap (points E.hash E.r.toNat)
    let raw := push E.Q st.raw (slice o.c s)
    ⟨raw, E.srt.f pts⟩

/-- `ResetNodes`: hashring.go:57-61. -/
def resetNodes (st : St F) (ns : List F) : St F := addNodes E o ⟨clear E o st.raw, []⟩ ns

/-- `RemoveNodes`: hashring.go:89-95. -/
def removeNodes (st : St F) (ns : List F) : St F :=
  if ns.length = 0 then st
  else
    let s := intersection E.Q o.e st.raw (push E.Q [] ns)
    resetNodes E o st (slice o.g (difference E.Q o.h st.raw s))

/-- One call. -/
def exec (st : St F) : Call F → St F
  | .add ns => addNodes E o st ns
  | .remove ns => removeNodes E o st ns
  | .reset ns => resetNodes E o st ns

/-- `New` and then calls, in any orders. -/
inductive Run : List (Call F) → St F → Prop
  | new : Run [] ⟨[], []⟩
  | call {cs : List (Call F)} {st : St F} (c : Call F) (o : Ords F) : Run cs st → Run (cs ++ [c]) (exec E o st c)

/-! ## What it means -/

/-- What the calls say: the members up to `==`, the NaNs in the set, the NaNs with points. -/
structure Sp (F : Type) where
  M : F → Prop
  inSet : List F
  onRing : List F

/-- `v` is equal to one of `ns`. -/
def Among (Q : EqOp F) (ns : List F) (y : F) : Prop := ∃ v ∈ ns, Q.eq v y = true

/-- One more call. -/
def Sp.apply (E : Env F) (s : Sp F) : Call F → Sp F
  | .add ns => ⟨fun y => s.M y ∨ Among E.Q ns y, s.inSet ++ nans E.Q ns, s.onRing ++ nans E.Q ns⟩
  | .remove ns => if ns.length = 0 then s else ⟨fun y => s.M y ∧ ¬ Among E.Q ns y, (if E.old then s.inSet else []) ++ s.inSet, s.inSet⟩
  | .reset ns => ⟨Among E.Q ns, (if E.old then s.inSet else []) ++ nans E.Q ns, nans E.Q ns⟩

/-- After the calls. -/
def said (E : Env F) (cs : List (Call F)) : Sp F := cs.foldl (Sp.apply E) ⟨fun _ => False, [], []⟩

/-- The points on the ring are those of `A`. -/
structure OnRing (E : Env F) (pts : List (Pt F)) (A : List F) : Prop where
  perm : pts.Perm (A.flatMap (points E.hash E.r.toNat))
  sorted : pts.Pairwise fun p q => p.hash ≤ q.hash

/-- The ring is as said. -/
structure Is (E : Env F) (st : St F) (s : Sp F) (A : List F) : Prop where
  raw : Has E.Q st.raw s.M s.inSet
  mem : Has E.Q A s.M s.onRing
  ring : OnRing E st.pts A

variable {E} {o} {st : St F} {s : Sp F} {A : List F} {Q : EqOp F}

/-- Pushing elements none of which is there. -/
theorem push_new : ∀ {xs l : List F}, (∀ x ∈ xs, contain Q l x = false) → WF Q xs → push Q l xs = l ++ xs
  | [], l, _, _ => by simp [push]
  | x :: xs, l, h, hw => by
    have hx := h x (by simp)
    have h1 : push Q l (x :: xs) = push Q (l ++ [x]) xs := by
      simp [push, GoSet.Float.store, hx]
    rw [h1, push_new _ (List.pairwise_cons.1 hw).2, List.append_assoc, List.singleton_append]
    intro y hy
    have h2 := h y (by simp [hy])
    have h3 := (List.pairwise_cons.1 hw).1 y hy
    simp only [contain, List.any_append, Bool.or_eq_false_iff] at h2 ⊢
    exact ⟨h2, by simp [h3]⟩

theorem among_push (vs : List F) : Has Q (push Q [] vs) (Among Q vs) (nans Q vs) :=
  ((C121_float (ω := ⟨id, fun _ => .refl _⟩) nil_has).push vs).congr (fun x => by simp [Among]) (by simp)

theorem Has.of_perm {l l' : List F} {P : F → Prop} {N : List F} (h : Has Q l P N) (hp : l.Perm l') : Has Q l' P N :=
  ⟨h.wf.perm hp, fun x => by rw [← GoSet.Float.contain_perm hp]; exact h.mem x, (GoSet.Float.nans_perm hp).symm.trans h.nan⟩

/-- What is new joins what is there. -/
theorem join {l xs : List F} {P R : F → Prop} {N M : List F} (h : Has Q l P N) (hx : Has Q xs R M) (hd : ∀ y, R y → ¬ P y) :
    push Q l xs = l ++ xs ∧ Has Q (l ++ xs) (fun y => P y ∨ R y) (N ++ M) := by
  have h1 : push Q l xs = l ++ xs := by
    refine push_new (fun x hxx => ?_) hx.wf
    rw [Bool.eq_false_iff]
    intro hc
    have he := GoSet.Float.contain_self hc
    exact hd x ((hx.mem x).1 (GoSet.Float.contain_iff.2 ⟨x, hxx, he⟩)) ((h.mem x).1 hc)
  refine ⟨h1, ?_⟩
  rw [← h1]
  refine ((C121_float (ω := ⟨id, fun _ => .refl _⟩) h).push xs).congr (fun y => ?_) (List.Perm.append_left _ hx.nan)
  rw [← hx.mem y, GoSet.Float.contain_iff]

theorem OnRing.nil : OnRing E [] [] := ⟨by simp, .nil⟩

/-- `AddNodes`. -/
theorem add_is (h : Is E st s A) (o : Ords F) (ns : List F) :
    ∃ A', Is E (addNodes E o st ns) ⟨fun y => s.M y ∨ Among E.Q ns y, s.inSet ++ nans E.Q ns, s.onRing ++ nans E.Q ns⟩ A' := by
  unfold addNodes
  split
  · next hz =>
    have : ns = [] := List.length_eq_zero_iff.1 hz
    subst this
    exact ⟨A, h.raw.congr (fun y => by simp [Among]) (by simp [nans]), h.mem.congr (fun y => by simp [Among]) (by simp [nans]), h.ring⟩
  · have hd := (C121_float (ω := o.a) (among_push (Q := E.Q) ns)).difference st.raw s.M s.inSet h.raw
    have hb := Has.of_perm hd (o.b.perm _).symm
    have hc := Has.of_perm hd (o.c.perm _).symm
    obtain ⟨e1, j1⟩ := join h.raw hc fun y hy => hy.2
    obtain ⟨_, j2⟩ := join h.mem hb fun y hy => hy.2
    have hM : ∀ y, (s.M y ∨ Among E.Q ns y ∧ ¬ s.M y) ↔ s.M y ∨ Among E.Q ns y := fun y => by
      by_cases hy : s.M y <;> simp [hy]
    refine ⟨_, ?_, j2.congr hM (.refl _), ⟨?_, E.srt.sorted _⟩⟩
    · simp only [slice] at e1 ⊢
      rw [e1]
      exact j1.congr hM (.refl _)
    · refine (E.srt.perm _).trans ?_
      rw [List.flatMap_append]
      exact List.Perm.append_right _ h.ring.perm

/-- `rawNodes.Clear()`. -/
theorem clear_has {l : List F} {P : F → Prop} {N : List F} (h : Has E.Q l P N) (o : Ords F) :
    Has E.Q (clear E o l) (fun _ => False) (if E.old then N else []) := by
  unfold clear
  split
  · exact (C121_float (ω := o.d) h).clearLoop
  · exact (C121_float (ω := o.d) h).clear

/-- `ResetNodes`. -/
theorem reset_is (h : Is E st s A) (o : Ords F) (ns : List F) :
    ∃ A', Is E (resetNodes E o st ns) ⟨Among E.Q ns, (if E.old then s.inSet else []) ++ nans E.Q ns, nans E.Q ns⟩ A' := by
  have h0 : Is E (⟨clear E o st.raw, []⟩ : St F) ⟨fun _ => False, if E.old then s.inSet else [], []⟩ [] := ⟨clear_has h.raw o, nil_has, .nil⟩
  obtain ⟨A', h1⟩ := add_is h0 o ns
  exact ⟨A', h1.raw.congr (fun y => by simp) (.refl _), h1.mem.congr (fun y => by simp) (by simp), h1.ring⟩

/-- Every call. -/
theorem exec_is (h : Is E st s A) (o : Ords F) (c : Call F) : ∃ A', Is E (exec E o st c) (s.apply E c) A' := by
  cases c with
  | add ns => exact add_is h o ns
  | reset ns => exact reset_is h o ns
  | remove ns =>
    show ∃ A', Is E (removeNodes E o st ns) (if ns.length = 0 then s else _) A'
    unfold removeNodes
    split
    · exact ⟨A, h⟩
    · have hi := (C121_float (ω := o.e) h.raw).intersection _ _ _ (among_push (Q := E.Q) ns)
      have hd := (C121_float (ω := o.h) h.raw).difference _ _ _ hi
      have hg := Has.of_perm hd (o.g.perm _).symm
      obtain ⟨A', h1⟩ := reset_is h o (slice o.g (difference E.Q o.h st.raw (intersection E.Q o.e st.raw (push E.Q [] ns))))
      have hM : ∀ y, Among E.Q (slice o.g (difference E.Q o.h st.raw (intersection E.Q o.e st.raw (push E.Q [] ns)))) y ↔ s.M y ∧ ¬ Among E.Q ns y := by
        intro y
        have := hg.mem y
        rw [GoSet.Float.contain_iff] at this
        refine this.trans ?_
        by_cases hy : s.M y <;> simp [hy]
      exact ⟨A', h1.raw.congr hM (List.Perm.append_left _ hg.nan), h1.mem.congr hM hg.nan, h1.ring⟩

theorem said_snoc (cs : List (Call F)) (c : Call F) : said E (cs ++ [c]) = (said E cs).apply E c := by simp [said]

theorem run_is {cs : List (Call F)} (h : Run E cs st) : ∃ A, Is E st (said E cs) A := by
  induction h with
  | new => exact ⟨[], nil_has, nil_has, .nil⟩
  | call c o _ ih =>
    obtain ⟨A, h⟩ := ih
    rw [said_snoc]
    exact exec_is h o c

/-! ## The claims -/

/-- C141: after any calls on a ring of floats, `Contain` of its set tells the members up to `==`; the points are those of the entries of `A`,
which has each member once and the NaNs said. -/
theorem C141_ring {cs : List (Call F)} (h : Run E cs st) : ∃ A, Is E st (said E cs) A := run_is h

theorem said_sub (cs : List (Call F)) : (said E cs).onRing.Sublist (said E cs).inSet := by
  induction cs using List.reverseRecOn with
  | nil => exact .refl _
  | append_singleton cs c ih =>
    rw [said_snoc]
    cases c with
    | add ns => exact ih.append (.refl _)
    | remove ns =>
      show (Sp.onRing (if ns.length = 0 then _ else _)).Sublist (Sp.inSet (if ns.length = 0 then _ else _))
      split
      · exact ih
      · exact List.sublist_append_right _ _
    | reset ns => exact List.sublist_append_right _ _

/-- C141: no call of `RemoveNodes` takes a NaN off the ring, nor does one of `AddNodes`; every NaN added comes on the ring, however many are there. -/
theorem C141_stay (cs : List (Call F)) (ns : List F) :
    (said E cs).onRing.Sublist (said E (cs ++ [.remove ns])).onRing ∧ (said E (cs ++ [.add ns])).onRing = (said E cs).onRing ++ nans E.Q ns := by
  rw [said_snoc, said_snoc]
  refine ⟨?_, rfl⟩
  show List.Sublist _ (Sp.onRing (if ns.length = 0 then _ else _))
  split
  · exact .refl _
  · exact said_sub cs

/-- C141: with a `maps.Clear` that empties the map, the NaNs of the set are those on the ring, and only `ResetNodes` takes any away. -/
theorem C141_clear (ho : E.old = false) (cs : List (Call F)) : (said E cs).inSet = (said E cs).onRing := by
  induction cs using List.reverseRecOn with
  | nil => rfl
  | append_singleton cs c ih =>
    rw [said_snoc]
    cases c with
    | add ns => exact congrArg (· ++ nans E.Q ns) ih
    | remove ns =>
      show (Sp.inSet (if ns.length = 0 then _ else _)) = (Sp.onRing (if ns.length = 0 then _ else _))
      split
      · exact ih
      · simp [ho]
    | reset ns => simp [Sp.apply, ho]

/-- C141: with a `maps.Clear` that deletes the keys it meets, every `RemoveNodes` doubles the NaNs, in the set at once and on the ring with the next call. -/
theorem C141_doubles (ho : E.old = true) (cs : List (Call F)) (x : F) (k : Nat) :
    (said E (cs ++ List.replicate k (.remove [x]))).inSet.length = 2 ^ k * (said E cs).inSet.length ∧
    (said E (cs ++ List.replicate (k + 1) (.remove [x]))).onRing.length = 2 ^ k * (said E cs).inSet.length := by
  have h1 : ∀ k, (said E (cs ++ List.replicate k (.remove [x]))).inSet.length = 2 ^ k * (said E cs).inSet.length := by
    intro k
    induction k with
    | zero => simp
    | succ k ih =>
      rw [List.replicate_succ', ← List.append_assoc, said_snoc]
      simp only [Sp.apply, List.length_singleton, Nat.one_ne_zero, if_false, ho, if_true, List.length_append, ih]
      rw [Nat.pow_succ, Nat.mul_right_comm]; omega
  refine ⟨h1 k, ?_⟩
  rw [List.replicate_succ', ← List.append_assoc, said_snoc]
  simp only [Sp.apply, List.length_singleton, Nat.one_ne_zero, if_false]
  exact h1 k

/-- C141: each NaN on the ring has `replicas` points. -/
theorem C141_points {cs : List (Call F)} (h : Run E cs st) :
    (st.pts.filter fun p => !E.Q.eq p.node p.node).length = E.r.toNat * (said E cs).onRing.length := by
  obtain ⟨A, h1⟩ := run_is h
  rw [(h1.ring.perm.filter _).length_eq, ← h1.mem.nan.length_eq]
  clear h1
  unfold nans
  induction A with
  | nil => simp
  | cons a A ih =>
    rw [List.flatMap_cons, List.filter_append, List.length_append, ih]
    by_cases e : E.Q.eq a a = true
    · simp [e, points, List.filter_map, Function.comp_def]
    · simp [e, points, List.filter_map, Function.comp_def, Nat.mul_add]; omega

theorem order_single (ω : Order F) (x : F) : ω.f [x] = [x] := List.perm_singleton.1 (ω.perm [x])
theorem order_nil (ω : Order F) : ω.f [] = [] := List.perm_nil.1 (ω.perm [])

theorem add_one (o : Ords F) {l : List F} {ps : List (Pt F)} {x : F} (hx : contain E.Q l x = false) :
    addNodes E o ⟨l, ps⟩ [x] = ⟨l ++ [x], E.srt.f (ps ++ points E.hash E.r.toNat x)⟩ := by
  have h1 : push E.Q [] [x] = [x] := by simp [push, GoSet.Float.store, contain]
  have h2 : difference E.Q o.a [x] l = [x] := by
    have h0 : contain E.Q [] x = false := rfl
    simp [difference, order_single, hx, GoSet.Float.insert, h0, GoSet.Float.store]
  have h3 : push E.Q l [x] = l ++ [x] := by simp [push, GoSet.Float.store, hx]
  simp [addNodes, h1, h2, h3, slice, order_single]

theorem add_again (o : Ords F) {l : List F} {ps : List (Pt F)} {x : F} (hx : contain E.Q l x = true) :
    addNodes E o ⟨l, ps⟩ [x] = ⟨l, E.srt.f ps⟩ := by
  have h1 : push E.Q [] [x] = [x] := by simp [push, GoSet.Float.store, contain]
  have h2 : difference E.Q o.a [x] l = [] := by
    simp [difference, order_single, hx]
  have h3 : push E.Q l [] = l := rfl
  simp [addNodes, h1, h2, h3, slice, order_nil]

theorem Run.last {cs : List (Call F)} {c : Call F} (h : Run E (cs ++ [c]) st) : ∃ st0 o, Run E cs st0 ∧ st = exec E o st0 c := by
  generalize hcs : cs ++ [c] = cs' at h
  cases h with
  | new => simp at hcs
  | call c' o h =>
    obtain ⟨rfl, rfl⟩ := List.append_inj' hcs rfl |>.imp id fun h => List.singleton_inj.1 h
    exact ⟨_, o, h, rfl⟩

theorem Run.none (h : Run E [] st) : st = ⟨[], []⟩ := by
  generalize hcs : ([] : List (Call F)) = cs' at h
  cases h with
  | new => rfl
  | call c' o h => simp at hcs

/-- C141: of two equal nodes with different hashes (0 and -0) the one added first has the points: where a ring has its points depends on more than
the members.  After `AddNodes(x)`, `AddNodes(y)` and after `AddNodes(y)` the members are the same and the points are not. -/
theorem C141_zero {x y : F} (he : E.Q.eq x y = true) (hh : ∀ i < E.r.toNat, E.hash x 0 ≠ E.hash y i) (hp : 0 < E.r) :
    (∀ z, (said E [.add [x], .add [y]]).M z ↔ (said E [.add [y]]).M z) ∧
    ∀ st st', Run E [.add [x], .add [y]] st → Run E [.add [y]] st' → ∃ p ∈ st.pts, ∀ q ∈ st'.pts, q.hash ≠ p.hash := by
  refine ⟨fun z => ?_, fun st st' h h' => ?_⟩
  · simp only [said, List.foldl, Sp.apply, Among, List.mem_singleton, exists_eq_left, false_or]
    exact ⟨fun h => h.elim (fun h => E.Q.trans (E.Q.symm he) h) id, .inr⟩
  · obtain ⟨s1, o2, h1, rfl⟩ := Run.last (cs := [.add [x]]) h
    obtain ⟨s0, o1, h0, rfl⟩ := Run.last (cs := []) h1
    obtain ⟨s0', o1', h0', rfl⟩ := Run.last (cs := []) h'
    rw [h0.none, h0'.none]
    have e1 : exec E o1 ⟨[], []⟩ (.add [x]) = ⟨[x], E.srt.f (points E.hash E.r.toNat x)⟩ := add_one o1 rfl
    have e2 : exec E o1' ⟨[], []⟩ (.add [y]) = ⟨[y], E.srt.f (points E.hash E.r.toNat y)⟩ := add_one o1' rfl
    have e3 : exec E o2 (exec E o1 ⟨[], []⟩ (.add [x])) (.add [y]) = ⟨[x], E.srt.f (E.srt.f (points E.hash E.r.toNat x))⟩ := by
      rw [e1]; exact add_again o2 (by simp [contain, he])
    rw [e2, e3]
    refine ⟨⟨x, E.hash x 0⟩, ?_, fun q hq => ?_⟩
    · rw [((E.srt.perm _).trans (E.srt.perm _)).mem_iff]
      simp only [points, List.mem_map, List.mem_range]
      exact ⟨0, by omega, rfl⟩
    · rw [(E.srt.perm _).mem_iff] at hq
      simp only [points, List.mem_map, List.mem_range] at hq
      obtain ⟨i, hi, rfl⟩ := hq
      exact (hh i hi).symm

/-! ### Examples -/
open Verif.GoSet.Float (Fl flEq)

/-- Sorting by insertion. -/
def place (p : Pt F) : List (Pt F) → List (Pt F)
  | [] => [p]
  | q :: l => if p.hash ≤ q.hash then p :: q :: l else q :: place p l

theorem place_perm (p : Pt F) : ∀ l, (place p l).Perm (p :: l)
  | [] => .refl _
  | q :: l => by
    unfold place
    split
    · exact .refl _
    · exact ((place_perm p l).cons q).trans (.swap _ _ _)

theorem place_sorted (p : Pt F) : ∀ {l : List (Pt F)}, l.Pairwise (fun a b => a.hash ≤ b.hash) → (place p l).Pairwise fun a b => a.hash ≤ b.hash
  | [], _ => List.pairwise_singleton _ _
  | q :: l, h => by
    obtain ⟨h1, h2⟩ := List.pairwise_cons.1 h
    unfold place
    split
    · next hpq => exact List.pairwise_cons.2 ⟨fun a ha => by rcases List.mem_cons.1 ha with rfl | ha; exacts [hpq, Nat.le_trans hpq (h1 a ha)], h⟩
    · next hpq =>
      refine List.pairwise_cons.2 ⟨fun a ha => ?_, place_sorted p h2⟩
      rcases List.mem_cons.1 ((place_perm p l).mem_iff.1 ha) with rfl | ha
      · omega
      · exact h1 a ha

def inserting : Sorter F where
  f l := l.foldr place []
  perm l := by
    induction l with
    | nil => exact .refl _
    | cons p l ih => exact (place_perm p _).trans (ih.cons p)
  sorted l := by
    induction l with
    | nil => exact .nil
    | cons p l ih => exact place_sorted p ih

/-- Hashes of the numbers, of -0 and of NaN. -/
def exHash : Fl → Nat → Nat
  | .num n, i => (10 * n + 7 * i) % 32
  | .negZero, i => 13 + i
  | .nan, i => 30 + i

def exEnv (old : Bool) : Env Fl := ⟨flEq, exHash, 2, inserting, old⟩
def exOrds : Ords Fl := let ω := GoSet.Float.inOrder; ⟨ω, ω, ω, ω, ω, ω, ω⟩

/-- NaN is added twice and removed. -/
example : (exec (exEnv false) exOrds (exec (exEnv false) exOrds (exec (exEnv false) exOrds ⟨[], []⟩ (.add [.num 1, .nan])) (.add [.nan, .num 1])) (.remove [.nan])).pts
    = [⟨.num 1, 10⟩, ⟨.num 1, 17⟩, ⟨.nan, 30⟩, ⟨.nan, 30⟩, ⟨.nan, 31⟩, ⟨.nan, 31⟩] := by rfl

/-- With the other `maps.Clear` the set has two NaNs after one `RemoveNodes`, and the ring has two after the next. -/
example : let st := exec (exEnv true) exOrds (exec (exEnv true) exOrds ⟨[], []⟩ (.add [.num 1, .nan])) (.remove [.num 1])
    st.raw = [.nan, .nan] ∧ st.pts = [⟨.nan, 30⟩, ⟨.nan, 31⟩] ∧
    (exec (exEnv true) exOrds st (.remove [.num 1])).pts = [⟨.nan, 30⟩, ⟨.nan, 30⟩, ⟨.nan, 31⟩, ⟨.nan, 31⟩] := ⟨rfl, rfl, rfl⟩

/-- 0 and -0. -/
example : ∀ st st', Run (exEnv false) [.add [.num 0], .add [.negZero]] st → Run (exEnv false) [.add [.negZero]] st' → ∃ p ∈ st.pts, ∀ q ∈ st'.pts, q.hash ≠ p.hash :=
  (C141_zero (E := exEnv false) (x := .num 0) (y := .negZero) rfl (fun i _ => by simp only [exEnv, exHash]; omega) (by decide)).2

/-- What `fmt.Sprintf("%v")` prints: `0`, `12`, `-0`, `NaN`. -/
def text : Fl → Str
  | .num n => dec n
  | .negZero => [45, 48]
  | .nan => [78, 97, 78]

/-- `hashKey` (hashring.go:85-87) of such floats. -/
def flHash (x : Fl) (index : Nat) : Nat := strHash (text x) index

/-- With the hash of the code and up to 50 replicas. -/
example (old : Bool) (r : Int) (h0 : 0 < r) (h1 : r ≤ 50) :
    let E : Env Fl := ⟨flEq, flHash, r, inserting, old⟩
    ∀ st st', Run E [.add [.num 0], .add [.negZero]] st → Run E [.add [.negZero]] st' → ∃ p ∈ st.pts, ∀ q ∈ st'.pts, q.hash ≠ p.hash := by
  intro E
  have h : ∀ i < 50, flHash (.num 0) 0 ≠ flHash .negZero i := by decide +kernel
  exact (C141_zero (E := E) (x := .num 0) (y := .negZero) rfl (fun i hi => h i (by change i < r.toNat at hi; omega)) h0).2

end Verif.HashRing.Float
