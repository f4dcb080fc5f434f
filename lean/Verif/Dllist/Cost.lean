import Verif.Dllist.Props
/-!
# How far `Get` walks (C184)
-/
namespace Verif.Dllist
open Spec (Op Res St Client SRun Safe)
variable {T : Type} {m : Mem T} {s : St T} {S : Nat → List Nat}

/-- The loop at dllist.go:43-45 (`walkNext`), and the elements whose `next` it reads. -/
def walkNextT (m : Mem T) : Nat → Option Ptr → Option (Option Ptr × List Ptr)
  | 0, e => some (e, [])
  | k + 1, e => do
    let p ← e
    let (r, w) ← walkNextT m k (m.next p)
    some (r, p :: w)

/-- The loop at dllist.go:48-50 (`walkPrev`), and the elements whose `prev` it reads. -/
def walkPrevT (m : Mem T) : Nat → Option Ptr → Option (Option Ptr × List Ptr)
  | 0, e => some (e, [])
  | k + 1, e => do
    let p ← e
    let (r, w) ← walkPrevT m k (m.prev p)
    some (r, p :: w)

/-- `Get(i)`: dllist.go:33-54 (`get`), and the elements whose links it follows (the sentinel at dllist.go:42). -/
def getT (m : Mem T) (l : Nat) (i : Int) : Option ((Mem T × Option Ptr) × List Ptr) :=
  if i < 0 ∨ i ≥ m.len l then some ((m, none), [])
  else
    let m := lazyInit m l
    if i < (m.len l).tdiv 2 then do
      let (e, w) ← walkNextT m i.toNat (m.next (.root l))
      some ((m, e), .root l :: w)
    else do
      let (e, w) ← walkPrevT m (m.len l - i).toNat (some (.root l))
      some ((m, e), w)

theorem walkNextT_fst (m : Mem T) (k : Nat) (e : Option Ptr) : (walkNextT m k e).map (·.1) = walkNext m k e := by
  induction k generalizing e with
  | zero => rfl
  | succ k ih =>
    cases e with
    | none => rfl
    | some p =>
      simp only [walkNextT, walkNext, Option.bind_eq_bind, Option.bind_some, ← ih (m.next p)]
      cases walkNextT m k (m.next p) <;> rfl

theorem walkPrevT_fst (m : Mem T) (k : Nat) (e : Option Ptr) : (walkPrevT m k e).map (·.1) = walkPrev m k e := by
  induction k generalizing e with
  | zero => rfl
  | succ k ih =>
    cases e with
    | none => rfl
    | some p =>
      simp only [walkPrevT, walkPrev, Option.bind_eq_bind, Option.bind_some, ← ih (m.prev p)]
      cases walkPrevT m k (m.prev p) <;> rfl

/-- The notes change nothing. -/
theorem getT_fst (m : Mem T) (l : Nat) (i : Int) : (getT m l i).map (·.1) = get m l i := by
  unfold getT get
  split
  · rfl
  · dsimp only
    split
    · rw [← walkNextT_fst]
      cases walkNextT (lazyInit m l) i.toNat ((lazyInit m l).next (.root l)) <;> rfl
    · rw [← walkPrevT_fst]
      cases walkPrevT (lazyInit m l) ((lazyInit m l).len l - i).toNat (some (.root l)) <;> rfl

theorem walkNextT_rep (h : Rep m S) {l : Nat} (hi : m.inited l = true) :
    ∀ (k : Nat) (xs ys : List Nat), S l = xs ++ ys → k ≤ ys.length →
      ∃ e, walkNextT m k (some (headP l ys)) = some (e, (ys.take k).map .node) := by
  intro k
  induction k with
  | zero => intro xs ys _ _; exact ⟨_, by simp [walkNextT]; rfl⟩
  | succ k ih =>
    intro xs ys hS hk
    cases ys with
    | nil => simp at hk
    | cons a ys =>
      simp only [walkNextT, headP_cons, Option.bind_eq_bind, Option.bind_some]
      obtain ⟨h3, _⟩ := h.links hi (xs := xs ++ [a]) (ys := ys) (by rw [hS]; simp)
      rw [lastP_concat] at h3
      obtain ⟨e, h4⟩ := ih (xs ++ [a]) ys (by rw [hS]; simp) (by simpa using hk)
      exact ⟨e, by rw [h3, h4]; simp⟩

theorem walkPrevT_rep (h : Rep m S) {l : Nat} (hi : m.inited l = true) :
    ∀ (k : Nat) (xs ys : List Nat), S l = xs ++ ys → k + 1 ≤ xs.length →
      ∃ e, walkPrevT m (k + 1) (some (headP l ys)) = some (e, headP l ys :: (xs.reverse.take k).map .node) := by
  intro k
  induction k with
  | zero => intro xs ys _ _; exact ⟨_, by simp [walkPrevT]; rfl⟩
  | succ k ih =>
    intro xs ys hS hk
    rcases eq_nil_or_snoc xs with rfl | ⟨t, a, rfl⟩
    · simp at hk
    · rw [walkPrevT]
      simp only [Option.bind_eq_bind, Option.bind_some]
      obtain ⟨_, h3⟩ := h.links hi (xs := t ++ [a]) (ys := ys) hS
      rw [lastP_concat] at h3
      obtain ⟨e, h4⟩ := ih t (a :: ys) (by rw [hS]; simp) (by simp at hk; omega)
      rw [headP_cons] at h4
      exact ⟨e, by rw [h3, h4]; simp⟩

/-- **C184**: `Get(i)` follows `min(i + 1, n - i)` links: from the sentinel over the elements before `i`, or from the sentinel back over the
elements behind `i`; none if there is no such element. -/
theorem C184_get {c : Client T} (hc : Safe c) {rs : List (Res T)} (h : MRun c rs m) {l : Nat}
    (hl : Res.list l ∈ rs) {xs : List (Nat × T)} (hx : Shows m l xs) (i : Int) :
    ∃ r w, getT m l i = some (r, w) ∧ get m l i = some r ∧
      ((i < 0 ∨ (xs.length : Int) ≤ i) → w = []) ∧
      ∀ k : Nat, i = k → k < xs.length → w.length = min (k + 1) (xs.length - k) ∧
        (k < xs.length / 2 → w = .root l :: (xs.take k).map (.node ·.1)) ∧
        (xs.length / 2 ≤ k → w = .root l :: (xs.drop (k + 1)).reverse.map (.node ·.1)) := by
  obtain ⟨s, S, h1, h2⟩ := run_sim hc h
  have hll := srun_lists h1 hl
  have hxe := h2.shows_eq hll hx
  have hf : xs.map (·.1) = s.seq l := by rw [hxe, pairs_fst (h2.elems l)]
  have hlx : (s.seq l).length = xs.length := by rw [← hf, List.length_map]
  have hml : m.len l = xs.length := by rw [h2.rep.len, h2.seq l hll, hlx]
  have hg := getT_fst m l i
  by_cases hr : i < 0 ∨ i ≥ m.len l
  · refine ⟨(m, none), [], by simp only [getT, hr, if_true], by simp only [get, hr, if_true], fun _ => rfl, ?_⟩
    intro k e1 e2
    rw [hml] at hr; omega
  · obtain ⟨g1, g2, _⟩ := h2.lazyInit hll
    have hS : S l = [] ++ s.seq l := by rw [h2.seq l hll]; rfl
    obtain ⟨h3, _⟩ := g1.rep.links g2 hS
    rw [lastP_nil] at h3
    have hlen : (Dllist.lazyInit m l).len l = xs.length := by rw [g1.rep.len, h2.seq l hll, hlx]
    rw [hml] at hr
    have hlt : i.toNat < xs.length := by omega
    have htd : (xs.length : Int).tdiv 2 = ((xs.length / 2 : Nat) : Int) := (Int.ofNat_tdiv xs.length 2).symm
    by_cases hh : i < (xs.length : Int).tdiv 2
    · obtain ⟨e, h4⟩ := walkNextT_rep g1.rep g2 i.toNat [] _ hS (by omega)
      have e1 : getT m l i = some ((Dllist.lazyInit m l, e), .root l :: ((s.seq l).take i.toNat).map .node) := by
        unfold getT
        rw [hml, if_neg hr]
        dsimp only
        rw [hlen, if_pos hh, h3, h4]; rfl
      rw [e1] at hg
      refine ⟨_, _, e1, hg.symm, fun hn => absurd hn (by omega), ?_⟩
      rintro k rfl hk
      have hd : k < xs.length / 2 := by omega
      refine ⟨?_, fun _ => ?_, fun hn => absurd hn (by omega)⟩
      · simp only [List.length_cons, List.length_map, List.length_take, Int.toNat_natCast]; omega
      · rw [← hf, ← List.map_take, List.map_map, Int.toNat_natCast]; rfl
    · have hk' : ((Dllist.lazyInit m l).len l - i).toNat = (xs.length - i.toNat - 1) + 1 := by rw [hlen]; omega
      obtain ⟨e, h4⟩ := walkPrevT_rep g1.rep g2 (xs.length - i.toNat - 1) (s.seq l) [] (by rw [h2.seq l hll]; simp) (by omega)
      rw [headP_nil] at h4
      have e1 : getT m l i = some ((Dllist.lazyInit m l, e), .root l :: ((s.seq l).reverse.take (xs.length - i.toNat - 1)).map .node) := by
        unfold getT
        rw [hml, if_neg hr]
        dsimp only
        rw [hk', hlen, if_neg hh, h4]; rfl
      rw [e1] at hg
      refine ⟨_, _, e1, hg.symm, fun hn => absurd hn (by omega), ?_⟩
      rintro k rfl hk
      have hd : xs.length / 2 ≤ k := by omega
      refine ⟨?_, fun hn => absurd hn (by omega), fun _ => ?_⟩
      · simp only [List.length_cons, List.length_map, List.length_take, List.length_reverse, Int.toNat_natCast, hlx]; omega
      · rw [← hf, ← List.map_reverse, ← List.map_take, List.map_map, List.take_reverse, Int.toNat_natCast, show xs.length - (xs.length - k - 1) = k + 1 by omega]
        rfl

/-- How many links `Get` follows, after some calls. -/
def links (ops : List (Op Nat)) (l : Nat) (i : Int) : Option (List Ptr) := do
  let m ← ops.foldlM (fun m op => (exec 9 m op).map (·.1)) (Mem.empty : Mem Nat)
  (getT m l i).map (·.2)

def five : List (Op Nat) := [.new, .pushBack 0 7, .pushBack 0 8, .pushFront 0 6, .pushBack 0 9, .pushFront 0 5]

example : links five 0 0 = some [.root 0] ∧ links five 0 1 = some [.root 0, .node 4] ∧ links five 0 2 = some [.root 0, .node 3, .node 1] ∧
    links five 0 3 = some [.root 0, .node 3] ∧ links five 0 4 = some [.root 0] ∧ links five 0 5 = some [] ∧ links five 0 (-1) = some [] := by
  decide +kernel

end Verif.Dllist
