import Verif.HashRing.Crc
import Verif.Vec.Effects
/-!
# How many points `GetNode` looks at (C186)
-/
namespace Verif.Vec
variable {T S : Type}

theorem binE_erase (cmp : T → Act S Int) (x : List T) : ∀ (n i j : Nat) (s : S × List T), j - i ≤ n →
    (binE (log1 cmp) x i j s).map (fun r => (r.1, r.2.1)) = binE cmp x i j s.1 := by
  intro n
  induction n with
  | zero =>
    intro i j s hn
    rw [binE, dif_neg (by omega), binE, dif_neg (by omega)]; rfl
  | succ n ih =>
    intro i j s hn
    rw [binE]
    conv => rhs; rw [binE]
    by_cases h : i < j
    · rw [dif_pos h, dif_pos h]
      cases hx : x[(i + j) / 2]? with
      | none => rfl
      | some y =>
        simp only [log1]
        cases hc : cmp y s.1 with
        | none => rfl
        | some r =>
          obtain ⟨c, s1⟩ := r
          simp only [Option.map_some]
          split
          · exact ih _ _ (s1, s.2 ++ [y]) (by omega)
          · exact ih _ _ (s1, s.2 ++ [y]) (by omega)
    · rw [dif_neg h, dif_neg h]; rfl

/-- Notes of the calls change nothing. -/
theorem binarySearchE_log (cmp : T → Act S Int) (x : List T) (s : S) (w : List T) :
    (binarySearchE (log1 cmp) x (s, w)).map (fun r => (r.1, r.2.1)) = binarySearchE cmp x s := by
  simp only [binarySearchE]
  rw [← binE_erase cmp x x.length 0 x.length (s, w) (by omega)]
  cases binE (log1 cmp) x 0 x.length (s, w) with
  | none => rfl
  | some r =>
    obtain ⟨i, s1, w1⟩ := r
    simp only [Option.map_some]
    cases x[i]? with
    | none => rfl
    | some y =>
      simp only [log1]
      cases cmp y s1 with
      | none => rfl
      | some r => rfl

end Verif.Vec

namespace Verif.HashRing
variable {N : Type} [DecidableEq N] {e : Env N}

/-- `GetNode`: hashring.go:63-83 (`getNode`), with notes of the points that the key is compared with (in `BinarySearch`, vec.go:206-216). -/
def getNodeT (e : Env N) (hr : Ring N) (key : N) : Option (N × List (Pt N)) :=
  if hr.vm.len hr.nodes = 0 then some (e.zero, [])
  else do
    let hash := e.hash key 0
    let ((i, ok), (_, w)) ← Vec.binarySearchE (Vec.log1 fun x =>
      Vec.noEff (Vec.three? (hr.vm.less e.elt hr.nodes) (hr.vm.eq e.elt hr.nodes) x ⟨key, hash⟩)) (hr.vm.list hr.nodes) ((), [])
    if ok then some (key, w)
    else if i = hr.vm.len hr.nodes then some ((hr.vm.first e.elt hr.nodes).1.node, w)
    else some ((hr.vm.get e.elt hr.nodes i).1.node, w)

omit [DecidableEq N] in
/-- The notes change nothing. -/
theorem getNodeT_fst (hr : Ring N) (key : N) : (getNodeT e hr key).map (·.1) = getNode e hr key := by
  unfold getNodeT getNode
  split
  · rfl
  · dsimp only
    have h := Vec.binarySearchE_pure (S := Unit) (fun x => Vec.three? (hr.vm.less e.elt hr.nodes) (hr.vm.eq e.elt hr.nodes) x ⟨key, e.hash key 0⟩)
      (hr.vm.list hr.nodes) ()
    rw [← Vec.binarySearchE_log _ _ _ []] at h
    rw [Vec.VMem.binarySearch]
    cases hb : Vec.binarySearchFunc (fun x => Vec.three? (hr.vm.less e.elt hr.nodes) (hr.vm.eq e.elt hr.nodes) x ⟨key, e.hash key 0⟩) (hr.vm.list hr.nodes) with
    | none =>
      rw [hb] at h
      simp only [Option.map_none, Option.map_eq_none_iff] at h
      rw [h]; rfl
    | some r =>
      obtain ⟨i, ok⟩ := r
      rw [hb] at h
      simp only [Option.map_some, Option.map_eq_some_iff] at h
      obtain ⟨⟨⟨i', ok'⟩, u, w⟩, h1, h2⟩ := h
      simp only [Prod.mk.injEq] at h2
      obtain ⟨⟨rfl, rfl⟩, _⟩ := h2
      rw [h1]
      simp only [Option.bind_eq_bind, Option.bind_some]
      split
      · rfl
      · split <;> rfl

/-- **C186**: in a ring with `n` members and `r` replicas `GetNode` compares the key with at most `log2 (n * r) + 2` points, all of them points of members; with
none if there are no points. -/
theorem C186_getNode (r : Int) (cs : List (Call N)) (key : N) : ∃ hr n w, ∃ ms : List N, run e r cs = some hr ∧ getNode e hr key = some n ∧
    getNodeT e hr key = some (n, w) ∧ ms.Nodup ∧ (∀ x, x ∈ ms ↔ members cs x) ∧ w.length ≤ Nat.log2 (ms.length * r.toNat) + 2 ∧
    (∀ p ∈ w, ∃ x, members cs x ∧ p ∈ points e.hash r.toNat x) ∧ (ms.length * r.toNat = 0 → w = []) := by
  obtain ⟨hr, n, h1, h2, _⟩ := C62_exact (e := e) r cs key
  obtain ⟨hr', l, g1, g2, g3⟩ := run_inv (e := e) r cs
  rw [h1] at g1; injection g1 with g1; subst g1
  obtain ⟨ms, m1, m2, m3⟩ := g3.pts
  obtain ⟨s, r1, v1, e1, _⟩ := g3.vec.ex
  have hll : hr.vm.list hr.nodes = l := by rw [r1.list _ v1, e1]
  have hlen : hr.vm.len hr.nodes = l.length := by rw [r1.len v1, e1]
  have hpl : l.length = ms.length * r.toNat := by
    rw [m3.length_eq, g2]
    simp only [List.length_flatMap, points, List.length_map, List.length_range, List.map_const', List.sum_replicate_nat]
  have hT := getNodeT_fst (e := e) hr key
  rw [h2, Option.map_eq_some_iff] at hT
  obtain ⟨⟨n', w⟩, t1, t2⟩ := hT
  simp only at t2; subst t2
  refine ⟨hr, n', w, ms, h1, h2, t1, m1, m2, ?_⟩
  unfold getNodeT at t1
  split at t1
  · cases t1
    exact ⟨by simp, by simp, fun _ => rfl⟩
  · next h0 =>
    dsimp only at t1
    simp only [Option.bind_eq_bind, Option.bind_eq_some_iff] at t1
    obtain ⟨⟨⟨i, ok⟩, u, w'⟩, b1, b2⟩ := t1
    have hw : w' = w := by
      simp only at b2
      split at b2
      · cases b2; rfl
      · split at b2 <;> (cases b2; rfl)
    subst hw
    obtain ⟨_, _, c3, c4⟩ := (Vec.C126_binarySearch _ _ _).1 _ _ _ _ b1
    rw [hll] at c3 c4
    rw [hpl] at c3
    refine ⟨c3, ?_, fun hz => absurd hz (by rw [← hpl, ← hlen]; exact h0)⟩
    intro p hp
    have := m3.mem_iff.1 (c4 p hp)
    rw [List.mem_flatMap, g2] at this
    obtain ⟨x, q1, q2⟩ := this
    exact ⟨x, (m2 x).1 q1, q2⟩

/-- The hashes of the points looked at. -/
def looks (r : Int) (cs : List (Call Nat)) (key : Nat) : Option (Nat × List Nat) :=
  (run numEnv r cs).bind fun hr => (getNodeT numEnv hr key).map fun q => (q.1, q.2.map (·.hash))

example : looks 2 [.add [7, 2, 4, 1]] 5 = some (7, [400, 700, 437, 700]) ∧ looks 2 [] 5 = some (0, []) := by decide +kernel

end Verif.HashRing
