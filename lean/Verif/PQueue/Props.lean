import Verif.PQueue.Model
import Verif.Heap.Lemmas
/-!
# Property C27: `PQueue` is a priority queue
-/
namespace Verif.PQueue
variable {V : Type}

/-! ## Specification: a bag of (priority, value) pairs -/

/-- `a` is served no later than `b`. -/
def before : Kind → Int → Int → Prop
  | .min, a, b => a ≤ b
  | .max, a, b => a ≥ b

/-- The abstract priority queue: a bag (a list up to permutation). `Push` adds the pair, `Pop`
returns and removes some pair of the bag with extremal priority; `Pop` is impossible on an empty
bag. `SpecRun k bag ops outs bag'`: executing `ops` from `bag` may return `outs` and leave `bag'`. -/
inductive SpecRun (k : Kind) : List (Int × V) → List (Op V) → List (Int × V) → List (Int × V) → Prop
  | nil (b) : SpecRun k b [] [] b
  | push (p v b os outs b') : SpecRun k ((p, v) :: b) os outs b' →
      SpecRun k b (.push p v :: os) outs b'
  | pop (b rest r os outs b') : b.Perm (r :: rest) → (∀ x ∈ b, before k r.1 x.1) →
      SpecRun k rest os outs b' → SpecRun k b (.pop :: os) (r :: outs) b'
  | perm (b c os outs b') : b.Perm c → SpecRun k c os outs b' → SpecRun k b os outs b'

/-- Number of pushes minus number of pops never becomes negative (the client never pops an empty
queue), starting with `n` items. -/
def NeverEmptyPop : Nat → List (Op V) → Prop
  | _, [] => True
  | n, .push _ _ :: os => NeverEmptyPop (n + 1) os
  | n, .pop :: os => 0 < n ∧ NeverEmptyPop (n - 1) os

def netLen : Nat → List (Op V) → Nat
  | n, [] => n
  | n, .push _ _ :: os => netLen (n + 1) os
  | n, .pop :: os => netLen (n - 1) os

/-- The pairs held by a queue. -/
def contents (q : List (Item V)) : List (Int × V) := q.map (fun i => (i.priority, i.value))

theorem lessOf_strictWeak (k : Kind) : StrictWeak (lessOf (V := V) k) := by
  cases k
  · exact ⟨by simp [lessOf, minLess], by simp only [lessOf, minLess, decide_eq_true_eq]; omega,
      by simp only [lessOf, minLess, decide_eq_false_iff_not]; omega⟩
  · exact ⟨by simp [lessOf, maxLess], by simp only [lessOf, maxLess, decide_eq_true_eq]; omega,
      by simp only [lessOf, maxLess, decide_eq_false_iff_not]; omega⟩

theorem run_spec (k : Kind) (ops : List (Op V)) : ∀ (q : List (Item V)),
    Heap.IsHeap (lessOf k) q →
    (NeverEmptyPop q.length ops → ∃ outs q', run k q ops = some (outs, q') ∧
      SpecRun k (contents q) ops outs (contents q') ∧ len q' = netLen q.length ops ∧
      Heap.IsHeap (lessOf k) q') ∧
    (¬ NeverEmptyPop q.length ops → run k q ops = none) := by
  induction ops with
  | nil =>
    intro q hq
    exact ⟨fun _ => ⟨[], q, rfl, .nil _, rfl, hq⟩, fun h => absurd trivial h⟩
  | cons o os ih =>
    intro q hq
    cases o with
    | push p v =>
      obtain ⟨q1, h1, h2, h3⟩ := Heap.push_spec (lt := lessOf k) q (⟨p, v⟩ : Item V)
      have hl : q1.length = q.length + 1 := by simpa using h2.length_eq
      have := ih q1 (h3 (lessOf_strictWeak k) hq)
      rw [hl] at this
      refine ⟨fun h => ?_, fun h => ?_⟩
      · obtain ⟨outs, q', g1, g2, g3, g4⟩ := this.1 h
        refine ⟨outs, q', by simp [run, push, h1, g1], ?_, g3, g4⟩
        refine .push _ _ _ _ _ _ (.perm _ _ _ _ _ ?_ g2)
        simpa [contents] using (h2.map (fun i => (i.priority, i.value))).symm
      · simp [run, push, h1, this.2 h]
    | pop =>
      by_cases h0 : q = []
      · subst h0
        exact ⟨fun h => absurd h.1 (by simp), fun _ => by simp [run, pop, Heap.pop]⟩
      · have hpos := List.length_pos_iff.2 h0
        obtain ⟨x, q1, h1, h2, h3, h4⟩ := Heap.pop_spec (lt := lessOf k) q hpos
        have hl : q1.length = q.length - 1 := by have := h2.length_eq; simp at this; omega
        have := ih q1 (h4 (lessOf_strictWeak k) hq)
        rw [hl] at this
        refine ⟨fun h => ?_, fun h => ?_⟩
        · obtain ⟨outs, q', g1, g2, g3, g4⟩ := this.1 h.2
          refine ⟨(x.priority, x.value) :: outs, q', by simp [run, pop, h1, g1], ?_, g3, g4⟩
          refine .pop _ (contents q1) _ _ _ _ ?_ ?_ g2
          · simpa [contents] using h2.map (fun i => (i.priority, i.value))
          · intro y hy
            simp only [contents, List.mem_map] at hy
            obtain ⟨i, hi, rfl⟩ := hy
            have := Heap.root_least (lessOf_strictWeak k) hq h3 i hi
            cases k <;>
              simp only [lessOf, minLess, maxLess, decide_eq_false_iff_not] at this <;>
              simp only [before] <;> omega
        · have hne : ¬ NeverEmptyPop (q.length - 1) os := fun h' => h ⟨hpos, h'⟩
          simp [run, pop, h1, this.2 hne]

/-- C27: for every sequence of `Push`/`Pop` calls on a new queue that never pops an empty queue, the
calls do not panic, the returned pairs are a legal behaviour of the abstract bag with extremal
`Pop`, and `Len` is pushes minus pops.  If the client does pop an empty queue, the call panics. -/
theorem C27_priority_queue (k : Kind) (ops : List (Op V)) :
    (NeverEmptyPop 0 ops → ∃ outs q, run k new ops = some (outs, q) ∧
      SpecRun k [] ops outs (contents q) ∧ len q = netLen 0 ops) ∧
    (¬ NeverEmptyPop 0 ops → run k new ops = none) := by
  have := run_spec k ops new (fun j _ x p h => by simp [new] at h)
  refine ⟨fun h => ?_, this.2⟩
  obtain ⟨outs, q, a, b, c, _⟩ := this.1 h
  exact ⟨outs, q, a, b, c⟩

example : NeverEmptyPop 0 ([.push 3 "a", .push 1 "b", .pop, .push 2 "c", .pop, .pop] :
    List (Op String)) := by simp [NeverEmptyPop]
example : (run .min new [.push 3 "a", .push 1 "b", .pop, .push 2 "c", .pop, .pop]).map (·.1)
    = some [(1, "b"), (2, "c"), (3, "a")] := by
  simp [run, new, push, pop, Heap.push, Heap.pop, Heap.rawPush, Heap.rawPop, Heap.up, Heap.down,
    Heap.downLoop, Heap.less, Heap.swap, lessOf, minLess]

end Verif.PQueue
