import Verif.RWMap.Ends
import Verif.RWMap.Visit
import Mathlib.Data.Nat.Find
/-!
# Calls that stop, and functions of `Range` that use the map (C169)

While the function given to `Range` runs, the `Range` makes no step: it is stopped, for as long as the function likes, and for ever if it panics or does not return.
In that time the function may itself call methods of the map. So: what happens if some calls make no step any more?
-/
namespace Verif.RWMap
variable {K V : Type} [DecidableEq K] [Inhabited V]
variable {eqv : V → V → Option Bool} {prog : Nat → Op K V} {h : List (Ev K V)} {s : State K V}

/-- The call has been made and has not returned. -/
def InProgress (s : State K V) (i : Nat) : Prop := s.pc i ≠ .idle ∧ ∀ r, s.pc i ≠ .done r

/-- A step of a call in progress that is not in `P`; no call is made. -/
def GoesNot (eqv : V → V → Option Bool) (prog : Nat → Op K V) (P : Nat → Prop) (s s' : State K V) : Prop :=
  ∃ i ord go, ¬ P i ∧ s.pc i ≠ .idle ∧ (∀ l : List (K × Nat), (ord l).Perm l) ∧ next eqv prog ord go s i = some s'

theorem GoesNot.goes {P : Nat → Prop} {s s' : State K V} : GoesNot eqv prog P s s' → Goes eqv prog s s' :=
  fun ⟨i, ord, go, _, h1, h2, h3⟩ => ⟨i, ord, go, h1, h2, h3⟩

theorem GoesNot.stays {P : Nat → Prop} {s s' : State K V} (h : GoesNot eqv prog P s s') {i : Nat} (hi : P i) : s'.pc i = s.pc i := by
  obtain ⟨j, ord, go, h1, _, _, h3⟩ := h
  exact next_other h3 (by rintro rfl; exact h1 hi)

omit [DecidableEq K] [Inhabited V] in
theorem mem_visitsOf {i : Nat} {k : K} {v : V} (hv : .visit i k v ∈ h) : (k, v) ∈ visitsOf i h :=
  List.mem_filterMap.2 ⟨_, hv, by simp⟩

/-- **C169**: from its first call of the function on, a `Range` does not hold the mutex. -/
theorem rwmap_range_unlocked (hx : Exec eqv prog h s) {i : Nat} {k : K} {v : V} (hv : .visit i k v ∈ h) : s.sh.mu ≠ some i := by
  intro hm
  have hl := (lock_invariant hx i).2 hm
  have hp := mem_visitsOf hv
  obtain ⟨g, I, hg⟩ := exec_inv hx
  have hop : prog i = .range := by
    rw [← hg] at hv
    obtain ⟨x, hx, hxe⟩ := List.mem_filterMap.1 hv
    cases x <;> simp [TE.ev?] at hxe
    obtain ⟨rfl, rfl, rfl⟩ := hxe
    exact I.visit_range hx
  have ht := I.tl.tl i
  rw [opTL_range hop] at ht
  have hO := I.ops i
  rw [exec_visits hx] at hp
  cases hc : s.pc i with
  | rng es acc => rw [hc] at hl; cases hl
  | fin r => rw [hc] at hl; cases hl
  | done r => rw [hc] at hl; cases hl
  | add d r => rw [hc] at hl; cases hl
  | unl nx =>
    simp only [OpOk, hc] at hO
    cases nx with
    | res r => exact absurd hop hO
    | _ => simp [hc, PC.pairs] at hp
  | promo nx =>
    simp only [OpOk, hc] at hO
    cases nx with
    | res r => exact absurd hop hO.2.1
    | _ => simp [hc, PC.pairs] at hp
  | _ => simp [hc, PC.pairs] at hp

/-- **C169**: if calls that do not hold the mutex stop, wherever they are, then as long as another call is in progress one that has not stopped can make a step. -/
theorem rwmap_park_go (hx : Exec eqv prog h s) {P : Nat → Prop} (hP : ∀ i, P i → s.sh.mu ≠ some i) {i : Nat} (hi : ¬ P i) (hp : pendingIn h i) :
    ∃ s', GoesNot eqv prog P s s' := by
  have B := exec_book hx
  have h1 : s.pc i ≠ .idle := (B.inv i).1 hp.1
  have h2 : ∀ r, s.pc i ≠ .done r := fun r hr => hp.2 r ((B.ret i r).2 hr)
  by_cases ha : s.pc i = .acq
  · cases hm : s.sh.mu with
    | none =>
      have hn : ∃ s', next eqv prog id true s i = some s' := by
        simp only [next, ha, hm, if_true]
        exact ⟨_, rfl⟩
      obtain ⟨s', hn⟩ := hn
      exact ⟨s', i, id, true, hi, h1, fun _ => .refl _, hn⟩
    | some j =>
      have hl := (lock_invariant hx j).2 hm
      have hj : ¬ P j := fun hj => hP j hj hm
      have hj1 : s.pc j ≠ .idle := fun e => by rw [e] at hl; cases hl
      have hj2 : ∀ r, s.pc j ≠ .done r := fun r e => by rw [e] at hl; cases hl
      have hj3 : s.pc j ≠ .acq := fun e => by rw [e] at hl; cases hl
      obtain ⟨s', _, hn⟩ := rwmap_waits hx hj1 hj2 hj3
      exact ⟨s', j, id, true, hj, hj1, fun _ => .refl _, hn⟩
  · obtain ⟨s', _, hn⟩ := rwmap_waits hx h1 h2 ha
    exact ⟨s', i, id, true, hi, h1, fun _ => .refl _, hn⟩

/-- **C169**: and all the others return, in whatever order they are given their turns, if no new calls are made; those that have stopped are where they were. -/
theorem rwmap_park_all (hx : Exec eqv prog h s) (P : Nat → Prop) (f : Nat → State K V) (h0 : f 0 = s)
    (hf : ∀ n, (∃ i, ¬ P i ∧ InProgress (f n) i) → GoesNot eqv prog P (f n) (f (n + 1))) :
    ∃ n, (∀ i, ¬ P i → ¬ InProgress (f n) i) ∧ ∀ i, P i → (f n).pc i = s.pc i := by
  have hex : ∃ n, ∀ i, ¬ P i → ¬ InProgress (f n) i := by
    by_contra hc
    refine rwmap_ends hx f h0 fun n => (hf n ?_).goes
    by_contra hn
    exact hc ⟨n, fun i h1 h2 => hn ⟨i, h1, h2⟩⟩
  classical
  refine ⟨Nat.find hex, Nat.find_spec hex, fun i hi => ?_⟩
  have : ∀ m, m ≤ Nat.find hex → (f m).pc i = s.pc i := by
    intro m
    induction m with
    | zero => intro _; rw [h0]
    | succ m ih =>
      intro hm
      have hlt := Nat.find_min hex (m := m) (by omega)
      have : ∃ i, ¬ P i ∧ InProgress (f m) i := by
        by_contra hn
        exact hlt fun i h1 h2 => hn ⟨i, h1, h2⟩
      rw [(hf m this).stays hi, ih (by omega)]
  exact this _ (Nat.le_refl _)

/-- **C169**, `Range`: let any number of `Range`s be stopped in their functions. Then, if no new calls are made and one that is not such a `Range` goes on as long as
there is one, all others return: the ones made by the functions and those of other goroutines; and there always is one that can go on. -/
theorem rwmap_range_calls (hx : Exec eqv prog h s) (R : Nat → Prop) (hR : ∀ i, R i → ∃ k v, .visit i k v ∈ h) :
    (∀ i, ¬ R i → pendingIn h i → ∃ s', GoesNot eqv prog R s s') ∧
    ∀ f : Nat → State K V, f 0 = s → (∀ n, (∃ i, ¬ R i ∧ InProgress (f n) i) → GoesNot eqv prog R (f n) (f (n + 1))) →
      ∃ n, (∀ i, ¬ R i → ¬ InProgress (f n) i) ∧ ∀ i, R i → (f n).pc i = s.pc i :=
  ⟨fun _ hi hp => rwmap_park_go hx (fun i hi => let ⟨_, _, hv⟩ := hR i hi; rwmap_range_unlocked hx hv) hi hp,
    fun f h0 hf => rwmap_park_all hx R f h0 hf⟩

/-- `Swap(1, 10)`; a `Range` whose function calls `Swap(2, 20)`, `Range` and `Clear`. -/
def parkProg : Nat → Op Nat Nat
  | 0 => .swap 1 10
  | 1 => .range
  | 2 => .swap 2 20
  | 3 => .range
  | _ => .clear

/-- The function of `Range` 1 is called with `(1, 10)`, and makes calls 2, 3 and 4, which all return before it does; the `Range` then goes on and returns. -/
example : ((sched (fun a b => some (a == b)) parkProg true (rep 10 0 ++ rep 7 1 ++ rep 11 2 ++ rep 10 3 ++ rep 8 4 ++ rep 2 1) State.init []).map (·.2)) =
    some [.inv 0, .ret 0 (.opt none), .inv 1, .visit 1 1 10, .inv 2, .ret 2 (.opt none), .inv 3, .visit 3 1 10, .visit 3 2 20,
      .ret 3 (.visited [(1, 10), (2, 20)] false), .inv 4, .ret 4 .unit, .ret 1 (.visited [(1, 10)] false)] := rfl

end Verif.RWMap
