import Verif.RWMap.Visit
import Verif.RWMap.Props
/-!
# `Range` and what its function returns
-/
namespace Verif.RWMap
variable {K V : Type} [DecidableEq K] [Inhabited V]
variable {eqv : V → V → Option Bool} {prog : Nat → Op K V}

section
variable (eqv : V → V → Option Bool) (prog : Nat → Op K V)

/-- Executions, with what the functions of the Range calls have returned: rwmap.go:502. -/
inductive ExecF : List (Ev K V) → List (Nat × Bool) → State K V → Prop
  | init : ExecF [] [] State.init
  | step {h fs s s' i ord go} : ExecF h fs s → (∀ l, (ord l).Perm l) → next eqv prog ord go s i = some s' →
      ExecF (h ++ event prog s i) (if (visitsOf i (event prog s i)).isEmpty then fs else fs ++ [(i, go)]) s'
end

/-- What the function of the Range call `i` has returned. -/
def answers (i : Nat) (fs : List (Nat × Bool)) : List Bool := fs.filterMap fun x => if x.1 = i then some x.2 else none

theorem answers_append (i : Nat) (fs gs : List (Nat × Bool)) : answers i (fs ++ gs) = answers i fs ++ answers i gs := by
  simp [answers]

/-- These are the executions. -/
theorem execF_iff {h : List (Ev K V)} {s : State K V} : Exec eqv prog h s ↔ ∃ fs, ExecF eqv prog h fs s := by
  constructor
  · intro hx
    induction hx with
    | init => exact ⟨_, .init⟩
    | step _ hs ih =>
      obtain ⟨fs, hf⟩ := ih
      obtain ⟨i, ord, go, ho, hn, rfl⟩ := hs
      exact ⟨_, hf.step ho hn⟩
  · rintro ⟨fs, hf⟩
    induction hf with
    | init => exact .init
    | step _ ho hn ih => exact ih.step ⟨_, _, _, ho, hn, rfl⟩

/-- What the answers have been, by where the Range call is. -/
def StopInv (c : PC K V) (l : List Bool) : Prop :=
  match c with
  | .idle | .start | .acq | .crit | .promo (.rng _) | .unl (.rng _) => l = []
  | .rng _ acc => l = List.replicate acc.length true
  | .fin (.visited acc st) | .done (.visited acc st) =>
    if st then ∃ m, acc.length = m + 1 ∧ l = List.replicate m true ++ [false] else l = List.replicate acc.length true
  | _ => False

theorem ExecF.stop {h : List (Ev K V)} {fs : List (Nat × Bool)} {s : State K V} (hx : ExecF eqv prog h fs s) {i : Nat}
    (hop : prog i = .range) : StopInv (s.pc i) (answers i fs) := by
  induction hx with
  | init => rfl
  | @step h fs s s' j ord go hf ho hn ih =>
    by_cases hj : i = j
    · subst hj
      simp only [next] at hn
      cases hc : s.pc i with
      | rng es acc =>
        rw [hc] at hn ih
        simp only [StopInv] at ih
        cases es with
        | nil => simp only [Option.some.injEq] at hn; subst hn; simpa [event, hc, visitsOf, StopInv] using ih
        | cons x es =>
          obtain ⟨k, e⟩ := x
          simp only at hn
          cases hv : deref prog (s.sh.ent e) with
          | none => simp only [hv, Option.some.injEq] at hn; subst hn; simpa [event, hc, hv, visitsOf, StopInv] using ih
          | some v =>
            simp only [hv] at hn
            cases go with
            | true =>
              simp only [if_true, Option.some.injEq] at hn; subst hn
              simp [event, hc, hv, visitsOf, StopInv, answers_append, ih, List.replicate_succ']; simp [answers]
            | false =>
              simp only [Bool.false_eq_true, if_false, Option.some.injEq] at hn; subst hn
              simp [event, hc, hv, visitsOf, StopInv, answers_append, ih]; simp [answers]
      | idle => simp only [hc, Option.some.injEq] at hn; subst hn; simpa [event, hc, visitsOf, StopInv] using ih
      | start =>
        simp only [hc, hop, startStep, Option.some.injEq] at hn; subst hn
        rw [hc] at ih
        simp only [StopInv] at ih
        by_cases ha : s.sh.read.amended = true <;> simp [event, hc, visitsOf, StopInv, ha, ih]
      | acq =>
        simp only [hc] at hn
        split at hn <;> simp only [Option.some.injEq, reduceCtorEq] at hn
        subst hn; simpa [event, hc, visitsOf, StopInv] using ih
      | crit =>
        simp only [hc, hop, critStep, Option.some.injEq] at hn; subst hn
        rw [hc] at ih
        simp only [StopInv] at ih
        by_cases ha : s.sh.read.amended = true <;> simp [event, hc, visitsOf, StopInv, ha, ih]
      | promo nx =>
        rw [hc] at ih
        cases nx with
        | rng m => simp only [hc, Option.some.injEq] at hn; subst hn; simpa [event, hc, visitsOf, StopInv] using ih
        | _ => exact ih.elim
      | unl nx =>
        rw [hc] at ih
        cases nx with
        | rng m => simp only [hc, Option.some.injEq] at hn; subst hn; simpa [event, hc, visitsOf, StopInv] using ih
        | _ => exact ih.elim
      | fin r =>
        rw [hc] at ih
        cases r with
        | visited acc st => simp only [hc, Option.some.injEq] at hn; subst hn; simpa [event, hc, visitsOf, StopInv] using ih
        | _ => exact ih.elim
      | done r => rw [hc] at hn; cases hn
      | _ => rw [hc] at ih; exact ih.elim
    · rw [next_other hn hj]
      split
      · exact ih
      · rw [answers_append]
        simpa [answers, Ne.symm hj] using ih

/-- C02: Range calls its function as long as that returns true: whatever it has returned before the last time was true, and when Range
returns, `stop` says whether the last was false. -/
theorem rwmap_range_stop {h : List (Ev K V)} {fs : List (Nat × Bool)} {s : State K V} (hx : ExecF eqv prog h fs s) {i : Nat}
    (hop : prog i = .range) :
    (answers i fs).length = (visitsOf i h).length ∧ (∀ b ∈ (answers i fs).dropLast, b = true) ∧
    ∀ es stop, .ret i (.visited es stop) ∈ h → (stop = true ↔ false ∈ answers i fs) := by
  have hS := hx.stop hop
  have hE := execF_iff.2 ⟨_, hx⟩
  have hv := exec_visits hE i
  have hr := (exec_book hE).ret i
  have hdl : ∀ n, ∀ b ∈ (List.replicate n true).dropLast, b = true := fun n b hb => List.eq_of_mem_replicate (List.dropLast_subset _ hb)
  cases hc : s.pc i with
  | rng es acc =>
    rw [hc] at hS hv
    simp only [StopInv] at hS
    rw [hv, hS]
    exact ⟨by simp [PC.pairs], hdl _, fun es stop h => by rw [hr, hc] at h; cases h⟩
  | promo nx =>
    rw [hc] at hS hv
    cases nx with
    | rng m =>
      simp only [StopInv] at hS
      rw [hv, hS]
      exact ⟨by simp [PC.pairs], by simp, fun es stop h => by rw [hr, hc] at h; cases h⟩
    | _ => exact hS.elim
  | unl nx =>
    rw [hc] at hS hv
    cases nx with
    | rng m =>
      simp only [StopInv] at hS
      rw [hv, hS]
      exact ⟨by simp [PC.pairs], by simp, fun es stop h => by rw [hr, hc] at h; cases h⟩
    | _ => exact hS.elim
  | fin r =>
    rw [hc] at hS hv
    cases r with
    | visited acc st =>
      simp only [StopInv] at hS
      rw [hv]
      refine ⟨?_, ?_, fun es stop h => by rw [hr, hc] at h; cases h⟩
      all_goals cases st <;> simp only [if_true, Bool.false_eq_true, if_false] at hS
      · rw [hS]; simp [PC.pairs, Res.pairs]
      · obtain ⟨m, h1, h2⟩ := hS; rw [h2]; simp [PC.pairs, Res.pairs, h1]
      · rw [hS]; exact hdl _
      · obtain ⟨m, h1, h2⟩ := hS; rw [h2]; simp
    | _ => exact hS.elim
  | done r =>
    rw [hc] at hS hv
    cases r with
    | visited acc st =>
      simp only [StopInv] at hS
      rw [hv]
      refine ⟨?_, ?_, fun es stop h => ?_⟩
      · cases st <;> simp only [if_true, Bool.false_eq_true, if_false] at hS
        · rw [hS]; simp [PC.pairs, Res.pairs]
        · obtain ⟨m, h1, h2⟩ := hS; rw [h2]; simp [PC.pairs, Res.pairs, h1]
      · cases st <;> simp only [if_true, Bool.false_eq_true, if_false] at hS
        · rw [hS]; exact hdl _
        · obtain ⟨m, h1, h2⟩ := hS; rw [h2]; simp
      · rw [hr, hc] at h
        injection h with h
        injection h with h1 h2
        subst h2
        cases st <;> simp only [if_true, Bool.false_eq_true, if_false] at hS
        · rw [hS]; simp
        · obtain ⟨m, h1, h2⟩ := hS; rw [h2]; simp
    | _ => exact hS.elim
  | idle | start | acq | crit =>
    rw [hc] at hS hv
    simp only [StopInv] at hS
    rw [hv, hS]
    exact ⟨by simp [PC.pairs], by simp, fun es stop h => by rw [hr, hc] at h; cases h⟩
  | _ => rw [hc] at hS; exact hS.elim

/-- Running a schedule, recording what the functions return. -/
def schedF (eqv : V → V → Option Bool) (prog : Nat → Op K V) : List (Nat × Bool) → State K V → List (Ev K V) → List (Nat × Bool) →
    Option (State K V × List (Ev K V) × List (Nat × Bool))
  | [], s, h, fs => some (s, h, fs)
  | (i, go) :: is, s, h, fs => match next eqv prog id go s i with
    | none => none
    | some s' => schedF eqv prog is s' (h ++ event prog s i) (if (visitsOf i (event prog s i)).isEmpty then fs else fs ++ [(i, go)])

theorem schedF_exec {is : List (Nat × Bool)} : ∀ {s s' : State K V} {h h' : List (Ev K V)} {fs fs' : List (Nat × Bool)},
    ExecF eqv prog h fs s → schedF eqv prog is s h fs = some (s', h', fs') → ExecF eqv prog h' fs' s' := by
  induction is with
  | nil => intro s s' h h' fs fs' hx he; simp only [schedF, Option.some.injEq, Prod.mk.injEq] at he; obtain ⟨rfl, rfl, rfl⟩ := he; exact hx
  | cons x is ih =>
    intro s s' h h' fs fs' hx he
    simp only [schedF] at he
    split at he
    next => cases he
    next t ht => exact ih (hx.step (fun _ => .refl _) ht) he

/-- Two keys are stored, and a Range (5) whose function returns false the first time. -/
example : ∃ s, ExecF (fun a b => some (a == b)) exProg
    [.inv 0, .ret 0 (.opt none), .inv 3, .ret 3 (.opt none), .inv 5, .visit 5 7 1, .ret 5 (.visited [(7, 1)] true)] [(5, false)] s := by
  have : (schedF (fun a b => some (a == b)) exProg ((rep 10 0 ++ rep 7 3 ++ rep 6 5).map (·, true) ++ [(5, false), (5, true)]) State.init [] []).map
      (·.2) = some ([.inv 0, .ret 0 (.opt none), .inv 3, .ret 3 (.opt none), .inv 5, .visit 5 7 1, .ret 5 (.visited [(7, 1)] true)], [(5, false)]) := rfl
  simp only [Option.map_eq_some_iff] at this
  obtain ⟨⟨s, h, fs⟩, h1, h2⟩ := this
  cases h2
  exact ⟨s, schedF_exec .init h1⟩

/-- And one whose function returns true and then false. -/
example : ((schedF (fun a b => some (a == b)) exProg ((rep 10 0 ++ rep 7 3 ++ rep 6 5).map (·, true) ++ [(5, true), (5, false), (5, true)]) State.init [] []).map
      (·.2.2)) = some [(5, true), (5, false)] := rfl
end Verif.RWMap
