import Verif.RWMap.Props
import Mathlib.Algebra.BigOperators.Group.List.Basic
import Mathlib.Data.Prod.Lex
import Mathlib.Data.List.Dedup
/-!
# Calls of RWMap come to an end (C131)
-/
namespace Verif.RWMap
variable {K V : Type} [DecidableEq K] [Inhabited V]
variable {eqv : V → V → Option Bool} {prog : Nat → Op K V}

/-- Calls that may come to lock the mutex after having looked at an entry. -/
def Op.early : Op K V → Lk → Bool
  | .swap _ _, _ => true
  | .loadOrStore _ _, .u => true
  | _, _ => false

/-- How far a call has come; it never goes back. -/
def phase (op : Op K V) : PC K V → Nat
  | .idle => 60
  | .start => 50
  | .ent _ lk | .cas _ lk _ => if op.early lk then 40 else match lk with | .u => 10 | _ => 20
  | .promo (.ent _) => if op.early .u then 42 else 15
  | .promo _ => 15
  | .unl (.ent _) => if op.early .u then 41 else 12
  | .unl _ => 12
  | .acq => 30
  | .crit => 29
  | .copy0 _ => 28
  | .copy _ _ | .expunge _ _ => 27
  | .amend _ => 26
  | .unexp _ => 25
  | .swp _ => 24
  | .wipe => 14
  | .zero => 13
  | .rng _ _ => 8
  | .add _ _ => 5
  | .fin _ => 4
  | .done _ | .panic => 0

/-- Entries a loop has before it. -/
def ahead : PC K V → Nat
  | .copy es _ | .expunge es _ | .rng es _ => es.length
  | _ => 0

/-- Where a call is in a loop around a compare-and-swap: about to fail, about to load, about to succeed. -/
def tries (ent : Nat → Ptr) : PC K V → Nat
  | .ent _ _ => 1
  | .cas e _ p => if ent e = p then 0 else 2
  | .copy _ _ => 1
  | .expunge ((_, e) :: _) _ => if ent e = .nil then 0 else 2
  | _ => 0

theorem phase_finish (op : Op K V) (r : Res K V) : phase op (finish op r) ≤ 5 := by
  unfold finish; split <;> simp [phase]

theorem phase_missLocked (op : Op K V) (h : Sh K) (r : Res K V) : phase op (missLocked h (.res r)).2 ≤ 15 := by
  unfold missLocked; simp only; split <;> simp [phase]

theorem phase_ent (op : Op K V) (e : Nat) (lk : Lk) : (if lk = .u then 10 else 20) ≤ phase op (.ent e lk) := by
  cases lk <;> simp only [phase, if_true, reduceCtorEq, if_false] <;> split <;> omega

theorem phase_cas (op : Op K V) (e : Nat) (lk : Lk) (p : Ptr) : phase op (.cas e lk p) = phase op (.ent e lk) := by
  cases lk <;> simp only [phase]

theorem phase_after (op : Op K V) (h : Sh K) (lk : Lk) (r : Res K V) (e : Nat) : phase op (after h op lk r).2 < phase op (.ent e lk) := by
  have := phase_ent op e lk
  cases lk with
  | u => exact Nat.lt_of_le_of_lt (phase_finish op r) (Nat.lt_of_lt_of_le (by decide) this)
  | l => exact Nat.lt_of_lt_of_le (by simp [after, phase]) this
  | lm => exact Nat.lt_of_le_of_lt (phase_missLocked op h r) (Nat.lt_of_lt_of_le (by decide) this)

theorem phase_raise (op : Op K V) (h : Sh K) (lk : Lk) (r : Res K V) (e : Nat) :
    phase op (after h op lk.raise r).2 < phase op (.ent e lk) := by
  cases lk with
  | u => exact phase_after op h .u r e
  | l => exact phase_after op h .l r e
  | lm => exact Nat.lt_of_lt_of_le (by simp [Lk.raise, after, phase]) (phase_ent op e .lm)

/-- One step of a call in progress. -/
theorem next_down {s s' : State K V} {i : Nat} {ord : List (K × Nat) → List (K × Nat)} {go : Bool} (hi : s.pc i ≠ .idle)
    (h : next eqv prog ord go s i = some s') :
    phase (prog i) (s'.pc i) < phase (prog i) (s.pc i) ∨
    (phase (prog i) (s'.pc i) = phase (prog i) (s.pc i) ∧ ahead (s'.pc i) < ahead (s.pc i)) ∨
    (phase (prog i) (s'.pc i) = phase (prog i) (s.pc i) ∧ ahead (s'.pc i) = ahead (s.pc i) ∧ s'.sh.ent = s.sh.ent ∧
      tries s'.sh.ent (s'.pc i) < tries s.sh.ent (s.pc i)) := by
  simp only [next] at h
  generalize hc : s.pc i = c at h hi
  cases c with
  | idle => exact absurd rfl hi
  | start =>
    simp only [Option.some.injEq] at h; subst h
    left
    simp only [State.goto, if_true]
    unfold startStep
    repeat' split
    all_goals simp [phase]
    all_goals repeat' split
    all_goals omega
  | acq =>
    dsimp only at h
    split at h
    · simp only [Option.some.injEq] at h; subst h
      left; simp [State.goto, phase]
    · cases h
  | crit =>
    simp only [Option.some.injEq] at h; subst h
    left
    simp only [State.goto, if_true]
    unfold critStep putNew missLocked
    simp only
    repeat' split
    all_goals simp_all [phase, Op.early]
    all_goals first | done | (repeat' split) <;> simp_all [phase, Op.early]
  | ent e lk =>
    simp only [Option.some.injEq] at h; subst h
    simp only [State.goto, if_true]
    have hcas : ∀ p, s.sh.ent e = p → tries s.sh.ent (.cas e lk p : PC K V) < tries s.sh.ent (.ent e lk : PC K V) := by
      intro p hp; simp [tries, hp]
    unfold entStep
    simp only
    repeat' split
    all_goals first
      | exact .inl (phase_after _ _ _ _ _)
      | exact .inl (phase_raise _ _ _ _ _)
      | exact .inr (.inr ⟨phase_cas _ _ _ _, rfl, rfl, hcas _ (by first | rfl | assumption)⟩)
      | (left; simp_all [phase, Op.early]; done)
      | (left; have := phase_ent (prog i) e lk; cases lk <;> simp_all [phase, Op.early] <;> omega)
  | cas e lk p =>
    simp only [Option.some.injEq] at h; subst h
    simp only [State.goto, if_true]
    rw [phase_cas]
    unfold casStep
    split
    · left
      split
      all_goals first
        | exact phase_after _ _ _ _ _
        | (have := phase_ent (prog i) e lk; cases lk <;> simp_all [phase, Op.early] <;> omega)
    · rename_i hp
      exact .inr (.inr ⟨rfl, rfl, rfl, by simp [tries, hp]⟩)
  | unexp e =>
    simp only [Option.some.injEq] at h; subst h
    left
    simp only [State.goto, if_true]
    unfold unexpStep
    simp only
    repeat' split
    all_goals simp_all [phase, Op.early]
  | swp e =>
    simp only [Option.some.injEq] at h; subst h
    left
    simp only [State.goto, if_true]
    unfold swpStep
    split <;> simp [phase]
  | copy0 rm =>
    dsimp only at h
    left
    split at h <;> simp only [Option.some.injEq] at h <;> subst h <;> simp [State.goto, phase]
  | copy es rm =>
    cases es with
    | nil =>
      simp only [Option.some.injEq] at h; subst h
      left; simp [State.goto, phase]
    | cons x es =>
      dsimp only at h
      split at h <;> simp only [Option.some.injEq] at h <;> subst h
      · rename_i hp
        right; right; simp [State.goto, phase, ahead, tries, hp]
      · right; left; simp [State.goto, phase, ahead]
      · right; left; simp [State.goto, phase, ahead]
  | expunge es rm =>
    cases es with
    | nil => cases h
    | cons x es =>
      dsimp only at h
      split at h <;> simp only [Option.some.injEq] at h <;> subst h
      · right; left; simp [State.goto, phase, ahead]
      · rename_i hp
        right; right; simp [State.goto, phase, ahead, tries, hp]
  | amend rm =>
    dsimp only at h
    left
    split at h <;> simp only [Option.some.injEq] at h <;> subst h
    · simp [State.goto, phase]
    · simp only [State.goto, if_true]
      unfold putNew
      split <;> simp [phase]
  | promo nx =>
    simp only [Option.some.injEq] at h; subst h
    left
    cases nx <;> simp [State.goto, phase]
    split <;> omega
  | wipe =>
    simp only [Option.some.injEq] at h; subst h
    left; simp [State.goto, phase]
  | zero =>
    simp only [Option.some.injEq] at h; subst h
    left; simp [State.goto, phase]
  | unl nx =>
    left
    cases nx with
    | ent e =>
      simp only [Option.some.injEq] at h; subst h
      simp only [State.goto, if_true, phase]
      split <;> omega
    | rng m =>
      simp only [Option.some.injEq] at h; subst h
      simp [State.goto, phase]
    | res r =>
      simp only [Option.some.injEq] at h; subst h
      have := phase_finish (prog i) r
      simp only [State.goto, if_true]
      exact Nat.lt_of_le_of_lt this (by simp [phase])
  | rng es acc =>
    cases es with
    | nil =>
      simp only [Option.some.injEq] at h; subst h
      left; simp [State.goto, phase]
    | cons x es =>
      dsimp only at h
      split at h
      · simp only [Option.some.injEq] at h; subst h
        right; left; simp [State.goto, phase, ahead]
      · split at h <;> simp only [Option.some.injEq] at h <;> subst h
        · right; left; simp [State.goto, phase, ahead]
        · left; simp [State.goto, phase]
  | add d r =>
    simp only [Option.some.injEq] at h; subst h
    left; simp [State.goto, phase]
  | fin r =>
    simp only [Option.some.injEq] at h; subst h
    left; simp [State.goto, phase]
  | done r => cases h
  | panic => cases h

/-- A sum over the calls in progress. -/
def total (is : List Nat) (f : Nat → Nat) : Nat := (is.map f).sum

theorem total_congr {is : List Nat} {f g : Nat → Nat} (h : ∀ j ∈ is, f j = g j) : total is f = total is g := by
  rw [total, total, List.map_congr_left h]

theorem total_lt {is : List Nat} {i : Nat} (hd : is.Nodup) (hi : i ∈ is) {f g : Nat → Nat} (ho : ∀ j, j ≠ i → f j = g j) (h : f i < g i) :
    total is f < total is g := by
  induction is with
  | nil => cases hi
  | cons a is ih =>
    simp only [total, List.map_cons, List.sum_cons]
    rw [List.nodup_cons] at hd
    rcases List.mem_cons.1 hi with rfl | hi
    · have : total is f = total is g := total_congr fun j hj => ho j (by rintro rfl; exact hd.1 hj)
      simp only [total] at this
      omega
    · have := ih hd.2 hi
      simp only [total] at this
      rw [ho a (by rintro rfl; exact hd.1 hi)]
      omega

theorem total_eq {is : List Nat} {i : Nat} {f g : Nat → Nat} (ho : ∀ j, j ≠ i → f j = g j) (h : f i = g i) : total is f = total is g :=
  total_congr fun j _ => if hj : j = i then hj ▸ h else ho j hj

/-- What decreases. -/
def rank (prog : Nat → Op K V) (is : List Nat) (s : State K V) : Nat ×ₗ (Nat ×ₗ Nat) :=
  toLex (total is fun i => phase (prog i) (s.pc i), toLex (total is fun i => ahead (s.pc i), total is fun i => tries s.sh.ent (s.pc i)))

theorem rank_lt {is : List Nat} (hd : is.Nodup) {s s' : State K V} {i : Nat} (hm : i ∈ is) {ord : List (K × Nat) → List (K × Nat)} {go : Bool}
    (hi : s.pc i ≠ .idle) (h : next eqv prog ord go s i = some s') : rank prog is s' < rank prog is s := by
  have ho : ∀ j, j ≠ i → s'.pc j = s.pc j := fun j hj => next_other h hj
  rcases next_down hi h with h1 | ⟨h1, h2⟩ | ⟨h1, h2, h3, h4⟩
  · exact Prod.Lex.toLex_lt_toLex.2 (.inl (total_lt hd hm (fun j hj => by rw [ho j hj]) h1))
  · refine Prod.Lex.toLex_lt_toLex.2 (.inr ⟨total_eq (i := i) (fun j hj => by rw [ho j hj]) h1, Prod.Lex.toLex_lt_toLex.2 (.inl ?_)⟩)
    exact total_lt hd hm (fun j hj => by rw [ho j hj]) h2
  · refine Prod.Lex.toLex_lt_toLex.2 (.inr ⟨total_eq (i := i) (fun j hj => by rw [ho j hj]) h1, Prod.Lex.toLex_lt_toLex.2 (.inr ⟨?_, ?_⟩)⟩)
    · exact total_eq (i := i) (fun j hj => by rw [ho j hj]) h2
    · exact total_lt hd hm (fun j hj => by rw [ho j hj, h3]) h4

/-- A step of a call in progress; no call is made. -/
def Goes (eqv : V → V → Option Bool) (prog : Nat → Op K V) (s s' : State K V) : Prop :=
  ∃ i ord go, s.pc i ≠ .idle ∧ (∀ l : List (K × Nat), (ord l).Perm l) ∧ next eqv prog ord go s i = some s'

theorem goes_wf {is : List Nat} (hd : is.Nodup) : ∀ (s : State K V), (∀ i, i ∉ is → s.pc i = .idle) →
    Acc (fun s' s => Goes eqv prog s s') s := by
  intro s
  have wf : WellFounded (fun a b : Nat ×ₗ (Nat ×ₗ Nat) => a < b) := wellFounded_lt
  induction hr : rank prog is s using wf.induction generalizing s with
  | _ r ih =>
    intro hs
    constructor
    rintro s' ⟨i, ord, go, hi, hord, hn⟩
    have hm : i ∈ is := by
      by_contra hc; exact hi (hs i hc)
    refine ih _ (hr ▸ rank_lt hd hm hi hn) s' rfl ?_
    intro j hj
    rw [next_other hn (by rintro rfl; exact hj hm)]
    exact hs j hj

/-- **C131**: without new calls there is no end of progress: in whatever order the calls in progress are given their turns, there are only finitely
many steps. -/
theorem rwmap_ends {h : List (Ev K V)} {s : State K V} (hx : Exec eqv prog h s) (f : Nat → State K V) (h0 : f 0 = s) :
    ¬ ∀ n, Goes eqv prog (f n) (f (n + 1)) := by
  intro hf
  obtain ⟨is, his⟩ := exec_finite hx
  have acc := goes_wf (eqv := eqv) (prog := prog) (List.nodup_dedup is) s (fun i hi => his i (by simpa using hi))
  have : ∀ s, Acc (fun s' s => Goes eqv prog s s') s → ∀ n, f n = s → False := by
    intro s acc
    induction acc with
    | intro s _ ih =>
      rintro n rfl
      exact ih _ (hf n) (n + 1) rfl
  exact this s acc 0 h0

/-- **C131**: as long as a call is in progress, some call in progress can make a step. -/
theorem rwmap_goes {h : List (Ev K V)} {s : State K V} (hx : Exec eqv prog h s) (hq : ¬ Quiescent s) : ∃ s', Goes eqv prog s s' := by
  obtain ⟨s', hc, _, _, hq'⟩ := rwmap_can_complete hx
  cases hc with
  | refl => exact absurd hq' hq
  | step h1 h2 h3 _ => exact ⟨_, _, _, _, h1, h2, h3⟩

/-- **C131**: so all calls return, whatever the scheduler does, if no new ones are made: a run in which some call in progress makes the next step as long
as there is one comes to a state in which all calls have returned. -/
theorem rwmap_all_return {h : List (Ev K V)} {s : State K V} (hx : Exec eqv prog h s) (f : Nat → State K V) (h0 : f 0 = s)
    (hf : ∀ n, ¬ Quiescent (f n) → Goes eqv prog (f n) (f (n + 1))) : ∃ n, Quiescent (f n) := by
  by_contra hc
  exact rwmap_ends hx f h0 fun n => hf n fun hq => hc ⟨n, hq⟩

/-- **C131**: who waits: a call in progress that is not about to lock the mutex can make a step. -/
theorem rwmap_waits {h : List (Ev K V)} {s : State K V} (hx : Exec eqv prog h s) {i : Nat} (hi : s.pc i ≠ .idle) (hd : ∀ r, s.pc i ≠ .done r)
    (ha : s.pc i ≠ .acq) : ∃ s', Goes eqv prog s s' ∧ next eqv prog id true s i = some s' := by
  obtain ⟨g, I, _⟩ := exec_inv hx
  have hp := not_panic I (i := i)
  have ho := I.ops i
  suffices h : ∃ s', next eqv prog id true s i = some s' by
    obtain ⟨s', h⟩ := h
    exact ⟨s', ⟨i, id, true, hi, fun _ => .refl _, h⟩, h⟩
  simp only [OpOk] at ho
  simp only [next]
  generalize s.pc i = c at hi hd ha hp ho
  cases c with
  | idle => exact absurd rfl hi
  | acq => exact absurd rfl ha
  | done r => exact absurd rfl (hd r)
  | panic => exact absurd rfl hp
  | expunge es rm =>
    cases es with
    | nil => exact absurd rfl ho.2.2.2.2
    | cons x es => dsimp only; split <;> exact ⟨_, rfl⟩
  | copy0 rm => dsimp only; split <;> exact ⟨_, rfl⟩
  | copy es rm =>
    cases es with
    | nil => exact ⟨_, rfl⟩
    | cons x es => dsimp only; split <;> exact ⟨_, rfl⟩
  | amend rm => dsimp only; split <;> exact ⟨_, rfl⟩
  | unl nx => cases nx <;> exact ⟨_, rfl⟩
  | rng es acc =>
    cases es with
    | nil => exact ⟨_, rfl⟩
    | cons x es =>
      dsimp only
      split
      · exact ⟨_, rfl⟩
      · split <;> exact ⟨_, rfl⟩
  | _ => exact ⟨_, rfl⟩
end Verif.RWMap
