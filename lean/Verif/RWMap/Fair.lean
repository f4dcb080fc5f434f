import Verif.RWMap.Turns
import Verif.RWMap.Park
import Mathlib.Algebra.Order.BigOperators.Group.List
import Mathlib.Algebra.Order.Group.Nat
/-!
# Fair schedulers (C171)

Executions without end, in which new calls may be made for ever.
-/
namespace Verif.RWMap
variable {K V : Type} [DecidableEq K] [Inhabited V]

/-! ## Specification -/

/-- An execution without end from a state that can be reached: in the `n`-th step call `who n` makes a step. -/
structure Forever (eqv : V → V → Option Bool) (prog : Nat → Op K V) (f : Nat → State K V) (who : Nat → Nat) : Prop where
  start : ∃ h, Exec eqv prog h (f 0)
  step : ∀ n, ∃ ord go, (∀ l : List (K × Nat), (ord l).Perm l) ∧ next eqv prog ord go (f n) (who n) = some (f (n + 1))

/-- A call in progress that can make a step again and again makes one again and again: the scheduler gives every goroutine its turns, and the mutex
keeps none waiting that it could let in again and again. -/
def Fair (eqv : V → V → Option Bool) (prog : Nat → Op K V) (f : Nat → State K V) (who : Nat → Nat) : Prop :=
  ∀ i, (∀ N, ∃ n, N ≤ n ∧ InProgress (f n) i ∧ ∃ s', next eqv prog id true (f n) i = some s') → ∀ N, ∃ n, N ≤ n ∧ who n = i

/-- The call may change what is stored for a key; `Clear` is not one of those. -/
def Op.alters : Op K V → Bool
  | .swap _ _ | .loadOrStore _ _ | .loadAndDelete _ | .compareAndSwap _ _ _ | .compareAndDelete _ _ => true
  | _ => false

/-- Steps of the given calls one after the other, `Q` being true after each. -/
inductive Go (eqv : V → V → Option Bool) (prog : Nat → Op K V) (Q : State K V → Prop) : List Nat → State K V → State K V → Prop
  | nil {s} : Go eqv prog Q [] s s
  | cons {i l s s1 s'} : next eqv prog id true s i = some s1 → Q s1 → Go eqv prog Q l s1 s' → Go eqv prog Q (i :: l) s s'

variable {eqv : V → V → Option Bool} {prog : Nat → Op K V} {h : List (Ev K V)} {s s' : State K V} {f : Nat → State K V} {who : Nat → Nat} {i j : Nat}
  {ord : List (K × Nat) → List (K × Nat)} {go : Bool}

/-! ## Few changes -/

/-- Entries that a call may still change. -/
def chg (N : Nat) (op : Op K V) : PC K V → Nat
  | .idle | .start | .acq | .crit | .copy0 _ => N + 2
  | .ent _ lk | .cas _ lk _ => if op.early lk then N + 2 else 1
  | .unexp _ => 2
  | .swp _ | .amend _ => 1
  | .copy es _ | .expunge es _ => es.length + 1
  | .unl (.ent _) | .promo (.ent _) => if op.early .u then N + 2 else 1
  | _ => 0

omit [DecidableEq K] [Inhabited V] in
theorem chg_finish (N : Nat) (op op' : Op K V) (r : Res K V) : chg N op (finish op' r) = 0 := by
  unfold finish; split <;> rfl

omit [DecidableEq K] [Inhabited V] in
theorem chg_after (N : Nat) (op op' : Op K V) (h : Sh K) (lk : Lk) (r : Res K V) : chg N op (after h op' lk r).2 = 0 := by
  cases lk with
  | u => exact chg_finish N op op' r
  | l => rfl
  | lm => simp only [after, missLocked]; split <;> rfl

omit [DecidableEq K] [Inhabited V] in
theorem chg_pos (N : Nat) (op : Op K V) (lk : Lk) (e : Nat) : 1 ≤ chg N op (.ent e lk) := by
  simp only [chg]; split <;> omega

theorem chg_own {N : Nat} (hord : ∀ l, (ord l).Perm l) (h : next eqv prog ord go s i = some s') (hr : ∀ rm, s.pc i = .copy0 rm → s.sh.read.m.length ≤ N) :
    s'.sh.ent = s.sh.ent ∧ chg N (prog i) (s'.pc i) ≤ chg N (prog i) (s.pc i) ∨ chg N (prog i) (s'.pc i) < chg N (prog i) (s.pc i) := by
  have hlen : ∀ l, (ord l).length = l.length := fun l => (hord l).length_eq
  simp only [next] at h
  generalize s.pc i = c at h hr
  cases c with
  | idle =>
    simp only [Option.some.injEq] at h; subst h
    exact .inl ⟨rfl, by simp [State.goto, chg]⟩
  | start =>
    simp only [Option.some.injEq] at h; subst h
    refine .inl ⟨rfl, ?_⟩
    simp only [State.goto, if_true]
    unfold startStep
    cases prog i <;> simp only <;> repeat' split
    all_goals simp [chg, Op.early]
  | acq =>
    dsimp only at h
    split at h
    · simp only [Option.some.injEq] at h; subst h
      exact .inl ⟨rfl, by simp [State.goto, chg]⟩
    · cases h
  | crit =>
    simp only [Option.some.injEq] at h; subst h
    simp only [State.goto, if_true]
    unfold critStep putNew missLocked
    cases prog i <;> simp only <;> repeat' split
    all_goals simp [chg, Op.early]
  | ent e lk =>
    simp only [Option.some.injEq] at h; subst h
    simp only [State.goto, if_true]
    have hp := chg_pos N (prog i) lk e
    unfold entStep
    simp only
    repeat' split
    all_goals first
      | (right; rw [chg_after]; omega)
      | (left; exact ⟨rfl, by simp_all [chg, Op.early]⟩)
  | cas e lk p =>
    simp only [Option.some.injEq] at h; subst h
    simp only [State.goto, if_true]
    have hp := chg_pos N (prog i) lk e
    have hc : chg N (prog i) (.cas e lk p) = chg N (prog i) (.ent e lk) := rfl
    rw [hc]
    unfold casStep
    split
    · right
      split
      all_goals first
        | (rw [chg_after]; omega)
        | (simp only [chg] at hp ⊢; omega)
    · exact .inl ⟨rfl, Nat.le_refl _⟩
  | unexp e =>
    simp only [Option.some.injEq] at h; subst h
    simp only [State.goto, if_true]
    unfold unexpStep
    simp only
    repeat' split
    all_goals simp_all [chg, Op.early]
  | swp e =>
    simp only [Option.some.injEq] at h; subst h
    simp only [State.goto, if_true]
    unfold swpStep
    split <;> simp [chg]
  | copy0 rm =>
    have hr := hr rm rfl
    dsimp only at h
    split at h <;> simp only [Option.some.injEq] at h <;> subst h <;> simp [State.goto, chg, hlen]; omega
  | copy es rm =>
    cases es with
    | nil =>
      simp only [Option.some.injEq] at h; subst h
      simp [State.goto, chg]
    | cons x es =>
      dsimp only at h
      split at h <;> simp only [Option.some.injEq] at h <;> subst h <;> simp [State.goto, chg]
  | expunge es rm =>
    cases es with
    | nil => cases h
    | cons x es =>
      dsimp only at h
      split at h <;> simp only [Option.some.injEq] at h <;> subst h <;> simp [State.goto, chg]
  | amend rm =>
    dsimp only at h
    split at h <;> simp only [Option.some.injEq] at h <;> subst h
    · simp [State.goto, chg]
    · simp only [State.goto, if_true]
      unfold putNew
      split <;> simp [chg]
  | promo nx =>
    simp only [Option.some.injEq] at h; subst h
    refine .inl ⟨rfl, ?_⟩
    cases nx <;> simp [State.goto, chg]
  | wipe =>
    simp only [Option.some.injEq] at h; subst h
    exact .inl ⟨rfl, by simp [State.goto, chg]⟩
  | zero =>
    simp only [Option.some.injEq] at h; subst h
    exact .inl ⟨rfl, by simp [State.goto, chg]⟩
  | unl nx =>
    cases nx with
    | ent e =>
      simp only [Option.some.injEq] at h; subst h
      exact .inl ⟨rfl, by simp [State.goto, chg]⟩
    | rng m =>
      simp only [Option.some.injEq] at h; subst h
      exact .inl ⟨rfl, by simp [State.goto, chg]⟩
    | res r =>
      simp only [Option.some.injEq] at h; subst h
      refine .inl ⟨rfl, ?_⟩
      simp only [State.goto, if_true, chg_finish]
      exact Nat.zero_le _
  | rng es acc =>
    cases es with
    | nil =>
      simp only [Option.some.injEq] at h; subst h
      exact .inl ⟨rfl, by simp [State.goto, chg]⟩
    | cons x es =>
      dsimp only at h
      split at h
      · simp only [Option.some.injEq] at h; subst h
        exact .inl ⟨rfl, by simp [State.goto, chg]⟩
      · split at h <;> simp only [Option.some.injEq] at h <;> subst h <;> exact .inl ⟨rfl, by simp [State.goto, chg]⟩
  | add d r =>
    simp only [Option.some.injEq] at h; subst h
    exact .inl ⟨rfl, by simp [State.goto, chg]⟩
  | fin r =>
    simp only [Option.some.injEq] at h; subst h
    exact .inl ⟨rfl, by simp [State.goto, chg]⟩
  | done r => cases h
  | panic => cases h

/-- Other calls change no entry and make none. -/
theorem ent_kept (hx : Exec eqv prog h s) (hw : (prog i).alters = false) (hn : next eqv prog ord go s i = some s') : s'.sh.ent = s.sh.ent ∧ s'.sh.fresh = s.sh.fresh := by
  obtain ⟨g, I, _⟩ := exec_inv hx
  have hO := I.ops i
  simp only [next] at hn
  simp only [OpOk] at hO
  generalize s.pc i = c at hn hO
  have haf : ∀ (h : Sh K) (op : Op K V) lk r, (after h op lk r).1.ent = h.ent ∧ (after h op lk r).1.fresh = h.fresh := by
    intro h op lk r
    cases lk <;> unfold after missLocked <;> dsimp only <;> (try split) <;> exact ⟨rfl, rfl⟩
  cases c with
  | crit =>
    simp only [Option.some.injEq] at hn; subst hn
    simp only [State.goto]
    unfold critStep missLocked
    cases hp : prog i <;> rw [hp] at hw <;> simp only [Op.alters, reduceCtorEq] at hw <;> dsimp only <;> repeat' split
    all_goals exact ⟨rfl, rfl⟩
  | ent e lk =>
    simp only [Option.some.injEq] at hn; subst hn
    simp only [State.goto]
    unfold entStep
    cases hp : prog i <;> rw [hp] at hw <;> simp only [Op.alters, reduceCtorEq] at hw <;> simp [haf]
  | cas e lk p =>
    simp only [Option.some.injEq] at hn; subst hn
    simp only [State.goto]
    unfold casStep
    cases hp : prog i <;> rw [hp] at hw <;> simp only [Op.alters, reduceCtorEq] at hw <;> (simp only; split; all_goals exact ⟨rfl, rfl⟩)
  | unexp e =>
    exfalso
    obtain ⟨h1, -⟩ := hO
    cases hp : prog i <;> rw [hp] at hw h1 <;> simp [Op.alters, Op.adds] at hw h1
  | swp e =>
    obtain ⟨_, k, v, h1, _⟩ := hO
    rw [h1] at hw; cases hw
  | expunge es rm =>
    exfalso
    obtain ⟨_, h1, -⟩ := hO.1
    cases hp : prog i <;> rw [hp] at hw h1 <;> simp [Op.alters, Op.adds] at hw h1
  | amend rm =>
    exfalso
    obtain ⟨_, h1, -⟩ := hO.1
    cases hp : prog i <;> rw [hp] at hw h1 <;> simp [Op.alters, Op.adds] at hw h1
  | copy0 rm =>
    dsimp only at hn
    split at hn <;> simp only [Option.some.injEq] at hn <;> subst hn <;> exact ⟨rfl, rfl⟩
  | copy es rm =>
    cases es with
    | nil => simp only [Option.some.injEq] at hn; subst hn; exact ⟨rfl, rfl⟩
    | cons x es =>
      dsimp only at hn
      split at hn <;> simp only [Option.some.injEq] at hn <;> subst hn <;> exact ⟨rfl, rfl⟩
  | acq =>
    dsimp only at hn
    split at hn
    · simp only [Option.some.injEq] at hn; subst hn; exact ⟨rfl, rfl⟩
    · cases hn
  | unl nx => cases nx <;> simp only [Option.some.injEq] at hn <;> subst hn <;> exact ⟨rfl, rfl⟩
  | rng es acc =>
    cases es with
    | nil => simp only [Option.some.injEq] at hn; subst hn; exact ⟨rfl, rfl⟩
    | cons x es =>
      dsimp only at hn
      split at hn
      · simp only [Option.some.injEq] at hn; subst hn; exact ⟨rfl, rfl⟩
      · split at hn <;> simp only [Option.some.injEq] at hn <;> subst hn <;> exact ⟨rfl, rfl⟩
  | done r => cases hn
  | panic => cases hn
  | _ => simp only [Option.some.injEq] at hn; subst hn; exact ⟨rfl, rfl⟩

/-! ## Runs without end -/

theorem Forever.exec (hf : Forever eqv prog f who) : ∀ n, ∃ h, Exec eqv prog h (f n) := by
  intro n
  induction n with
  | zero => exact hf.start
  | succ n ih =>
    obtain ⟨h, hx⟩ := ih
    obtain ⟨ord, go, h1, h2⟩ := hf.step n
    exact ⟨_, .step hx ⟨_, _, _, h1, h2, rfl⟩⟩

theorem Forever.other (hf : Forever eqv prog f who) {n : Nat} (hi : who n ≠ i) : (f (n + 1)).pc i = (f n).pc i := by
  obtain ⟨ord, go, _, h2⟩ := hf.step n
  exact next_other h2 (Ne.symm hi)

/-- A number that does not grow stays the same in the end. -/
theorem settles (g : Nat → Nat) {M : Nat} (hg : ∀ n, M ≤ n → g (n + 1) ≤ g n) : ∃ M', M ≤ M' ∧ ∀ n, M' ≤ n → g (n + 1) = g n := by
  have key : ∀ x M, g M ≤ x → (∀ n, M ≤ n → g (n + 1) ≤ g n) → ∃ M', M ≤ M' ∧ ∀ n, M' ≤ n → g (n + 1) = g n := by
    intro x
    induction x with
    | zero =>
      intro M hx hg
      have : ∀ d, g (M + d) = 0 := by
        intro d
        induction d with
        | zero => exact Nat.le_zero.1 hx
        | succ d ih => have := hg (M + d) (by omega); rw [ih] at this; exact Nat.le_zero.1 this
      refine ⟨M, Nat.le_refl _, fun n hn => ?_⟩
      obtain ⟨d, rfl⟩ := Nat.exists_eq_add_of_le hn
      rw [this d, show M + d + 1 = M + (d + 1) by omega, this (d + 1)]
    | succ x ih =>
      intro M hx hg
      by_cases hc : ∀ n, M ≤ n → g (n + 1) = g n
      · exact ⟨M, Nat.le_refl _, hc⟩
      · obtain ⟨n, hn, hne⟩ : ∃ n, M ≤ n ∧ g (n + 1) ≠ g n := by
          by_contra hno
          exact hc fun n hn => by_contra fun hne => hno ⟨n, hn, hne⟩
        have hle : ∀ d, g (M + d) ≤ g M := by
          intro d
          induction d with
          | zero => exact Nat.le_refl _
          | succ d ih => exact Nat.le_trans (hg (M + d) (by omega)) ih
        obtain ⟨d, rfl⟩ := Nat.exists_eq_add_of_le hn
        have h1 := hg (M + d) (by omega)
        have h2 := hle d
        obtain ⟨M', h3, h4⟩ := ih (M + d + 1) (by omega) fun n hn => hg n (by omega)
        exact ⟨M', by omega, h4⟩
  exact key (g M) M (Nat.le_refl _) hg

/-- The mutex does not pass from one call to another without being free in between. -/
theorem mu_holder (hx : Exec eqv prog h s) (hord : ∀ l : List (K × Nat), (ord l).Perm l) (hn : next eqv prog ord go s i = some s') (hm : s.sh.mu = some j)
    (hm' : s'.sh.mu ≠ none) : s'.sh.mu = some j := by
  have hx' := hx.step ⟨_, _, _, hord, hn, rfl⟩
  cases he : s'.sh.mu with
  | none => exact absurd he hm'
  | some l =>
    by_contra hne
    have hl : l ≠ j := by rintro rfl; exact hne rfl
    by_cases hi : i = j
    · subst hi
      have h1 := (lock_invariant hx' l).2 he
      rw [next_other hn hl] at h1
      have h2 := (lock_invariant hx l).1 h1
      rw [hm] at h2; cases h2; exact hl rfl
    · have h1 := (lock_invariant hx j).2 hm
      rw [← next_other hn (Ne.symm hi)] at h1
      have h2 := (lock_invariant hx' j).1 h1
      rw [he] at h2; cases h2; exact hl rfl

/-- The call is about to return. -/
def PC.ends : PC K V → Nat
  | .promo (.res _) => 4
  | .unl (.res _) => 3
  | .add _ _ => 2
  | .fin _ => 1
  | _ => 0

/-- The call has the mutex, and returns when it has given it back. -/
def late (op : Op K V) : PC K V → Bool
  | .copy _ _ | .expunge _ _ | .amend _ | .swp _ => true
  | .unexp _ => op.adds
  | .ent _ .l | .cas _ .l _ => match op with
    | .loadOrStore _ _ => true
    | _ => false
  | _ => false

omit [DecidableEq K] [Inhabited V] in
theorem late_locked {op : Op K V} {c : PC K V} (h : late op c = true) : c.locked = true := by
  cases c with
  | ent e lk => cases lk <;> simp_all [late, PC.locked]
  | cas e lk p => cases lk <;> simp_all [late, PC.locked]
  | _ => simp_all [late, PC.locked]

omit [DecidableEq K] [Inhabited V] in
theorem ends_finish (op : Op K V) (r : Res K V) : 0 < (finish op r).ends ∧ (finish op r).ends ≤ 2 := by
  unfold finish; split <;> simp [PC.ends]

omit [DecidableEq K] [Inhabited V] in
theorem ends_after (h : Sh K) (op : Op K V) (lk : Lk) (r : Res K V) : 0 < (after h op lk r).2.ends := by
  cases lk with
  | u => exact (ends_finish op r).1
  | l => simp [after, PC.ends]
  | lm => simp only [after, missLocked]; split <;> simp [PC.ends]

theorem late_own (hx : Exec eqv prog h s) (hl : late (prog i) (s.pc i) = true) (hn : next eqv prog ord go s i = some s') :
    late (prog i) (s'.pc i) = true ∨ 0 < (s'.pc i).ends := by
  obtain ⟨g, I, _⟩ := exec_inv hx
  have hO := I.ops i
  simp only [next] at hn
  simp only [OpOk] at hO
  generalize s.pc i = c at hn hO hl
  cases c with
  | ent e lk =>
    simp only [Option.some.injEq] at hn; subst hn
    simp only [State.goto, if_true]
    cases lk <;> simp only [late, Bool.false_eq_true] at hl
    unfold entStep
    cases hp : prog i <;> rw [hp] at hl <;> simp only [Bool.false_eq_true] at hl
    simp only
    repeat' split
    all_goals first
      | exact .inr (ends_after ..)
      | exact .inl rfl
      | simp_all
  | cas e lk p =>
    simp only [Option.some.injEq] at hn; subst hn
    simp only [State.goto, if_true]
    cases lk <;> simp only [late, Bool.false_eq_true] at hl
    unfold casStep
    cases hp : prog i <;> rw [hp] at hl <;> simp only [Bool.false_eq_true] at hl
    simp only
    repeat' split
    all_goals first
      | exact .inr (ends_after ..)
      | exact .inl rfl
  | unexp e =>
    simp only [Option.some.injEq] at hn; subst hn
    simp only [State.goto, if_true]
    obtain ⟨h1, k, h2, h3⟩ := hO
    unfold unexpStep
    cases hp : prog i <;> rw [hp] at h1 <;> simp only [Op.adds, Bool.false_eq_true] at h1 <;> simp only
    all_goals
      split
      · rename_i he
        cases hd : s.sh.dirty with
        | none => exact absurd he (I.str.core.nod hd k e h3)
        | some d => exact .inl rfl
      · exact .inl rfl
  | swp e =>
    simp only [Option.some.injEq] at hn; subst hn
    simp only [State.goto, if_true]
    unfold swpStep
    split
    · exact absurd ‹_› hO.1
    · exact .inr (by simp [PC.ends])
  | copy es rm =>
    cases es with
    | nil => simp only [Option.some.injEq] at hn; subst hn; exact .inl (by simp [State.goto, late])
    | cons x es =>
      dsimp only at hn
      split at hn <;> simp only [Option.some.injEq] at hn <;> subst hn <;> exact .inl (by simp [State.goto, late])
  | expunge es rm =>
    cases es with
    | nil => cases hn
    | cons x es =>
      dsimp only at hn
      split at hn <;> simp only [Option.some.injEq] at hn <;> subst hn <;> exact .inl (by simp [State.goto, late])
  | amend rm =>
    obtain ⟨⟨k, _, h1, -⟩, h2⟩ := hO
    rw [h1] at hn
    simp only [Option.some.injEq] at hn; subst hn
    obtain ⟨d, hd⟩ := Option.ne_none_iff_exists'.1 h2
    exact .inr (by simp [State.goto, putNew, hd, PC.ends])
  | _ => simp [late] at hl

/-- A step that changes an entry or makes a new one is the last of the call but for some to return, or the call goes on with the mutex. -/
theorem change_own (hx : Exec eqv prog h s) (hn : next eqv prog ord go s i = some s') :
    s'.sh.ent = s.sh.ent ∧ s'.sh.fresh = s.sh.fresh ∨ 0 < (s'.pc i).ends ∨ late (prog i) (s.pc i) = true ∧ s'.sh.fresh = s.sh.fresh := by
  by_cases hl : late (prog i) (s.pc i) = true
  · rcases late_own hx hl hn with h1 | h1
    · refine .inr (.inr ⟨hl, ?_⟩)
      obtain ⟨g, I, _⟩ := exec_inv hx
      have hO := I.ops i
      simp only [next] at hn
      simp only [OpOk] at hO
      generalize s.pc i = c at hn hO hl
      have haf : ∀ (h : Sh K) (op : Op K V) lk r, (after h op lk r).1.fresh = h.fresh := by
        intro h op lk r
        cases lk <;> simp only [after, missLocked] <;> (try split) <;> rfl
      cases c with
      | ent e lk =>
        simp only [Option.some.injEq] at hn; subst hn
        simp only [State.goto]
        unfold entStep
        simp only
        repeat' split
        all_goals first
          | rfl
          | exact haf ..
      | cas e lk p =>
        simp only [Option.some.injEq] at hn; subst hn
        simp only [State.goto]
        unfold casStep
        repeat' split
        all_goals first
          | rfl
          | exact haf ..
      | unexp e =>
        simp only [Option.some.injEq] at hn; subst hn
        simp only [State.goto]
        unfold unexpStep
        simp only
        repeat' split
        all_goals rfl
      | swp e =>
        simp only [Option.some.injEq] at hn; subst hn
        simp only [State.goto]
        unfold swpStep
        split <;> rfl
      | copy es rm =>
        cases es with
        | nil => simp only [Option.some.injEq] at hn; subst hn; rfl
        | cons x es =>
          dsimp only at hn
          split at hn <;> simp only [Option.some.injEq] at hn <;> subst hn <;> rfl
      | expunge es rm =>
        cases es with
        | nil => cases hn
        | cons x es =>
          dsimp only at hn
          split at hn <;> simp only [Option.some.injEq] at hn <;> subst hn <;> rfl
      | amend rm =>
        exfalso
        obtain ⟨⟨k, _, h3, -⟩, h2⟩ := hO
        rw [h3] at hn
        simp only [Option.some.injEq] at hn; subst hn
        obtain ⟨d, hd⟩ := Option.ne_none_iff_exists'.1 h2
        simp [State.goto, putNew, hd, late] at h1
      | _ => simp [late] at hl
    · exact .inr (.inl h1)
  · obtain ⟨g, I, _⟩ := exec_inv hx
    have hO := I.ops i
    simp only [next] at hn
    simp only [OpOk] at hO
    generalize s.pc i = c at hn hO hl
    have haf : ∀ (h : Sh K) (op : Op K V) lk r, (after h op lk r).1.ent = h.ent ∧ (after h op lk r).1.fresh = h.fresh := by
      intro h op lk r
      cases lk <;> unfold after missLocked <;> dsimp only <;> (try split) <;> exact ⟨rfl, rfl⟩
    cases c with
    | crit =>
      simp only [Option.some.injEq] at hn; subst hn
      simp only [State.goto, if_true]
      unfold critStep putNew missLocked
      simp only
      repeat' split
      all_goals first
        | exact .inl ⟨rfl, rfl⟩
        | exact .inr (.inl (by simp [PC.ends]))
    | ent e lk =>
      simp only [Option.some.injEq] at hn; subst hn
      simp only [State.goto, if_true]
      refine .inl ?_
      unfold entStep
      simp only
      repeat' split
      all_goals first
        | exact ⟨rfl, rfl⟩
        | exact haf ..
    | cas e lk p =>
      simp only [Option.some.injEq] at hn; subst hn
      simp only [State.goto, if_true]
      unfold casStep
      repeat' split
      all_goals first
        | exact .inr (.inl (ends_after ..))
        | exact .inl ⟨rfl, rfl⟩
    | unexp e => exact absurd (by rw [late]; exact hO.1) hl
    | copy0 rm =>
      dsimp only at hn
      split at hn <;> simp only [Option.some.injEq] at hn <;> subst hn <;> exact .inl ⟨rfl, rfl⟩
    | acq =>
      dsimp only at hn
      split at hn
      · simp only [Option.some.injEq] at hn; subst hn; exact .inl ⟨rfl, rfl⟩
      · cases hn
    | unl nx => cases nx <;> simp only [Option.some.injEq] at hn <;> subst hn <;> exact .inl ⟨rfl, rfl⟩
    | rng es acc =>
      cases es with
      | nil => simp only [Option.some.injEq] at hn; subst hn; exact .inl ⟨rfl, rfl⟩
      | cons x es =>
        dsimp only at hn
        split at hn
        · simp only [Option.some.injEq] at hn; subst hn; exact .inl ⟨rfl, rfl⟩
        · split at hn <;> simp only [Option.some.injEq] at hn <;> subst hn <;> exact .inl ⟨rfl, rfl⟩
    | done r => cases hn
    | panic => cases hn
    | swp e => exact absurd rfl hl
    | copy es rm => exact absurd rfl hl
    | expunge es rm => exact absurd rfl hl
    | amend rm => exact absurd rfl hl
    | _ => simp only [Option.some.injEq] at hn; subst hn; exact .inl ⟨rfl, rfl⟩

theorem ends_own (hl : 0 < (s.pc i).ends) : (∃ x, next eqv prog id true s i = some x) ∧
    ∀ s' ord go, next eqv prog ord go s i = some s' → (∃ r, s'.pc i = .done r) ∨ 0 < (s'.pc i).ends ∧ (s'.pc i).ends < (s.pc i).ends := by
  simp only [next]
  generalize s.pc i = c at hl
  cases c with
  | promo nx =>
    cases nx <;> simp only [PC.ends, Nat.lt_irrefl] at hl
    exact ⟨⟨_, rfl⟩, fun s' ord go hn => by simp only [Option.some.injEq] at hn; subst hn; exact .inr (by simp [State.goto, PC.ends])⟩
  | unl nx =>
    cases nx <;> simp only [PC.ends, Nat.lt_irrefl] at hl
    refine ⟨⟨_, rfl⟩, fun s' ord go hn => ?_⟩
    simp only [Option.some.injEq] at hn; subst hn
    rename_i r
    have := ends_finish (prog i) r
    exact .inr ⟨by simpa [State.goto] using this.1, by
      have e : (PC.unl (.res r) : PC K V).ends = 3 := rfl
      rw [e]; simp only [State.goto, if_true]; omega⟩
  | add d r => exact ⟨⟨_, rfl⟩, fun s' ord go hn => by simp only [Option.some.injEq] at hn; subst hn; exact .inr (by simp [State.goto, PC.ends])⟩
  | fin r => exact ⟨⟨_, rfl⟩, fun s' ord go hn => by simp only [Option.some.injEq] at hn; subst hn; exact .inl ⟨r, by simp [State.goto]⟩⟩
  | _ => simp [PC.ends] at hl

/-- A call that is about to return does. -/
theorem ends_returns (hf : Forever eqv prog f who) (hfair : Fair eqv prog f who) : ∀ (x n : Nat), 0 < ((f n).pc i).ends → ((f n).pc i).ends ≤ x →
    ∃ m r, n ≤ m ∧ (f m).pc i = .done r := by
  intro x
  induction x with
  | zero => intro n h1 h2; omega
  | succ x ih =>
    intro n h1 h2
    -- the next step of the call
    obtain ⟨d, hd, hb⟩ : ∃ d, who (n + d) = i ∧ (f (n + d)).pc i = (f n).pc i := by
      by_contra hno
      have same : ∀ d, (f (n + d)).pc i = (f n).pc i := by
        intro d
        induction d with
        | zero => rfl
        | succ d ihd => rw [← Nat.add_assoc, hf.other (fun hw => hno ⟨d, hw, ihd⟩)]; exact ihd
      obtain ⟨m, hm, hw⟩ := hfair i (fun N => by
        refine ⟨n + N, by omega, ?_, (ends_own (i := i) (by rw [same]; exact h1)).1⟩
        refine ⟨fun e => ?_, fun r e => ?_⟩ <;> rw [← same N, e] at h1 <;> simp [PC.ends] at h1) n
      obtain ⟨d, rfl⟩ := Nat.exists_eq_add_of_le hm
      exact hno ⟨d, hw, same d⟩
    obtain ⟨ord, go, _, hn⟩ := hf.step (n + d)
    rw [hd] at hn
    rcases (ends_own (by rw [hb]; exact h1)).2 _ _ _ hn with ⟨r, h3⟩ | ⟨h3, h4⟩
    · exact ⟨n + d + 1, r, by omega, h3⟩
    · obtain ⟨m, r, h5, h6⟩ := ih (n + d + 1) h3 (by rw [hb] at h4; omega)
      exact ⟨m, r, by omega, h6⟩

/-- The maps are no larger than the number of entries ever made. -/
theorem sizes_fresh (hx : Exec eqv prog h s) : s.sh.read.m.length ≤ s.sh.fresh ∧ s.sh.dl.length ≤ s.sh.fresh := by
  obtain ⟨g, I, _⟩ := exec_inv hx
  have key : ∀ l : List (K × Nat), (l.map (·.1)).Nodup → (∀ k e, aget l k = some e → g.key e = some k ∧ e < s.sh.fresh) → l.length ≤ s.sh.fresh := by
    intro l h1 h2
    have := (List.subperm_of_subset h1 (l₂ := (List.range s.sh.fresh).filterMap g.key) (fun k hk => by
      cases hg : aget l k with
      | none => exact absurd hk (aget_eq_none.1 hg)
      | some e => exact List.mem_filterMap.2 ⟨e, List.mem_range.2 (h2 k e hg).2, (h2 k e hg).1⟩)).length_le
    have h3 := List.length_filterMap_le g.key (List.range s.sh.fresh)
    simp at this h3
    omega
  refine ⟨key _ I.str.core.rwf fun k e he => ⟨(I.str.core.rkey k e he).1, (I.str.core.rkey k e he).2.1⟩, ?_⟩
  unfold Sh.dl
  cases hd : s.sh.dirty with
  | none => simp
  | some d => exact key _ (I.str.core.dwf d hd) fun k e he => ⟨(I.str.core.dkey d hd k e he).1, (I.str.core.dkey d hd k e he).2.1⟩

/-- **C171**, partial: if the scheduler is fair, and a call does not return, then calls of `Store`, `Swap`, `LoadOrStore`, `Delete`, `LoadAndDelete`, `CompareAndSwap` and
`CompareAndDelete` do without end: if no more than finitely many of these do (`L`), every call returns, whatever other calls are made. Missing from the full claim: the other
executions; see `fair_false`. -/
theorem fair_partial (hf : Forever eqv prog f who) (hfair : Fair eqv prog f who) {L : List Nat}
    (hL : ∀ i n r, (prog i).alters = true → (f n).pc i = .done r → i ∈ L) {i n : Nat} (hi : (f n).pc i ≠ .idle) :
    ∃ m r, n ≤ m ∧ (f m).pc i = .done r := by
  have kept : ∀ {i n m r}, n ≤ m → (f n).pc i = .done r → (f m).pc i = .done r := by
    intro i n m r hm hd
    obtain ⟨d, rfl⟩ := Nat.exists_eq_add_of_le hm
    clear hm
    induction d with
    | zero => exact hd
    | succ d ih =>
      rw [← Nat.add_assoc]
      by_cases hw : who (n + d) = i
      · obtain ⟨ord, go, _, hn⟩ := hf.step (n + d)
        rw [hw] at hn
        simp only [next, ih, reduceCtorEq] at hn
      · rw [hf.other hw]; exact ih
  -- from some time on none of those calls is about to return
  obtain ⟨N0, hN0⟩ : ∃ N0, ∀ n i, N0 ≤ n → (prog i).alters = true → ((f n).pc i).ends = 0 := by
    have : ∀ L : List Nat, ∃ N0, ∀ i ∈ L, (∃ n r, (f n).pc i = .done r) → ∃ r, (f N0).pc i = .done r := by
      intro L
      induction L with
      | nil => exact ⟨0, fun i hi => absurd hi (by simp)⟩
      | cons j L ih =>
        obtain ⟨N0, h0⟩ := ih
        by_cases hj : ∃ n r, (f n).pc j = .done r
        · obtain ⟨n, r, hj⟩ := hj
          refine ⟨max n N0, fun i hi hd => ?_⟩
          rcases List.mem_cons.1 hi with rfl | hi
          · exact ⟨r, kept (by omega) hj⟩
          · obtain ⟨r, hr⟩ := h0 i hi hd; exact ⟨r, kept (by omega) hr⟩
        · refine ⟨N0, fun i hi hd => ?_⟩
          rcases List.mem_cons.1 hi with rfl | hi
          · exact absurd hd hj
          · exact h0 i hi hd
    obtain ⟨N0, h0⟩ := this L
    refine ⟨N0, fun n i hn ha => Nat.eq_zero_of_not_pos fun hp => ?_⟩
    obtain ⟨m, r, _, hm⟩ := ends_returns hf hfair _ n hp (Nat.le_refl _)
    obtain ⟨r', hr'⟩ := h0 i (hL i m r ha hm) ⟨m, r, hm⟩
    rw [kept hn hr'] at hp
    simp [PC.ends] at hp
  -- then entries are changed only by a call that has the mutex for good
  have hch : ∀ n, N0 ≤ n → ((f (n + 1)).sh.ent = (f n).sh.ent ∨ late (prog (who n)) ((f n).pc (who n)) = true ∧ (prog (who n)).alters = true) ∧
      (f (n + 1)).sh.fresh = (f n).sh.fresh := by
    intro n hn
    obtain ⟨h, hx⟩ := hf.exec n
    obtain ⟨ord, go, h1, h2⟩ := hf.step n
    by_cases ha : (prog (who n)).alters = true
    · rcases change_own hx h2 with h3 | h3 | h3
      · exact ⟨.inl h3.1, h3.2⟩
      · have := hN0 (n + 1) (who n) (by omega) ha; omega
      · exact ⟨.inr ⟨h3.1, ha⟩, h3.2⟩
    · have := ent_kept hx (by simpa using ha) h2
      exact ⟨.inl this.1, this.2⟩
  have hfr : ∀ n, N0 ≤ n → (f n).sh.fresh = (f N0).sh.fresh := by
    intro n hn
    obtain ⟨d, rfl⟩ := Nat.exists_eq_add_of_le hn
    clear hn
    induction d with
    | zero => rfl
    | succ d ih => rw [← Nat.add_assoc, (hch (N0 + d) (by omega)).2]; exact ih
  have hsz : ∀ n, N0 ≤ n → (f n).sh.read.m.length ≤ (f N0).sh.fresh ∧ (f n).sh.dl.length ≤ (f N0).sh.fresh := by
    intro n hn
    obtain ⟨h, hx⟩ := hf.exec n
    rw [← hfr n hn]; exact sizes_fresh hx
  -- from some time on no entry changes
  obtain ⟨M, hM0, hM⟩ : ∃ M, N0 ≤ M ∧ ∀ n, M ≤ n → (f (n + 1)).sh.ent = (f n).sh.ent := by
    by_cases hc : ∀ n, N0 ≤ n → (f (n + 1)).sh.ent = (f n).sh.ent
    · exact ⟨N0, Nat.le_refl _, hc⟩
    obtain ⟨n1, hn1, hne⟩ : ∃ n, N0 ≤ n ∧ (f (n + 1)).sh.ent ≠ (f n).sh.ent := by
      by_contra hno
      exact hc fun n hn => by_contra fun hne => hno ⟨n, hn, hne⟩
    obtain ⟨hj, ha⟩ := (hch n1 hn1).1.resolve_left hne
    generalize who n1 = j at hj ha
    have hlate : ∀ d, late (prog j) ((f (n1 + d)).pc j) = true := by
      intro d
      induction d with
      | zero => exact hj
      | succ d ih =>
        rw [← Nat.add_assoc]
        by_cases hw : who (n1 + d) = j
        · obtain ⟨h, hx⟩ := hf.exec (n1 + d)
          obtain ⟨ord, go, _, hn⟩ := hf.step (n1 + d)
          rw [hw] at hn
          rcases late_own hx ih hn with h1 | h1
          · exact h1
          · have := hN0 (n1 + d + 1) j (by omega) ha; omega
        · rw [hf.other hw]; exact ih
    let g : Nat → Nat := fun n => chg 0 (prog j) ((f n).pc j)
    have hstep : ∀ n, n1 ≤ n → g (n + 1) ≤ g n ∧ (g (n + 1) = g n → (f (n + 1)).sh.ent = (f n).sh.ent) := by
      intro n hn
      obtain ⟨d, rfl⟩ := Nat.exists_eq_add_of_le hn
      obtain ⟨h, hx⟩ := hf.exec (n1 + d)
      obtain ⟨ord, go, h1, h2⟩ := hf.step (n1 + d)
      by_cases hw : who (n1 + d) = j
      · rw [hw] at h2
        have own := chg_own (N := 0) h1 h2 (fun rm e => by have := hlate d; rw [e] at this; simp [late] at this)
        refine ⟨by show chg _ _ _ ≤ chg _ _ _; rcases own with h | h <;> omega, fun he => ?_⟩
        rcases own with h | h
        · exact h.1
        · exact absurd he (Nat.ne_of_lt h)
      · refine ⟨Nat.le_of_eq (by show chg _ _ _ = chg _ _ _; rw [hf.other hw]), fun _ => ?_⟩
        rcases (hch (n1 + d) (by omega)).1 with h3 | h3
        · exact h3
        · have e1 := (lock_invariant hx j).1 (late_locked (hlate d))
          have e2 := (lock_invariant hx _).1 (late_locked h3.1)
          rw [e1] at e2
          exact absurd (Option.some.inj e2).symm hw
    obtain ⟨M, h1, hM⟩ := settles g (M := n1) fun n hn => (hstep n hn).1
    exact ⟨M, by omega, fun n hn => (hstep n (by omega)).2 (hM n hn)⟩
  -- then every call makes finitely many steps
  have hfin : ∀ j, ∃ N, ∀ n, N ≤ n → who n ≠ j := by
    intro j
    let g : Nat → Nat := fun n => weight (f N0).sh.fresh (prog j) (f n).sh.ent ((f n).pc j)
    have hstep : ∀ n, M ≤ n → (who n = j → g (n + 1) < g n) ∧ (who n ≠ j → g (n + 1) = g n) := by
      intro n hn
      obtain ⟨ord, go, h1, h2⟩ := hf.step n
      constructor
      · rintro rfl; exact weight_own h1 h2 (hsz n (by omega)).1 (hsz n (by omega)).2
      · intro hj
        show weight _ _ _ _ = weight _ _ _ _
        rw [hM n hn, hf.other hj]
    obtain ⟨N, h1, h2⟩ := settles g (M := M) fun n hn => by
      by_cases hj : who n = j
      · exact Nat.le_of_lt ((hstep n hn).1 hj)
      · exact Nat.le_of_eq ((hstep n hn).2 hj)
    exact ⟨N, fun n hn hj => absurd (h2 n hn) (Nat.ne_of_lt ((hstep n (by omega)).1 hj))⟩
  -- calls that can go on again and again do
  have hstop : ∀ j, ∃ N, ∀ n, N ≤ n → InProgress (f n) j → (f n).pc j = .acq ∧ (f n).sh.mu ≠ none := by
    intro j
    by_contra hc
    obtain ⟨N, hN⟩ := hfin j
    have hc' : ∀ N, ∃ n, N ≤ n ∧ InProgress (f n) j ∧ ¬ ((f n).pc j = .acq ∧ (f n).sh.mu ≠ none) := by
      intro N
      by_contra hno
      exact hc ⟨N, fun n hn hp => by_contra fun hq => hno ⟨n, hn, hp, hq⟩⟩
    obtain ⟨n, hn, he⟩ := hfair j (fun N => by
      obtain ⟨n, hn, hp, hq⟩ := hc' N
      refine ⟨n, hn, hp, ?_⟩
      obtain ⟨h, hx⟩ := hf.exec n
      by_cases ha : (f n).pc j = .acq
      · have hm : (f n).sh.mu = none := by_contra fun hm => hq ⟨ha, hm⟩
        exact ⟨_, by simp only [next, ha, hm, if_true]; rfl⟩
      · obtain ⟨s', -, hs⟩ := rwmap_waits hx hp.1 hp.2 ha
        exact ⟨s', hs⟩) N
    exact hN n hn he
  -- suppose a call does not return
  by_contra hno
  have hprog : ∀ m, n ≤ m → InProgress (f m) i := by
    intro m hm
    refine ⟨?_, fun r hr => hno ⟨m, r, hm, hr⟩⟩
    obtain ⟨d, rfl⟩ := Nat.exists_eq_add_of_le hm
    clear hm
    induction d with
    | zero => exact hi
    | succ d ih =>
      obtain ⟨h, hx⟩ := hf.exec (n + d)
      obtain ⟨ord, go, h1, h2⟩ := hf.step (n + d)
      have hx' := hx.step ⟨_, _, _, h1, h2, rfl⟩
      exact ((exec_book hx').inv _).1 (List.mem_append_left _ (((exec_book hx).inv _).2 ih))
  obtain ⟨N, hN⟩ := hstop i
  -- the mutex is then held forever by one call
  have hmu : ∀ m, n ≤ m → N ≤ m → (f m).sh.mu ≠ none := fun m h1 h2 => (hN m h2 (hprog m h1)).2
  obtain ⟨j, hj⟩ := Option.ne_none_iff_exists'.1 (hmu (max n N) (by omega) (by omega))
  have hall : ∀ d, (f (max n N + d)).sh.mu = some j := by
    intro d
    induction d with
    | zero => exact hj
    | succ d ih =>
      obtain ⟨h, hx⟩ := hf.exec (max n N + d)
      obtain ⟨ord, go, h1, h2⟩ := hf.step (max n N + d)
      exact mu_holder hx h1 h2 ih (hmu _ (by omega) (by omega))
  -- which is not waiting
  obtain ⟨N', hN'⟩ := hstop j
  obtain ⟨h, hx⟩ := hf.exec (max n N + N')
  have hl := (lock_invariant hx j).2 (hall N')
  have := hN' (max n N + N') (by omega) ⟨fun e => (by rw [e] at hl; cases hl), fun r e => (by rw [e] at hl; cases hl)⟩
  rw [this.1] at hl; cases hl

/-- The same, the other way round: the map as a whole does not stop. If some call does not return, then again and again another one does, and it is one of those that
change entries. -/
theorem fair_others (hf : Forever eqv prog f who) (hfair : Fair eqv prog f who) {i n : Nat} (hi : (f n).pc i ≠ .idle) (hno : ∀ m r, n ≤ m → (f m).pc i ≠ .done r) :
    ∀ N, ∃ m j r, N ≤ m ∧ (prog j).alters = true ∧ InProgress (f m) j ∧ (f (m + 1)).pc j = .done r := by
  intro N
  by_contra hc
  obtain ⟨h, hx⟩ := hf.exec N
  obtain ⟨m, r, h1, h2⟩ := fair_partial hf hfair (L := h.filterMap fun | .inv i => some i | _ => none) (fun j m r ha hd => by
    have hid : (f N).pc j ≠ .idle := by
      by_contra hid
      -- it returns after `N`
      have : ∀ d, ∀ r, (f (N + d)).pc j ≠ .done r := by
        intro d
        induction d with
        | zero => intro r hr; rw [Nat.add_zero, hid] at hr; cases hr
        | succ d ih =>
          intro r hr
          by_cases hq : (f (N + d)).pc j = .idle
          · by_cases hw : who (N + d) = j
            · obtain ⟨ord, go, _, hn⟩ := hf.step (N + d)
              rw [hw] at hn
              simp only [next, hq, Option.some.injEq] at hn
              rw [← Nat.add_assoc, ← hn] at hr
              simp [State.goto] at hr
            · rw [← Nat.add_assoc, hf.other hw, hq] at hr; cases hr
          · exact hc ⟨N + d, j, r, by omega, ha, ⟨hq, ih⟩, hr⟩
      rcases Nat.le_total N m with hm | hm
      · obtain ⟨d, rfl⟩ := Nat.exists_eq_add_of_le hm
        exact this d r hd
      · obtain ⟨d, rfl⟩ := Nat.exists_eq_add_of_le hm
        have : ∀ d, (f (m + d)).pc j = .done r := by
          intro d
          induction d with
          | zero => exact hd
          | succ d ih =>
            rw [← Nat.add_assoc]
            by_cases hw : who (m + d) = j
            · obtain ⟨ord, go, _, hn⟩ := hf.step (m + d)
              rw [hw] at hn
              simp only [next, ih, reduceCtorEq] at hn
            · rw [hf.other hw]; exact ih
        rw [this d] at hid; cases hid
    exact List.mem_filterMap.2 ⟨.inv j, ((exec_book hx).inv j).2 hid, rfl⟩) hi
  exact hno m r h1 h2

/-! ## A call that never returns -/

/-- Calls 0 to 4 are made first; then `Swap`s and `LoadAndDelete`s of key 1 in turn. -/
def fairProg : Nat → Op Nat Nat
  | 0 => .swap 1 0
  | 1 => .load 5
  | 2 => .range
  | 3 => .loadAndDelete 1
  | 4 => .swap 7 0
  | n => if n % 2 = 1 then .swap 1 n else .loadAndDelete 1

abbrev natEq (a b : Nat) : Option Bool := some (a == b)

/-- A `Swap` of a new key holds the mutex, and is about to mark the entry of key 1 as expunged; a `Load` waits. No calls from `m` on have been made. -/
structure Stuck (s : State Nat Nat) (m : Nat) : Prop where
  four : s.pc 4 = .expunge [(1, 0)] [(1, 0)]
  one : s.pc 1 = .acq
  read : s.sh.read = ⟨[(1, 0)], false⟩
  ent : s.sh.ent 0 = .nil
  mu : s.sh.mu = some 4
  dirty : s.sh.dirty = some []
  idle : ∀ j, m ≤ j → s.pc j = .idle
  others : ∀ j, j < m → j ≠ 1 → j ≠ 4 → ∃ r, s.pc j = .done r

theorem stuck_start : ∃ h s, Exec natEq fairProg h s ∧ Stuck s 5 := by
  obtain ⟨⟨s, h⟩, hx⟩ : ∃ x, sched natEq fairProg true (rep 10 0 ++ rep 2 1 ++ rep 9 2 ++ rep 6 3 ++ rep 6 4) State.init [] = some x := ⟨_, rfl⟩
  have e : (sched natEq fairProg true (rep 10 0 ++ rep 2 1 ++ rep 9 2 ++ rep 6 3 ++ rep 6 4) State.init []).map
      (fun x => (x.1.pc 4, x.1.pc 1, x.1.sh.read, x.1.sh.ent 0, x.1.sh.mu, x.1.sh.dirty, x.1.pc 0, x.1.pc 2, x.1.pc 3)) =
      some (.expunge [(1, 0)] [(1, 0)], .acq, ⟨[(1, 0)], false⟩, .nil, some 4, some [], .done (.opt none), .done (.visited [(1, 0)] false), .done (.opt (some 0))) := rfl
  rw [hx] at e
  simp only [Option.map_some, Option.some.injEq, Prod.mk.injEq] at e
  obtain ⟨e1, e2, e3, e4, e5, e6, e7, e8, e9⟩ := e
  refine ⟨h, s, sched_exec .init hx, e1, e2, e3, e4, e5, e6, ?_, ?_⟩
  · intro j hj
    rw [sched_idle (by simp [rep]; omega) hx]
    rfl
  · intro j hj h1 h4
    have : j = 0 ∨ j = 2 ∨ j = 3 := by omega
    rcases this with rfl | rfl | rfl
    · exact ⟨_, e7⟩
    · exact ⟨_, e8⟩
    · exact ⟨_, e9⟩

theorem Go.append {Q : State K V → Prop} {l l' : List Nat} {s s1 s' : State K V} (h : Go eqv prog Q l s s1) (h' : Go eqv prog Q l' s1 s') :
    Go eqv prog Q (l ++ l') s s' := by
  induction h with
  | nil => exact h'
  | cons h1 h2 _ ih => exact .cons h1 h2 (ih h')

/-- A `Swap` of key 1, made by call `m`. -/
theorem go_swap {s : State Nat Nat} {m : Nat} (hp : fairProg m = .swap 1 m) (hi : s.pc m = .idle) (hr : s.sh.read = ⟨[(1, 0)], false⟩) (he : s.sh.ent 0 = .nil) :
    Go natEq fairProg (fun x => x.sh.mu = s.sh.mu) (List.replicate 6 m) s ⟨{ s.sh.setEnt 0 (.val m) with len := s.sh.len + 1 }, fun j => if j = m then .done (.opt none) else s.pc j⟩ := by
  refine .cons (s1 := ⟨s.sh, fun j => if j = m then .start else s.pc j⟩) (by simp [next, hi, State.goto]) rfl ?_
  refine .cons (s1 := ⟨s.sh, fun j => if j = m then .ent 0 .u else s.pc j⟩) (by simp [next, hp, State.goto, startStep, hr, aget]; funext j; split <;> rfl) rfl ?_
  refine .cons (s1 := ⟨s.sh, fun j => if j = m then .cas 0 .u .nil else s.pc j⟩) (by simp [next, hp, State.goto, entStep, he]; funext j; split <;> rfl) rfl ?_
  refine .cons (s1 := ⟨s.sh.setEnt 0 (.val m), fun j => if j = m then .add 1 (.opt none) else s.pc j⟩)
    (by simp [next, hp, State.goto, casStep, he, after, finish, deref]; funext j; split <;> rfl) rfl ?_
  refine .cons (s1 := ⟨{ s.sh.setEnt 0 (.val m) with len := s.sh.len + 1 }, fun j => if j = m then .fin (.opt none) else s.pc j⟩)
    (by simp [next, State.goto, Sh.setEnt]; funext j; split <;> rfl) rfl ?_
  exact .cons (s1 := ⟨{ s.sh.setEnt 0 (.val m) with len := s.sh.len + 1 }, fun j => if j = m then .done (.opt none) else s.pc j⟩)
    (by simp [next, State.goto, Sh.setEnt]; funext j; split <;> rfl) rfl .nil

/-- A `LoadAndDelete` of key 1, made by call `m`. -/
theorem go_del {s : State Nat Nat} {m b : Nat} (hp : fairProg m = .loadAndDelete 1) (hi : s.pc m = .idle) (hr : s.sh.read = ⟨[(1, 0)], false⟩) (he : s.sh.ent 0 = .val b) :
    Go natEq fairProg (fun x => x.sh.mu = s.sh.mu) (List.replicate 6 m) s
      ⟨{ s.sh.setEnt 0 .nil with len := s.sh.len + -1 }, fun j => if j = m then .done (.opt (some (fairProg b).arg)) else s.pc j⟩ := by
  refine .cons (s1 := ⟨s.sh, fun j => if j = m then .start else s.pc j⟩) (by simp [next, hi, State.goto]) rfl ?_
  refine .cons (s1 := ⟨s.sh, fun j => if j = m then .ent 0 .u else s.pc j⟩) (by simp [next, hp, State.goto, startStep, hr, aget]; funext j; split <;> rfl) rfl ?_
  refine .cons (s1 := ⟨s.sh, fun j => if j = m then .cas 0 .u (.val b) else s.pc j⟩) (by simp [next, hp, State.goto, entStep, he]; funext j; split <;> rfl) rfl ?_
  refine .cons (s1 := ⟨s.sh.setEnt 0 .nil, fun j => if j = m then .add (-1) (.opt (some (fairProg b).arg)) else s.pc j⟩)
    (by simp [next, hp, State.goto, casStep, he, after, finish, deref]; funext j; split <;> rfl) rfl ?_
  refine .cons (s1 := ⟨{ s.sh.setEnt 0 .nil with len := s.sh.len + -1 }, fun j => if j = m then .fin (.opt (some (fairProg b).arg)) else s.pc j⟩)
    (by simp [next, State.goto, Sh.setEnt]; funext j; split <;> rfl) rfl ?_
  exact .cons (s1 := ⟨{ s.sh.setEnt 0 .nil with len := s.sh.len + -1 }, fun j => if j = m then .done (.opt (some (fairProg b).arg)) else s.pc j⟩)
    (by simp [next, State.goto, Sh.setEnt]; funext j; split <;> rfl) rfl .nil

/-- The calls of a round. -/
def roundOf (m : Nat) : List Nat := List.replicate 6 m ++ [4] ++ List.replicate 6 (m + 1) ++ [4]

theorem Stuck.round {s : State Nat Nat} {m : Nat} (h : Stuck s m) (hm : 5 ≤ m) (hodd : m % 2 = 1) :
    ∃ s', Go natEq fairProg (fun x => x.sh.mu = some 4) (roundOf m) s s' ∧ Stuck s' (m + 2) := by
  have prog_m : fairProg m = .swap 1 m := by
    obtain ⟨d, rfl⟩ := Nat.exists_eq_add_of_le hm
    rw [Nat.add_comm]; simp only [fairProg]; rw [if_pos (by omega)]
  have prog_m1 : fairProg (m + 1) = .loadAndDelete 1 := by
    obtain ⟨d, rfl⟩ := Nat.exists_eq_add_of_le hm
    rw [show 5 + d + 1 = (d + 1) + 5 by omega]; simp only [fairProg]; rw [if_neg (by omega)]
  have g1 := go_swap prog_m (h.idle m (Nat.le_refl _)) h.read h.ent
  rw [h.mu] at g1
  generalize hs1 : (⟨{ s.sh.setEnt 0 (.val m) with len := s.sh.len + 1 }, fun j => if j = m then .done (.opt none) else s.pc j⟩ : State Nat Nat) = s1 at g1
  have g2 : next natEq fairProg id true s1 4 = some (s1.goto 4 (.copy [(1, 0)] [(1, 0)])) := by
    have h4 : s1.pc 4 = .expunge [(1, 0)] [(1, 0)] := by rw [← hs1]; simp [h.four]; omega
    have he : s1.sh.ent 0 = .val m := by rw [← hs1]; simp [Sh.setEnt]
    simp [next, h4, he, State.goto]
  generalize hs2 : s1.goto 4 (.copy [(1, 0)] [(1, 0)]) = s2 at g2
  have sh2 : s2.sh = { s.sh.setEnt 0 (.val m) with len := s.sh.len + 1 } := by rw [← hs2, ← hs1]; rfl
  have pc2 : ∀ j, s2.pc j = if j = 4 then .copy [(1, 0)] [(1, 0)] else if j = m then .done (.opt none) else s.pc j := by
    intro j; rw [← hs2, ← hs1]; rfl
  have g3 := go_del (s := s2) (b := m) prog_m1 (by rw [pc2, if_neg (by omega), if_neg (by omega)]; exact h.idle _ (by omega)) (by rw [sh2]; exact h.read)
    (by rw [sh2]; simp [Sh.setEnt])
  have mu2 : s2.sh.mu = some 4 := by rw [sh2]; exact h.mu
  rw [mu2] at g3
  generalize hs3 : (⟨{ s2.sh.setEnt 0 .nil with len := s2.sh.len + -1 }, fun j => if j = m + 1 then .done (.opt (some (fairProg m).arg)) else s2.pc j⟩ : State Nat Nat) = s3 at g3
  have sh3 : s3.sh = { s2.sh.setEnt 0 .nil with len := s2.sh.len + -1 } := by rw [← hs3]
  have pc3 : ∀ j, s3.pc j = if j = m + 1 then .done (.opt (some (fairProg m).arg)) else s2.pc j := by intro j; rw [← hs3]
  have g4 : next natEq fairProg id true s3 4 = some (s3.goto 4 (.expunge [(1, 0)] [(1, 0)])) := by
    have h4 : s3.pc 4 = .copy [(1, 0)] [(1, 0)] := by rw [pc3, if_neg (by omega), pc2, if_pos rfl]
    have he : s3.sh.ent 0 = .nil := by rw [sh3]; simp [Sh.setEnt]
    simp [next, h4, he, State.goto]
  have mu3 : s3.sh.mu = some 4 := by rw [sh3]; exact mu2
  refine ⟨_, ((g1.append (.cons g2 mu2 .nil)).append g3).append (.cons g4 (by simpa using mu3) .nil), ?_⟩
  have pc4 : ∀ j, (s3.goto 4 (.expunge [(1, 0)] [(1, 0)])).pc j = if j = 4 then .expunge [(1, 0)] [(1, 0)] else if j = m + 1 then .done (.opt (some (fairProg m).arg)) else
      if j = m then .done (.opt none) else s.pc j := by
    intro j
    by_cases h4 : j = 4
    · subst h4; simp [State.goto]
    · rw [goto_pc_ne _ _ h4, pc3, pc2]; simp [h4]
  refine ⟨?_, ?_, ?_, ?_, ?_, ?_, ?_, ?_⟩
  · rw [pc4, if_pos rfl]
  · rw [pc4, if_neg (by omega), if_neg (by omega), if_neg (by omega)]; exact h.one
  · rw [goto_sh, sh3, sh2]; exact h.read
  · rw [goto_sh, sh3]; simp [Sh.setEnt]
  · exact mu3
  · rw [goto_sh, sh3, sh2]; exact h.dirty
  · intro j hj
    rw [pc4, if_neg (by omega), if_neg (by omega), if_neg (by omega)]; exact h.idle j (by omega)
  · intro j hj h1 h4
    rw [pc4, if_neg h4]
    split
    · exact ⟨_, rfl⟩
    · split
      · exact ⟨_, rfl⟩
      · exact h.others j (by omega) h1 h4

/-- The states when the calls `who 0`, `who 1`, … make their steps. -/
def follow (eqv : V → V → Option Bool) (prog : Nat → Op K V) (who : Nat → Nat) (s : State K V) : Nat → State K V
  | 0 => s
  | n + 1 => (next eqv prog id true (follow eqv prog who s n) (who n)).getD (follow eqv prog who s n)

theorem follow_go {Q : State K V → Prop} {l : List Nat} {x x' s : State K V} (hg : Go eqv prog Q l x x') :
    ∀ {n : Nat}, follow eqv prog who s n = x → (∀ k (hk : k < l.length), who (n + k) = l[k]) →
      follow eqv prog who s (n + l.length) = x' ∧ ∀ k, k < l.length →
        next eqv prog id true (follow eqv prog who s (n + k)) (who (n + k)) = some (follow eqv prog who s (n + k + 1)) ∧ Q (follow eqv prog who s (n + k + 1)) := by
  induction hg with
  | nil => intro n h1 _; exact ⟨h1, fun k hk => absurd hk (by simp)⟩
  | @cons i l x x1 x' h1 h2 _ ih =>
    intro n hn hw
    have hi : who n = i := hw 0 (by simp)
    have hn1 : follow eqv prog who s (n + 1) = x1 := by simp only [follow, hn, hi, h1, Option.getD_some]
    obtain ⟨h3, h4⟩ := ih hn1 fun k hk => by
      have := hw (k + 1) (by simpa using hk)
      rw [show n + 1 + k = n + (k + 1) by omega, this]
      rfl
    refine ⟨by rw [← h3]; congr 1; simp; omega, fun k hk => ?_⟩
    cases k with
    | zero => exact ⟨by rw [Nat.add_zero, hn, hi, h1, hn1], by rw [Nat.add_zero, hn1]; exact h2⟩
    | succ k =>
      have := h4 k (by simpa using hk)
      rwa [show n + 1 + k = n + (k + 1) by omega] at this

/-- The calls in turn, round by round. -/
def fairWho (n : Nat) : Nat := (roundOf (5 + 2 * (n / 14))).getD (n % 14) 4

theorem fairWho_round (q k : Nat) (hk : k < (roundOf (5 + 2 * q)).length) : fairWho (14 * q + k) = (roundOf (5 + 2 * q))[k] := by
  have h14 : (roundOf (5 + 2 * q)).length = 14 := by simp [roundOf]
  have h1 : (14 * q + k) / 14 = q := by omega
  have h2 : (14 * q + k) % 14 = k := by omega
  rw [fairWho, h1, h2, List.getD_eq_getElem?_getD, List.getElem?_eq_getElem hk, Option.getD_some]

/-- **C171** is false: there are a run and a fair scheduler such that a `Load` and a `Swap` are in progress for ever. (The `Swap`, which has the mutex, copies the map and
tries to mark an entry; other calls keep storing and deleting the value of that entry, so that it has to try again. The `Load` waits for the mutex.) -/
theorem fair_false : ∃ (f : Nat → State Nat Nat) (who : Nat → Nat), Forever natEq fairProg f who ∧ Fair natEq fairProg f who ∧
    (∀ n, InProgress (f n) 1 ∧ InProgress (f n) 4) ∧ fairProg 1 = .load 5 ∧ fairProg 4 = .swap 7 0 := by
  obtain ⟨h, s, hx, hs⟩ := stuck_start
  have h14 : ∀ q, (roundOf (5 + 2 * q)).length = 14 := by simp [roundOf]
  let f := follow natEq fairProg fairWho s
  have key : ∀ q, Stuck (f (14 * q)) (5 + 2 * q) := by
    intro q
    induction q with
    | zero => exact hs
    | succ q ih =>
      obtain ⟨s', h1, h2⟩ := ih.round (by omega) (by omega)
      obtain ⟨h3, -⟩ := follow_go (who := fairWho) (s := s) h1 rfl (fairWho_round q)
      rw [h14] at h3
      rw [show 14 * (q + 1) = 14 * q + 14 by omega]
      show Stuck (follow natEq fairProg fairWho s _) _
      rw [h3]; exact h2
  have all : ∀ n, next natEq fairProg id true (f n) (fairWho n) = some (f (n + 1)) ∧ (f (n + 1)).sh.mu = some 4 := by
    intro n
    obtain ⟨s', h1, h2⟩ := (key (n / 14)).round (by omega) (by omega)
    obtain ⟨-, h4⟩ := follow_go (who := fairWho) (s := s) h1 rfl (fairWho_round (n / 14))
    have := h4 (n % 14) (by rw [h14]; omega)
    rwa [show 14 * (n / 14) + n % 14 = n by omega] at this
  have mu : ∀ n, (f n).sh.mu = some 4 := fun n => by
    cases n with
    | zero => exact hs.mu
    | succ n => exact (all n).2
  have whoIs : ∀ n, fairWho n = 4 ∨ fairWho n = 5 + 2 * (n / 14) ∨ fairWho n = 5 + 2 * (n / 14) + 1 := by
    intro n
    have hlt : n % 14 < (roundOf (5 + 2 * (n / 14))).length := by rw [h14]; omega
    have : fairWho n ∈ roundOf (5 + 2 * (n / 14)) := by
      rw [fairWho, List.getD_eq_getElem?_getD, List.getElem?_eq_getElem hlt, Option.getD_some]; exact List.getElem_mem hlt
    simp only [roundOf, List.mem_append, List.mem_replicate, List.mem_singleton] at this
    omega
  have hf : Forever natEq fairProg f fairWho := ⟨⟨h, hx⟩, fun n => ⟨id, true, fun l => .refl l, (all n).1⟩⟩
  have one : ∀ n, (f n).pc 1 = .acq := by
    intro n
    induction n with
    | zero => exact hs.one
    | succ n ih => rw [hf.other (by have := whoIs n; omega)]; exact ih
  have four : ∀ n, InProgress (f n) 4 := fun n => by
    obtain ⟨h, hx⟩ := hf.exec n
    have hl := (lock_invariant hx 4).2 (mu n)
    exact ⟨fun e => (by rw [e] at hl; cases hl), fun r e => (by rw [e] at hl; cases hl)⟩
  refine ⟨f, fairWho, hf, ?_, fun n => ⟨⟨by rw [one]; simp, by rw [one]; simp⟩, four n⟩, rfl, rfl⟩
  intro i hi N
  by_cases h4 : i = 4
  · subst h4
    refine ⟨14 * N + 6, by omega, ?_⟩
    have := fairWho_round N 6 (by rw [h14]; omega)
    rw [this]; simp [roundOf]
  by_cases h1 : i = 1
  · subst h1
    obtain ⟨n, -, -, s', hs'⟩ := hi 0
    simp [next, one, mu] at hs'
  -- all others have returned in the end
  exfalso
  obtain ⟨r, hr⟩ := (key (i + 1)).others i (by omega) h1 h4
  have : ∀ d, (f (14 * (i + 1) + d)).pc i = .done r := by
    intro d
    induction d with
    | zero => exact hr
    | succ d ih =>
      rw [show 14 * (i + 1) + (d + 1) = 14 * (i + 1) + d + 1 by omega, hf.other (by have := whoIs (14 * (i + 1) + d); omega)]; exact ih
  obtain ⟨n, hn, hp, -⟩ := hi (14 * (i + 1))
  obtain ⟨d, rfl⟩ := Nat.exists_eq_add_of_le hn
  exact hp.2 r (this d)

/-! ## `fair_partial` is about something: a run with calls without end -/

theorem go_load {s : State Nat Nat} {m : Nat} (hi : s.pc m = .idle) (hr : s.sh.read = ⟨[], false⟩) :
    Go natEq (fun _ => .load 5) (fun x => x.sh = s.sh) [m, m, m] s ⟨s.sh, fun j => if j = m then .done (.opt none) else s.pc j⟩ := by
  refine .cons (s1 := ⟨s.sh, fun j => if j = m then .start else s.pc j⟩) (by simp [next, hi, State.goto]) rfl ?_
  refine .cons (s1 := ⟨s.sh, fun j => if j = m then .fin (.opt none) else s.pc j⟩)
    (by simp [next, State.goto, startStep, hr, aget]; funext j; split <;> rfl) rfl ?_
  exact .cons (s1 := ⟨s.sh, fun j => if j = m then .done (.opt none) else s.pc j⟩) (by simp [next, State.goto]; funext j; split <;> rfl) rfl .nil

/-- `Load`s one after the other, without end: the scheduler is fair, no call changes an entry, and every call is made at some time. -/
theorem loads_forever : ∃ (f : Nat → State Nat Nat) (who : Nat → Nat), Forever natEq (fun _ => .load 5) f who ∧ Fair natEq (fun _ => .load 5) f who ∧
    ∀ i, ∃ n, (f n).pc i ≠ .idle := by
  let f := follow natEq (fun _ => Op.load 5) (· / 3) (State.init : State Nat Nat)
  have hw : ∀ q k (hk : k < [q, q, q].length), (3 * q + k) / 3 = [q, q, q][k] := by
    intro q k hk
    have h3 : k < 3 := hk
    have : [q, q, q][k] = q := by
      rcases k with _ | _ | _ | k <;> first | rfl | omega
    rw [this]; omega
  have key : ∀ q, (f (3 * q)).sh = (State.init : State Nat Nat).sh ∧ ∀ j, (f (3 * q)).pc j = if j < q then .done (.opt none) else .idle := by
    intro q
    induction q with
    | zero => exact ⟨rfl, fun j => rfl⟩
    | succ q ih =>
      have hg := go_load (s := f (3 * q)) (m := q) (by rw [ih.2]; simp) (by rw [ih.1]; rfl)
      obtain ⟨h3, -⟩ := follow_go (who := (· / 3)) (s := State.init) hg rfl (hw q)
      have h3' : f (3 * (q + 1)) = _ := h3
      rw [h3']
      refine ⟨ih.1, fun j => ?_⟩
      simp only [ih.2]
      by_cases h1 : j = q
      · rw [if_pos h1, if_pos (by omega)]
      · rw [if_neg h1]
        by_cases h2 : j < q
        · rw [if_pos h2, if_pos (by omega)]
        · rw [if_neg h2, if_neg (by omega)]
  have all : ∀ n, next natEq (fun _ => .load 5) id true (f n) (n / 3) = some (f (n + 1)) := by
    intro n
    have hg := go_load (s := f (3 * (n / 3))) (m := n / 3) (by rw [(key _).2]; simp) (by rw [(key _).1]; rfl)
    obtain ⟨-, h4⟩ := follow_go (who := (· / 3)) (s := State.init) hg rfl (hw (n / 3))
    have := (h4 (n % 3) (by show _ < 3; omega)).1
    rwa [show 3 * (n / 3) + n % 3 = n by omega] at this
  have hf : Forever natEq (fun _ => .load 5) f (· / 3) := ⟨⟨[], .init⟩, fun n => ⟨id, true, fun l => .refl l, all n⟩⟩
  refine ⟨f, (· / 3), hf, ?_, fun i => ⟨3 * (i + 1), by rw [(key _).2]; simp⟩⟩
  intro i hi
  exfalso
  have : ∀ d, (f (3 * (i + 1) + d)).pc i = .done (.opt none) := by
    intro d
    induction d with
    | zero => rw [Nat.add_zero, (key _).2]; simp
    | succ d ih => rw [← Nat.add_assoc, hf.other (by show _ / 3 ≠ i; omega)]; exact ih
  obtain ⟨n, hn, hp, -⟩ := hi (3 * (i + 1))
  obtain ⟨d, rfl⟩ := Nat.exists_eq_add_of_le hn
  exact hp.2 _ (this d)

/-- Every one of those calls returns. -/
example : ∃ (f : Nat → State Nat Nat), ∀ i, ∃ m r, (f m).pc i = .done r := by
  obtain ⟨f, who, hf, hfair, hi⟩ := loads_forever
  refine ⟨f, fun i => ?_⟩
  obtain ⟨n, hn⟩ := hi i
  obtain ⟨m, r, -, h⟩ := fair_partial hf hfair (L := []) (fun _ _ _ h => absurd h (by simp [Op.alters])) hn
  exact ⟨m, r, h⟩

end Verif.RWMap
