import Verif.Refresh.Wait
/-!
# Functions of the user that call their own cache

A call made inside a refresh or clear function is a call of another thread in `Model.lean`; here that thread belongs to the thread that runs
the function: it calls only while the function runs, and the function does not end while the thread is in a call.
-/
namespace Verif.Refresh
variable {T E F A : Type} {c : Cfg T} {rf : F} {tr : List (Ev T E F A)} {ss : List (State T E F A)} {s s' : State T E F A} {i j : Nat}

/-- The thread runs a function of the user: refreshcache.go:125, 142, 151. -/
def PC.inFun : PC T E F A → Prop
  | .running | .kRun => True
  | _ => False

/-- The calls of thread `j` are made inside the functions that thread `par j` runs. -/
def Nested (par : Nat → Option Nat) (s : State T E F A) (i : Nat) : In T E F A → Prop
  | .call _ => ∀ p, par i = some p → (s.pc p).inFun
  | .fin _ | .clearFin _ => ∀ j, par j = some i → s.pc j = .idle
  | _ => True

/-- `p` runs a function inside which, directly or not, thread `i` makes its calls. -/
inductive Inside (par : Nat → Option Nat) : Nat → Nat → Prop
  | one {i p : Nat} : par i = some p → Inside par i p
  | more {i q p : Nat} : par i = some q → Inside par q p → Inside par i p

/-- No refresh function calls `Get` or `Refresh` of its cache. -/
def Careful (par : Nat → Option Nat) (s : State T E F A) (i : Nat) : In T E F A → Prop
  | .call op => (∃ p, Inside par i p ∧ s.pc p = .running) → ¬ op.isGet ∧ ¬ op.isRefresh
  | _ => True

/-- Executions with nested calls, each step satisfying `R`. -/
inductive NExec (par : Nat → Option Nat) (R : State T E F A → Nat → In T E F A → Prop) (c : Cfg T) (rf : F) :
    List (Ev T E F A) → List (State T E F A) → State T E F A → Prop where
  | nil : NExec par R c rf [] [] (init c rf)
  | snoc {tr ss s i inp s' e} : NExec par R c rf tr ss s → Nested par s i inp → R s i inp → step c s i inp = some (s', e) →
      NExec par R c rf (tr ++ [e]) (ss ++ [s']) s'

/-- What can come after state `s`. -/
inductive NSteps (par : Nat → Option Nat) (c : Cfg T) : State T E F A → List (Ev T E F A) → State T E F A → Prop where
  | nil {s : State T E F A} : NSteps par c s [] s
  | snoc {s : State T E F A} {tr s1 i inp s' e} : NSteps par c s tr s1 → Nested par s1 i inp → step c s1 i inp = some (s', e) → NSteps par c s (tr ++ [e]) s'

variable {par : Nat → Option Nat} {R : State T E F A → Nat → In T E F A → Prop}

theorem NExec.exec (h : NExec par R c rf tr ss s) : Exec c rf tr ss s := by
  induction h with
  | nil => exact .nil
  | snoc _ _ _ h2 ih => exact .snoc ih h2

/-- Nothing of `Get` or `Refresh`. -/
def PC.free : PC T E F A → Prop
  | .cGet _ | .cRefresh _ | .gLast _ _ | .gChk _ _ _ | .gData | .gErrNow _ _ | .gErrChk _ _ _ | .gErr | .gLock _ _
  | .lLast _ _ | .lNow _ _ | .lChk _ _ _ | .lCmp _ _ _ | .lData | .lErrNow _ _ | .lErrChk _ _ _ | .lErr | .rLock _ _
  | .old _ _ | .running | .wData _ _ | .wNow _ | .wLast _ _ | .wLastErr _ | .wErr _ _ | .wErrNow _ | .wErrLast _ _
  | .wErrClr _ | .unlock _ => False
  | _ => True

theorem entry_free {op : Op F A} (h1 : ¬ op.isGet) (h2 : ¬ op.isRefresh) : (entry op : PC T E F A).free := by
  cases op with
  | clear f a => cases f <;> trivial
  | get | cget => exact absurd trivial h1
  | refresh | crefresh => exact absurd trivial h2
  | _ => trivial

theorem step_self {inp : In T E F A} {e : Ev T E F A} (h : step c s i inp = some (s', e)) :
    (s.pc i = .idle ∧ ∃ op, inp = .call op ∧ s'.pc i = entry op) ∨
    (s.pc i ≠ .idle ∧ (∀ op, inp ≠ .call op) ∧ (s.pc i = .running → ∃ o, inp = .fin o) ∧ (s.pc i = .kRun → ∃ o, inp = .clearFin o) ∧
      (s'.pc i = .running → ∃ f a, s.pc i = .old f a) ∧ ((s.pc i).free → (s'.pc i).free)) := by
  cases hpc : s.pc i <;> cases inp <;> simp only [step, hpc, reduceCtorEq, Option.some.injEq, Prod.mk.injEq] at h
  case idle.call op => obtain ⟨rfl, _⟩ := h; exact .inl ⟨rfl, op, rfl, by simp [State.go]⟩
  all_goals right
  all_goals first
    | (obtain ⟨rfl, _⟩ := h)
    | (split at h <;> first | (cases h; done) | (simp only [Option.some.injEq, Prod.mk.injEq] at h; obtain ⟨rfl, _⟩ := h))
  all_goals
    refine ⟨nofun, nofun, ?_, ?_, ?_, ?_⟩
    · intro h; first | cases h; done | exact ⟨_, rfl⟩
    · intro h; first | cases h; done | exact ⟨_, rfl⟩
    · simp only [State.go, Function.update_self]
      intro h
      first
      | exact ⟨_, _, rfl⟩
      | (exfalso; revert h; (try unfold Outcome.back); (try unfold gNext); (try unfold lNext); (try unfold rawNext); (repeat' split) <;> simp; done)
    · simp only [State.go, Function.update_self]
      intro h
      first
      | exact h.elim
      | trivial
      | ((try unfold rawNext); (repeat' split) <;> trivial)

/-! ### Calls that cannot return -/

/-- What keeps both waiting. -/
structure Stuck (par : Nat → Option Nat) (s : State T E F A) (i j : Nat) : Prop where
  par : par j = some i
  run : s.pc i = .running
  lock : s.lock = some i
  wait : (∃ a, s.pc j = .cRefresh a) ∨ (∃ f a, s.pc j = .rLock f a) ∨ ∃ f a, s.pc j = .gLock f a

theorem Stuck.ne (h : Stuck par s i j) : i ≠ j := by
  rintro rfl
  have h1 := h.run
  rcases h.wait with ⟨a, h2⟩ | ⟨f, a, h2⟩ | ⟨f, a, h2⟩ <;> rw [h2] at h1 <;> cases h1

theorem Stuck.step {k : Nat} {inp : In T E F A} {e : Ev T E F A} (h : Stuck par s i j) (hcr : ∀ k, s.lock = some k ↔ (s.pc k).crit)
    (hn : Nested par s k inp)
    (hs : step c s k inp = some (s', e)) : Stuck par s' i j ∧ (∀ r, e ≠ .ret j r) ∧ ∀ o, e ≠ .finish i o := by
  have hne := h.ne
  by_cases hk : k = i
  · subst hk
    obtain ⟨o, rfl⟩ : ∃ o, inp = .fin o := by
      rcases step_self hs with ⟨h1, _⟩ | ⟨_, _, h1, _⟩
      · rw [h.run] at h1; cases h1
      · exact h1 h.run
    have := hn j h.par
    rcases h.wait with ⟨a, h2⟩ | ⟨f, a, h2⟩ | ⟨f, a, h2⟩ <;> rw [h2] at this <;> cases this
  · have hti := step_tid hs
    have hfin : ∀ o, e ≠ .finish i o := by rintro o rfl; exact hk (hti.symm)
    have hrun : s'.pc i = .running := by rw [step_other hs (Ne.symm hk)]; exact h.run
    by_cases hj : k = j
    · subst hj
      rcases h.wait with ⟨a, h2⟩ | ⟨f, a, h2⟩ | ⟨f, a, h2⟩
      · cases inp <;> simp only [Refresh.step, h2, reduceCtorEq, Option.some.injEq, Prod.mk.injEq] at hs
        obtain ⟨rfl, rfl⟩ := hs
        exact ⟨⟨h.par, hrun, h.lock, .inr (.inl ⟨_, _, by simp [State.go]; exact ⟨rfl, rfl⟩⟩)⟩, nofun, nofun⟩
      all_goals
        cases inp <;> simp only [Refresh.step, h2, reduceCtorEq] at hs
        rw [if_neg (by simp [h.lock])] at hs
        cases hs
    · refine ⟨⟨h.par, hrun, ?_, ?_⟩, ?_, hfin⟩
      · rcases step_lock hs with ⟨h1, _⟩ | ⟨h1, _⟩ | ⟨h1, _⟩
        · rw [h1]; exact h.lock
        · rw [h.lock] at h1; cases h1
        · have := (hcr k).2 h1
          rw [h.lock] at this
          exact absurd (Option.some.inj this).symm hk
      · rw [step_other hs (Ne.symm hj)]; exact h.wait
      · rintro r rfl; exact hj hti.symm

theorem Stuck.steps {tr' : List (Ev T E F A)} (h : NSteps par c s tr' s') (he : Exec c rf tr ss s) (hs : Stuck par s i j) :
    (∃ tr ss, Exec c rf tr ss s') ∧ Stuck par s' i j ∧ (∀ r, .ret j r ∉ tr') ∧ ∀ o, .finish i o ∉ tr' := by
  induction h with
  | nil => exact ⟨⟨_, _, he⟩, hs, nofun, nofun⟩
  | snoc h1 h2 h3 ih =>
    obtain ⟨⟨tr, ss, i1⟩, i2, i3, i4⟩ := ih
    obtain ⟨j1, j2, j3⟩ := i2.step i1.lock.crit h2 h3
    refine ⟨⟨_, _, .snoc i1 h3⟩, j1, fun r hr => ?_, fun o ho => ?_⟩
    · rw [List.mem_append, List.mem_singleton] at hr
      exact hr.elim (i3 r) fun h => j2 r h.symm
    · rw [List.mem_append, List.mem_singleton] at ho
      exact ho.elim (i4 o) fun h => j3 o h.symm

theorem NSteps.head {k : Nat} {inp : In T E F A} {e : Ev T E F A} {s1 : State T E F A} {tr' : List (Ev T E F A)}
    (h : NSteps par c s1 tr' s') (h1 : Nested par s k inp) (h2 : Refresh.step c s k inp = some (s1, e)) : NSteps par c s (e :: tr') s' := by
  induction h with
  | nil => exact .snoc .nil h1 h2
  | snoc _ h3 h4 ih => exact .snoc ih h3 h4

/-- C114 is false: a `Refresh` that a refresh function calls on its own cache never returns, and the refresh function never ends. -/
theorem C114_false (h : NExec par R c rf tr ss s) (hp : par j = some i) (hi : s.pc i = .running) {op : Op F A} (ho : op.isRefresh)
    {tr' : List (Ev T E F A)} {s1 : State T E F A} {e : Ev T E F A} (h1 : step c s j (.call op) = some (s1, e)) (h2 : NSteps par c s1 tr' s') :
    (∀ r, .ret j r ∉ tr') ∧ ∀ o, .finish i o ∉ tr' := by
  have hij : i ≠ j := by
    rintro rfl
    simp [step, hi] at h1
  have hl := (h.exec.lock.crit i).2 (by rw [hi]; trivial)
  refine (Stuck.steps h2 (h.exec.snoc h1) ⟨hp, by rw [step_other h1 hij]; exact hi, ?_, ?_⟩).2.2
  · cases hpc : s.pc j <;> simp only [step, hpc, reduceCtorEq, Option.some.injEq, Prod.mk.injEq] at h1
    rw [← h1.1]; exact hl
  · cases hpc : s.pc j <;> simp only [step, hpc, reduceCtorEq, Option.some.injEq, Prod.mk.injEq] at h1
    rw [← h1.1]
    cases op <;> simp only [Op.isRefresh] at ho
    · exact .inr (.inl ⟨_, _, by simp [State.go, entry]; exact ⟨rfl, rfl⟩⟩)
    · exact .inl ⟨_, by simp [State.go, entry]; rfl⟩

/-- C114 is false: nor does a `Get` that comes to the lock. -/
theorem C114_get_false (h : NExec par R c rf tr ss s) (hp : par j = some i) (hi : s.pc i = .running) {f : F} {a : A} (hj : s.pc j = .gLock f a)
    {tr' : List (Ev T E F A)} (h2 : NSteps par c s tr' s') : (∀ r, .ret j r ∉ tr') ∧ ∀ o, .finish i o ∉ tr' :=
  (Stuck.steps h2 h.exec ⟨hp, hi, (h.exec.lock.crit i).2 (by rw [hi]; trivial), .inr (.inr ⟨f, a, hj⟩)⟩).2.2

/-! ### Without such calls there is no deadlock -/

theorem NExec.kid (h : NExec par R c rf tr ss s) : ∀ j p, par j = some p → s.pc j ≠ .idle → (s.pc p).inFun := by
  induction h with
  | nil => exact fun j p _ h => absurd rfl h
  | @snoc tr ss s i inp s' e h1 h2 h3 h4 ih =>
    intro j p hp hj
    -- a thread leaves its function only when no thread inside is in a call
    have keep : (s.pc p).inFun → s.pc j ≠ .idle → (s'.pc p).inFun := by
      intro hf hj'
      by_cases hpi : p = i
      · subst hpi
        rcases step_self h4 with ⟨a, _⟩ | ⟨_, _, a1, a2, _⟩
        · rw [a] at hf; exact hf.elim
        · cases hpc : s.pc p <;> rw [hpc] at hf <;> simp only [PC.inFun] at hf
          · obtain ⟨o, rfl⟩ := a1 hpc; exact absurd (h2 j hp) hj'
          · obtain ⟨o, rfl⟩ := a2 hpc; exact absurd (h2 j hp) hj'
      · rw [step_other h4 hpi]; exact hf
    by_cases hji : j = i
    · subst hji
      rcases step_self h4 with ⟨a, op, rfl, _⟩ | ⟨a, _⟩
      · have hf := h2 p hp
        have hpj : p ≠ j := by rintro rfl; rw [a] at hf; exact hf
        rw [step_other h4 hpj]; exact hf
      · exact keep (ih j p hp a) a
    · rw [step_other h4 hji] at hj
      exact keep (ih j p hp hj) hj

theorem Inside.idle (hk : ∀ j p, par j = some p → s.pc j ≠ .idle → (s.pc p).inFun) {p : Nat} (h : Inside par j p) (hp : ¬ (s.pc p).inFun) :
    s.pc j = .idle := by
  induction h with
  | one h => exact Classical.byContradiction fun hj => hp (hk _ _ h hj)
  | more h _ ih =>
    refine Classical.byContradiction fun hj => ?_
    have := hk _ _ h hj
    rw [ih hp] at this
    exact this

theorem NExec.freeInside (h : NExec par (Careful par) c rf tr ss s) (hpar : ∀ i j, par j = some i → i < j) :
    ∀ j p, Inside par j p → s.pc p = .running → (s.pc j).free := by
  have lt : ∀ {j p}, Inside par j p → p < j := by
    intro j p h
    induction h with
    | one h => exact hpar _ _ h
    | more h _ ih => exact Nat.lt_trans ih (hpar _ _ h)
  induction h with
  | nil => exact fun _ _ _ _ => trivial
  | @snoc tr ss s i inp s' e h1 h2 h3 h4 ih =>
    intro j p hjp hp
    have hne : j ≠ p := fun e => Nat.lt_irrefl _ (e ▸ lt hjp)
    by_cases hpi : p = i
    · subst hpi
      rcases step_self h4 with ⟨_, op, _, a⟩ | ⟨_, _, _, _, a, _⟩
      · rw [a] at hp
        cases op with
        | clear f x => cases f <;> cases hp
        | _ => cases hp
      · obtain ⟨f, a', hold⟩ := a hp
        rw [step_other h4 hne, hjp.idle h1.kid (by rw [hold]; exact fun h => h)]
        trivial
    · rw [step_other h4 hpi] at hp
      by_cases hji : j = i
      · subst hji
        rcases step_self h4 with ⟨_, op, rfl, a⟩ | ⟨_, _, _, _, _, a⟩
        · obtain ⟨b1, b2⟩ := h3 ⟨p, hjp, hp⟩
          rw [a]; exact entry_free b1 b2
        · exact a (ih j p hjp hp)
      · rw [step_other h4 hji]; exact ih j p hjp hp

theorem Exec.finite (h : Exec c rf tr ss s) : ∃ N, ∀ j, N ≤ j → s.pc j = .idle := by
  induction h with
  | nil => exact ⟨0, fun _ _ => rfl⟩
  | snoc h1 h2 ih =>
    rename_i i inp s' e
    obtain ⟨N, ih⟩ := ih
    refine ⟨max N (i + 1), fun j hj => ?_⟩
    rw [step_other h2 (by omega)]
    exact ih j (by omega)

/-- Some thread can make a step that is not a new call. -/
def SomeStep (par : Nat → Option Nat) (c : Cfg T) (s : State T E F A) : Prop :=
  ∃ i inp, (∀ op, inp ≠ .call op) ∧ Nested par s i inp ∧ (step c s i inp).isSome

theorem down {N : Nat} (hN : ∀ j, N ≤ j → s.pc j = .idle) (hpar : ∀ i j, par j = some i → i < j) (Q : Nat → Prop)
    (hQ : ∀ i j, Q i → par j = some i → Q j)
    (hw : ∀ i f a, Q i → s.pc i = .gLock f a ∨ s.pc i = .rLock f a → SomeStep par c s) :
    ∀ n i, N ≤ i + n → Q i → s.pc i ≠ .idle → SomeStep par c s := by
  intro n
  induction n with
  | zero => intro i hi _ h; exact absurd (hN i hi) h
  | succ n ih =>
    intro i hi hq hne
    by_cases h1 : ∃ f a, s.pc i = .gLock f a ∨ s.pc i = .rLock f a
    · obtain ⟨f, a, h1⟩ := h1; exact hw i f a hq h1
    · by_cases h2 : (∃ j, par j = some i ∧ s.pc j ≠ .idle)
      · obtain ⟨j, hj, hj'⟩ := h2
        have := hpar i j hj
        exact ih j (by omega) (hQ i j hq hj) hj'
      · have h2 : ∀ j, par j = some i → s.pc j = .idle := fun j hj => Classical.byContradiction fun h => h2 ⟨j, hj, h⟩
        rcases canStep (c := c) hne (fun f a h => h1 ⟨f, a, .inl h⟩) (fun f a h => h1 ⟨f, a, .inr h⟩) with h | h | h | h
        · exact ⟨i, .go, nofun, trivial, h⟩
        · exact ⟨i, .time 0, nofun, trivial, h 0⟩
        · exact ⟨i, .fin .panic, nofun, h2, h .panic⟩
        · exact ⟨i, .clearFin none, nofun, h2, h none⟩

/-- C114, partial: if no refresh function calls `Get` or `Refresh` of its own cache, directly or inside a clear function, then whenever a call is
in progress some thread can make a step other than a new call: the functions may call all the other methods, and clear functions
all methods. (`par` numbers threads so that those inside have greater numbers.) Missing from the full claim: `Get` and `Refresh` inside a refresh
function; see `C114_false`, `C114_get_false`. -/
theorem C114_partial (h : NExec par (Careful par) c rf tr ss s) (hpar : ∀ i j, par j = some i → i < j) (hi : s.pc i ≠ .idle) :
    SomeStep par c s := by
  obtain ⟨N, hN⟩ := h.exec.finite
  refine down hN hpar (fun _ => True) (fun _ _ _ _ => trivial) ?_ N i (by omega) trivial hi
  intro k f a _ hk
  cases hl : s.lock with
  | none =>
    refine ⟨k, .go, nofun, trivial, ?_⟩
    rcases hk with hk | hk <;> simp [step, hk, hl]
  | some p =>
    have hcr := (h.exec.lock.crit p).1 hl
    by_cases hrun : s.pc p = .running
    · refine down hN hpar (fun x => x = p ∨ Inside par x p) ?_ ?_ N p (by omega) (.inl rfl) (by rw [hrun]; nofun)
      · rintro x y (rfl | hx) hy
        · exact .inr (.one hy)
        · exact .inr (.more hy hx)
      · rintro x f a (rfl | hx) hw
        · rw [hrun] at hw; rcases hw with hw | hw <;> cases hw
        · have := h.freeInside hpar x p hx hrun
          rcases hw with hw | hw <;> rw [hw] at this <;> exact this.elim
    · have h0 : s.pc p ≠ .idle := by intro h; rw [h] at hcr; exact hcr
      have h1 : s.pc p ≠ .kRun := by intro h; rw [h] at hcr; exact hcr
      rcases canStep (c := c) h0 (fun f a h => by rw [h] at hcr; exact hcr) (fun f a h => by rw [h] at hcr; exact hcr) with h' | h' | h' | h'
      · exact ⟨p, .go, nofun, trivial, h'⟩
      · exact ⟨p, .time 0, nofun, trivial, h' 0⟩
      · obtain ⟨⟨s', e⟩, hs⟩ := Option.isSome_iff_exists.1 (h' .panic)
        exfalso
        cases hpc : s.pc p <;> simp only [step, hpc, reduceCtorEq] at hs
        exact hrun hpc
      · obtain ⟨⟨s', e⟩, hs⟩ := Option.isSome_iff_exists.1 (h' none)
        exfalso
        cases hpc : s.pc p <;> simp only [step, hpc, reduceCtorEq] at hs
        exact h1 hpc

/-! ### Examples

Thread 1 makes the calls of the functions that thread 0 runs. -/

/-- Thread 1 is inside thread 0. -/
def par1 : Nat → Option Nat
  | 1 => some 0
  | _ => none

example : ∃ (tr : List (Ev Nat Nat Nat Nat)) (ss : _) (s s1 : State Nat Nat Nat Nat) (e : _), NExec par1 (Careful par1) ⟨0, 5, 0⟩ 0 tr ss s ∧
    s.pc 0 = .running ∧ s.pc 1 = .idle ∧ step ⟨0, 5, 0⟩ s 1 (.call (.refresh 0 0)) = some (s1, e) ∧ step ⟨0, 5, 0⟩ s1 1 .go = none := by
  refine ⟨_, _, _, _, _, .snoc (i := 0) (inp := .go) (.snoc (i := 0) (inp := .go) (.snoc (i := 0) (inp := .call (.refresh 0 0)) .nil ?_ ?_ rfl)
    trivial trivial rfl) trivial trivial rfl, rfl, rfl, rfl, rfl⟩
  · intro p hp; cases hp
  · rintro ⟨p, hp, _⟩
    cases hp with
    | one h => cases h
    | more h _ => cases h

example : ∃ (tr : List (Ev Nat Nat Nat Nat)) (ss : _) (s : State Nat Nat Nat Nat), NExec par1 (Careful par1) ⟨0, 5, 0⟩ 0 tr ss s ∧
    s.pc 0 = .running ∧ s.pc 1 ≠ .idle ∧ tr = [.call 0 (.refresh 0 0), .locked 0, .start 0 0 0 0, .call 1 (.clear none 0)] := by
  refine ⟨_, _, _, .snoc (i := 1) (inp := .call (.clear none 0)) (.snoc (i := 0) (inp := .go) (.snoc (i := 0) (inp := .go)
    (.snoc (i := 0) (inp := .call (.refresh 0 0)) .nil ?_ ?_ rfl) trivial trivial rfl) trivial trivial rfl) ?_ ?_ rfl, rfl, nofun, rfl⟩
  · intro p hp; cases hp
  · rintro ⟨p, hp, _⟩
    cases hp with
    | one h => cases h
    | more h _ => cases h
  · intro p hp; cases hp; trivial
  · exact fun _ => ⟨id, id⟩

end Verif.Refresh
