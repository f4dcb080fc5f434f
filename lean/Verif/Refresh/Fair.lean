import Verif.Refresh.Fun
/-!
# Fair schedulers (C172)

Executions without end, in which new calls may be made for ever. The functions of the user come to an end.
-/
namespace Verif.Refresh
variable {T E F A : Type}

/-! ## Specification -/

/-- An execution without end from a state that can be reached: in the `n`-th step thread `who n` makes a step. -/
structure Forever (c : Cfg T) (rf : F) (f : Nat → State T E F A) (who : Nat → Nat) : Prop where
  start : ∃ tr ss, Exec c rf tr ss (f 0)
  step : ∀ n, ∃ inp e, step c (f n) (who n) inp = some (f (n + 1), e)

/-- A thread in a call that can make a step again and again makes one again and again: the scheduler gives every goroutine its turns, and the mutex keeps none waiting
that it could let in again and again, as `sync.Mutex` does not (its starvation mode). -/
def Fair (c : Cfg T) (f : Nat → State T E F A) (who : Nat → Nat) : Prop :=
  ∀ i, (∀ N, ∃ n, N ≤ n ∧ (f n).pc i ≠ .idle ∧ CanStep c (f n) i) → ∀ N, ∃ n, N ≤ n ∧ who n = i

/-- The scheduler gives every goroutine its turns, but the mutex may let in whom it likes: a thread in a call that can make a step from some time on makes one again. -/
def WeaklyFair (c : Cfg T) (f : Nat → State T E F A) (who : Nat → Nat) : Prop :=
  ∀ i N, (∀ n, N ≤ n → (f n).pc i ≠ .idle ∧ CanStep c (f n) i) → ∃ n, N ≤ n ∧ who n = i

variable {c : Cfg T} {rf : F} {f : Nat → State T E F A} {who : Nat → Nat} {tr : List (Ev T E F A)} {ss : List (State T E F A)} {s s' : State T E F A}
  {inp : In T E F A} {e : Ev T E F A} {i j n : Nat}

/-! ## Every call returns -/

theorem Forever.exec (hf : Forever c rf f who) : ∀ n, ∃ tr ss, Exec c rf tr ss (f n) := by
  intro n
  induction n with
  | zero => exact hf.start
  | succ n ih =>
    obtain ⟨tr, ss, hx⟩ := ih
    obtain ⟨inp, e, h⟩ := hf.step n
    exact ⟨_, _, .snoc hx h⟩

theorem Forever.other (hf : Forever c rf f who) (hi : who n ≠ i) : (f (n + 1)).pc i = (f n).pc i := by
  obtain ⟨inp, e, h⟩ := hf.step n
  exact step_other h (Ne.symm hi)

/-- A thread that stays in its call makes no more steps in the end. -/
theorem Forever.quiet (hf : Forever c rf f who) : ∀ (x n : Nat), ((f n).pc j).rank ≤ x → (∀ m, n ≤ m → (f m).pc j ≠ .idle) → ∃ N, n ≤ N ∧ ∀ m, N ≤ m → who m ≠ j := by
  intro x
  induction x with
  | zero =>
    intro n hx hj
    exfalso
    have := hj n (Nat.le_refl _)
    generalize (f n).pc j = p at hx this
    cases p <;> simp [PC.rank] at hx this
  | succ x ih =>
    intro n hx hj
    by_cases hno : ∀ m, n ≤ m → who m ≠ j
    · exact ⟨n, Nat.le_refl _, hno⟩
    obtain ⟨d, hd⟩ : ∃ d, who (n + d) = j := by
      by_contra hc
      exact hno fun m hm => by
        obtain ⟨d, rfl⟩ := Nat.exists_eq_add_of_le hm
        exact fun h => hc ⟨d, h⟩
    have hle : ∀ d, ((f (n + d)).pc j).rank ≤ ((f n).pc j).rank := by
      intro d
      induction d with
      | zero => exact Nat.le_refl _
      | succ d ihd =>
        rw [← Nat.add_assoc]
        by_cases hw : who (n + d) = j
        · obtain ⟨inp, e, h⟩ := hf.step (n + d)
          rw [hw] at h
          rcases step_rank h with ⟨op, rfl, _⟩ | ⟨h1, _⟩
          · exact absurd (step_call h) (hj _ (by omega))
          · omega
        · rw [hf.other hw]; exact ihd
    obtain ⟨inp, e, h⟩ := hf.step (n + d)
    rw [hd] at h
    have h0 := hle d
    rcases step_rank h with ⟨op, rfl, _⟩ | ⟨h1, _⟩
    · exact absurd (step_call h) (hj _ (by omega))
    · obtain ⟨N, h2, h3⟩ := ih (n + d + 1) (by omega) fun m hm => hj m (by omega)
      exact ⟨N, by omega, h3⟩
where
  step_call {s s' : State T E F A} {j : Nat} {op : Op F A} {inp : In T E F A} (h : Refresh.step c s j inp = some (s', .call j op)) : s.pc j = .idle := by
    cases hpc : s.pc j <;> cases inp <;> simp only [Refresh.step, hpc, reduceCtorEq, Option.some.injEq, Prod.mk.injEq, and_false] at h
    all_goals first
      | rfl
      | (split at h <;> simp at h)

/-- The lock does not pass from one thread to another without being free in between. -/
theorem lock_holder (hx : Exec c rf tr ss s) (hn : step c s i inp = some (s', e)) (hm : s.lock = some j) (hm' : s'.lock ≠ none) : s'.lock = some j := by
  have hx' := hx.snoc hn
  cases he : s'.lock with
  | none => exact absurd he hm'
  | some l =>
    by_contra hne
    have hl : l ≠ j := by rintro rfl; exact hne rfl
    by_cases hi : i = j
    · subst hi
      have h1 := (hx'.lock.crit l).1 he
      rw [step_other hn hl] at h1
      have h2 := (hx.lock.crit l).2 h1
      rw [hm] at h2; cases h2; exact hl rfl
    · have h1 := (hx.lock.crit j).1 hm
      rw [← step_other hn (Ne.symm hi)] at h1
      have h2 := (hx'.lock.crit j).2 h1
      rw [he] at h2; cases h2; exact hl rfl

/-- **C172**: if the scheduler is fair and the functions of the user come to an end, every call returns, however many others are made. -/
theorem C172_returns (hf : Forever c rf f who) (hfair : Fair c f who) (n : Nat) : ∃ m, n ≤ m ∧ (f m).pc i = .idle := by
  -- a thread that stays in its call cannot go on in the end
  have stop : ∀ {j n}, (∀ m, n ≤ m → (f m).pc j ≠ .idle) → ∃ N, n ≤ N ∧ ∀ m, N ≤ m → ¬ CanStep c (f m) j := by
    intro j n hj
    obtain ⟨N, h1, h2⟩ := hf.quiet _ n (Nat.le_refl _) hj
    by_contra hc
    obtain ⟨m, h3, h4⟩ := hfair j (fun N' => by
      by_contra hno
      refine hc ⟨max n N', by omega, fun m hm hs => hno ⟨m, by omega, hj m (by omega), hs⟩⟩) N
    exact h2 m h3 h4
  by_contra hno
  have hi : ∀ m, n ≤ m → (f m).pc i ≠ .idle := fun m hm h => hno ⟨m, hm, h⟩
  obtain ⟨N, h1, h2⟩ := stop hi
  have hlk : ∀ m, N ≤ m → (f m).lock ≠ none := by
    intro m hm hl
    obtain ⟨tr, ss, hx⟩ := hf.exec m
    rcases C75_progress hx (hi m (by omega)) with h | ⟨j, _, h, _⟩
    · exact h2 m hm h
    · rw [hl] at h; cases h
  obtain ⟨j, hj⟩ := Option.ne_none_iff_exists'.1 (hlk N (Nat.le_refl _))
  have hall : ∀ d, (f (N + d)).lock = some j := by
    intro d
    induction d with
    | zero => exact hj
    | succ d ih =>
      obtain ⟨tr, ss, hx⟩ := hf.exec (N + d)
      obtain ⟨inp, e, h⟩ := hf.step (N + d)
      exact lock_holder hx h ih (hlk _ (by omega))
  have crit : ∀ m, N ≤ m → ((f m).pc j).crit := by
    intro m hm
    obtain ⟨d, rfl⟩ := Nat.exists_eq_add_of_le hm
    obtain ⟨tr, ss, hx⟩ := hf.exec (N + d)
    exact (hx.lock.crit j).1 (hall d)
  obtain ⟨N', h3, h4⟩ := stop (j := j) (n := N) fun m hm he => by
    have := crit m hm; rw [he] at this; exact this
  have hc := crit N' h3
  exact h4 N' (Nat.le_refl _) (canStep (fun e => by rw [e] at hc; exact hc) (fun f a e => by rw [e] at hc; exact hc) (fun f a e => by rw [e] at hc; exact hc))

/-! ## Two runs without end -/

/-- Thread 1 makes one call of `Refresh` after the other; `q` is where thread 0 is. -/
def cyc (q : PC Nat Nat Nat Nat) (k : Nat) : State Nat Nat Nat Nat :=
  let at_ (l : Option Nat) (p : PC Nat Nat Nat Nat) : State Nat Nat Nat Nat :=
    { err := none, data := 5, last := 100, lastErr := 0, lock := l, rf := 0, cf := none, pc := fun j => if j = 0 then q else if j = 1 then p else .idle }
  match k with
  | 0 => at_ none .idle
  | 1 => at_ none (.rLock 0 0)
  | 2 => at_ (some 1) (.old 0 0)
  | 3 => at_ (some 1) .running
  | 4 => at_ (some 1) (.wData 5 (.val 5 none))
  | 5 => at_ (some 1) (.wNow (.val 5 none))
  | 6 => at_ (some 1) (.wLast 100 (.val 5 none))
  | 7 => at_ (some 1) (.wLastErr (.val 5 none))
  | 8 => at_ (some 1) (.unlock (.val 5 none))
  | _ => at_ none (.done (.val 5 none))

def cycCfg : Cfg Nat := ⟨0, -1, 0⟩

theorem cyc_step (q : PC Nat Nat Nat Nat) (k : Nat) (hk : k < 10) : ∃ inp e, step cycCfg (cyc q k) 1 inp = some (cyc q ((k + 1) % 10), e) := by
  have : k = 0 ∨ k = 1 ∨ k = 2 ∨ k = 3 ∨ k = 4 ∨ k = 5 ∨ k = 6 ∨ k = 7 ∨ k = 8 ∨ k = 9 := by omega
  have upd : ∀ (x y : PC Nat Nat Nat Nat), Function.update (fun j => if j = 0 then q else if j = 1 then x else .idle) 1 y =
      fun j => if j = 0 then q else if j = 1 then y else .idle := by
    intro x y; funext j
    by_cases h : j = 1
    · subst h; simp
    · rw [Function.update_of_ne h]; simp [h]
  rcases this with rfl | rfl | rfl | rfl | rfl | rfl | rfl | rfl | rfl | rfl
  · exact ⟨.call (.refresh 0 0), _, by simp only [cyc, step, State.go, upd]; rfl⟩
  · exact ⟨.go, _, by simp only [cyc, step, State.go, upd]; rfl⟩
  · exact ⟨.go, _, by simp only [cyc, step, State.go, upd]; rfl⟩
  · exact ⟨.fin (.ret 5 none), _, by simp only [cyc, step, State.go, upd]; rfl⟩
  · exact ⟨.go, _, by simp only [cyc, step, State.go, upd]; rfl⟩
  · exact ⟨.time 100, _, by simp only [cyc, step, State.go, upd]; rfl⟩
  · exact ⟨.go, _, by simp only [cyc, step, State.go, upd]; rfl⟩
  · exact ⟨.go, _, by simp only [cyc, step, State.go, upd]; rfl⟩
  · exact ⟨.go, _, by simp only [cyc, step, State.go, upd]; rfl⟩
  · exact ⟨.go, _, by simp only [cyc, step, State.go, upd]; rfl⟩

/-- The first calls. -/
theorem cyc_start (q : PC Nat Nat Nat Nat) (hq : q = .idle ∨ q = .rLock 0 0) : ∃ tr ss, Exec cycCfg 0 tr ss (cyc q 0) := by
  have h1 : ∃ tr ss, Exec cycCfg 0 tr ss (cyc .idle 0) := by
    obtain ⟨⟨tr, ss, s⟩, hp⟩ : ∃ x, play cycCfg [(1, .call (.refresh 0 0)), (1, .go), (1, .go), (1, .fin (.ret 5 none)), (1, .go), (1, .time 100), (1, .go), (1, .go),
        (1, .go), (1, .go)] [] [] (init cycCfg 0 : State Nat Nat Nat Nat) = some x := ⟨_, rfl⟩
    have hx := play_exec _ _ _ _ _ _ _ .nil hp
    refine ⟨tr, ss, ?_⟩
    have : s = cyc .idle 0 := by
      cases hp
      show State.mk _ _ _ _ _ _ _ _ = State.mk _ _ _ _ _ _ _ _
      congr 1
      funext j
      by_cases h : j = 1
      · subst h; rfl
      · simp only [Function.update_of_ne h, State.go]
        simp [h, init]
    rw [← this]; exact hx
  rcases hq with rfl | rfl
  · exact h1
  · obtain ⟨tr, ss, hx⟩ := h1
    refine ⟨_, _, hx.snoc (i := 0) (inp := .call (.refresh 0 0)) (e := .call 0 (.refresh 0 0)) ?_⟩
    simp only [cyc, step, State.go, if_true]
    congr 2
    congr 1
    funext j
    by_cases h : j = 0
    · subst h; simp [entry]
    · rw [Function.update_of_ne h]; simp [h]

theorem cyc_forever (q : PC Nat Nat Nat Nat) (hq : q = .idle ∨ q = .rLock 0 0) : Forever cycCfg 0 (fun n => cyc q (n % 10)) (fun _ => 1) where
  start := cyc_start q hq
  step n := by
    obtain ⟨inp, e, h⟩ := cyc_step q (n % 10) (Nat.mod_lt _ (by omega))
    refine ⟨inp, e, ?_⟩
    rw [h]
    congr 3
    omega

theorem cyc_idle (q : PC Nat Nat Nat Nat) (k j : Nat) (h0 : j ≠ 0) (h1 : j ≠ 1) : (cyc q k).pc j = .idle := by
  unfold cyc; simp only; split <;> simp [h0, h1]

theorem cyc_zero (q : PC Nat Nat Nat Nat) (k : Nat) : (cyc q k).pc 0 = q := by
  unfold cyc; simp only; split <;> simp

/-- A run without end under a fair scheduler, in which call after call is made. -/
theorem cyc_fair : Fair cycCfg (fun n => cyc .idle (n % 10)) (fun _ => 1) := by
  intro i hi N
  obtain ⟨n, _, h, _⟩ := hi 0
  by_cases h1 : i = 1
  · exact ⟨N, Nat.le_refl _, h1.symm⟩
  · by_cases h0 : i = 0
    · subst h0; exact absurd (cyc_zero .idle _) h
    · exact absurd (cyc_idle .idle _ i h0 h1) h

/-- Each of these calls returns. -/
example (n : Nat) : ∃ m, n ≤ m ∧ (cyc .idle (m % 10)).pc 1 = .idle := C172_returns (cyc_forever .idle (.inl rfl)) cyc_fair n

/-- **C172** takes a mutex that lets everyone in some time: with one that may let in whom it likes, a call may wait for ever though every goroutine has its turns. -/
theorem C172_weak : ∃ (c : Cfg Nat) (f : Nat → State Nat Nat Nat Nat) (who : Nat → Nat), Forever c 0 f who ∧ WeaklyFair c f who ∧ ∀ n, (f n).pc 0 = .rLock 0 0 := by
  refine ⟨cycCfg, fun n => cyc (.rLock 0 0) (n % 10), fun _ => 1, cyc_forever _ (.inr rfl), ?_, fun n => cyc_zero _ _⟩
  intro i N hi
  by_cases h1 : i = 1
  · exact ⟨N, Nat.le_refl _, h1.symm⟩
  · by_cases h0 : i = 0
    · subst h0
      exfalso
      have := (hi (10 * N + 5) (by omega)).2
      simp only [show (10 * N + 5) % 10 = 5 by omega] at this
      simp [CanStep, step, cyc] at this
      exact this .panic
    · exact absurd (cyc_idle _ _ i h0 h1) (hi N (Nat.le_refl _)).1

end Verif.Refresh
