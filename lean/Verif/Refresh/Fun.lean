import Verif.Refresh.Props
/-!
# Progress, and the functions that are called (C75-C77)
-/
namespace Verif.Refresh
variable {T E F A : Type}
variable {c : Cfg T} {rf : F} {tr : List (Ev T E F A)} {ss : List (State T E F A)} {i j n m p q z : Nat}
  {s s' : State T E F A} {e : Ev T E F A} {inp : In T E F A} {op : Op F A} {f : F} {a : A}

/-! ## C75 -/

/-- Bound on the steps to the end of the call. -/
def PC.rank : PC T E F A → Nat
  | .idle => 0
  | .done _ => 1
  | .gData | .gErr | .unlock _ | .setRefresh _ | .setClear _ | .rdLast | .rdLastErr | .kRun => 2
  | .wRawData | .wRawErr | .wRawBoth2 _ => 2
  | .wLastErr _ | .wErrClr _ | .lData | .lErr | .kCall _ _ _ | .wRawBoth => 3
  | .wLast _ _ | .wErrLast _ _ | .kStore _ | .wRawErrChk _ => 4
  | .wNow _ | .wErrNow _ | .kLoad _ _ | .wRawErrNow => 5
  | .wData _ _ | .wErr _ _ | .cClear _ | .wRawChk _ => 6
  | .running | .wRaw => 7
  | .old _ _ => 8
  | .lErrChk _ _ _ | .rLock _ _ => 9
  | .lErrNow _ _ | .cRefresh _ => 10
  | .lChk _ _ _ | .lCmp _ _ _ => 11
  | .lNow _ _ => 12
  | .lLast _ _ => 13
  | .gLock _ _ => 14
  | .gErrChk _ _ _ => 15
  | .gErrNow _ _ => 16
  | .gChk _ _ _ => 17
  | .gLast _ _ => 18
  | .cGet _ => 19

theorem gNext_rank : (gNext c f a : PC T E F A).rank ≤ 16 := by unfold gNext; split <;> simp [PC.rank]
theorem lNext_rank : (lNext c f a : PC T E F A).rank ≤ 10 := by unfold lNext; split <;> simp [PC.rank]
theorem rawNext_rank : (rawNext c : PC T E F A).rank ≤ 5 := by unfold rawNext; split <;> simp [PC.rank]
theorem back_rank {o : Outcome T E} : (o.back c : PC T E F A).rank ≤ 6 := by
  rcases o with ⟨v, _ | e⟩ | _ <;> exact Nat.le_refl _
theorem entry_rank : (entry op : PC T E F A).rank ≤ 19 := by
  cases op with
  | clear f a => cases f <;> simp [entry, PC.rank]
  | _ => simp [entry, PC.rank]

/-- A step is a call, or nearer to the end of the call. -/
theorem step_rank (h : step c s i inp = some (s', e)) :
    (∃ op, e = .call i op ∧ s'.pc i = entry op) ∨ ((s'.pc i).rank < (s.pc i).rank ∧ ¬ e.isCall) := by
  cases hpc : s.pc i <;> cases inp <;> simp only [step, hpc, reduceCtorEq, Option.some.injEq, Prod.mk.injEq] at h
  case idle.call op => obtain ⟨rfl, rfl⟩ := h; exact .inl ⟨op, rfl, by simp only [State.go, Function.update_self]⟩
  all_goals right
  all_goals first
    | (obtain ⟨rfl, rfl⟩ := h)
    | (split at h <;> first | (cases h; done) | (simp only [Option.some.injEq, Prod.mk.injEq] at h; obtain ⟨rfl, rfl⟩ := h))
  all_goals refine ⟨?_, fun h => h⟩
  all_goals simp only [State.go, Function.update_self]
  all_goals first
    | (simp [PC.rank]; done)
    | (refine Nat.lt_of_le_of_lt back_rank ?_; simp [PC.rank]; done)
    | (split <;> first
        | (simp [PC.rank]; done)
        | (refine Nat.lt_of_le_of_lt gNext_rank ?_; simp [PC.rank]; done)
        | (refine Nat.lt_of_le_of_lt lNext_rank ?_; simp [PC.rank]; done)
        | (refine Nat.lt_of_le_of_lt rawNext_rank ?_; simp [PC.rank]; done))

/-- The events of thread `i` after `p` and before `q`. -/
def stepsOf (tr : List (Ev T E F A)) (i p q : Nat) : Nat := ((tr.take q).drop (p + 1)).countP (·.tid == i)

theorem Exec.steps (h : Exec c rf tr ss s) : ∀ (i p : Nat) (op : Op F A), tr[p]? = some (.call i op) → Never tr i p Ev.isCall →
    (tr.drop (p + 1)).countP (·.tid == i) + (s.pc i).rank ≤ 19 := by
  induction h with
  | nil => intro i p op h; simp at h
  | snoc h1 h2 ih =>
    rename_i tr ss s i inp s' e
    intro j p op hp hn
    rcases get_snoc.1 hp with hp' | ⟨rfl, rfl⟩
    · have hlt := get_lt hp'
      have hn' : Never tr j p Ev.isCall := fun k e a b => hn k e a (get_keep b)
      have := ih j p op hp' hn'
      rw [List.drop_append_of_le_length (by omega), List.countP_append, List.countP_singleton]
      by_cases hj : j = i
      · subst hj
        rcases step_rank h2 with ⟨op', rfl, _⟩ | ⟨h3, _⟩
        · exact absurd trivial (hn tr.length _ hlt get_new rfl)
        · split <;> omega
      · have ht := step_tid h2
        have : (e.tid == j) = false := by rw [ht]; simpa using fun h => hj h.symm
        rw [this, step_other h2 hj]
        simpa using ih j p op hp' hn'
    · have ht := step_tid h2
      replace ht : j = i := ht
      subst ht
      rcases step_rank h2 with ⟨op', h3, h4⟩ | ⟨_, h3⟩
      · rw [h4, List.drop_eq_nil_of_le (by simp)]
        have := @entry_rank T E F A op'
        simpa using this
      · exact absurd trivial h3

/-- **C75**: a call ends after at most 19 own steps (waiting for the lock is no step, a run of a function of the user is one). -/
theorem C75_bound (h : Exec c rf tr ss s) (hc : CallAt tr i p op q) : stepsOf tr i p q ≤ 19 := by
  have hp := get_lt hc.at_
  have key : ∀ {y s0}, Exec c rf (tr.take y) (ss.take y) s0 → p < y → y ≤ q → stepsOf tr i p y ≤ 19 := by
    intro y s0 h0 hy hyq
    have := h0.steps i p op (get_take.2 ⟨hy, hc.at_⟩) (by
      intro k e h1 h2 h3 h4
      have h5 := get_take.1 h2
      cases e with
      | call i' op' => subst h3; exact hc.only k op' h1 (by omega) h5.2
      | _ => exact h4)
    unfold stepsOf; omega
  rcases Nat.lt_or_ge q tr.length with hq | hq
  · obtain ⟨s0, _, _, h0, _⟩ := h.at (List.getElem?_eq_getElem hq)
    exact key h0 hc.lt (Nat.le_refl _)
  · have h0 : Exec c rf (tr.take q) (ss.take q) s := by
      rw [List.take_of_length_le hq, List.take_of_length_le (by rw [← h.len]; exact hq)]; exact h
    exact key h0 hc.lt (Nat.le_refl _)

/-- Thread `i` can make a step, whatever the clock says: only the end of a running function is up to the user. -/
def CanStep (c : Cfg T) (s : State T E F A) (i : Nat) : Prop :=
  (step c s i .go).isSome ∨ (∀ now, (step c s i (.time now)).isSome) ∨ (∀ o, (step c s i (.fin o)).isSome) ∨
    (∀ o, (step c s i (.clearFin o)).isSome)

/-- A thread in a call can make a step unless it waits for the lock. -/
theorem canStep (h1 : s.pc j ≠ .idle) (h2 : ∀ f a, s.pc j ≠ .gLock f a) (h3 : ∀ f a, s.pc j ≠ .rLock f a) : CanStep c s j := by
  unfold CanStep
  cases hpc : s.pc j
  case idle => exact absurd hpc h1
  case gLock f a => exact absurd hpc (h2 f a)
  case rLock f a => exact absurd hpc (h3 f a)
  case gChk f a l =>
    by_cases hm : c.maxAge < 0 ∧ l > 0
    · exact .inl (by simp [step, hpc, hm])
    · exact .inr (.inl fun now => by simp only [step, hpc]; rw [if_neg hm]; rfl)
  case wRawChk l =>
    by_cases hm : c.maxAge < 0 ∧ l > 0
    · exact .inl (by simp [step, hpc, hm])
    · exact .inr (.inl fun now => by simp only [step, hpc]; rw [if_neg hm]; rfl)
  all_goals first
    | (left; simp [step, hpc]; done)
    | (right; left; intro now; simp [step, hpc]; done)
    | (right; right; left; intro o; simp [step, hpc]; done)
    | (right; right; right; intro o; simp [step, hpc]; done)

/-- **C75**: a thread in a call can make a step, or another one holds the lock and can make a step. -/
theorem C75_progress (h : Exec c rf tr ss s) (hi : s.pc i ≠ .idle) :
    CanStep c s i ∨ ∃ j, j ≠ i ∧ s.lock = some j ∧ CanStep c s j := by
  have key : ∀ j, s.pc j ≠ .idle → (∀ f a, s.pc j ≠ .gLock f a) → (∀ f a, s.pc j ≠ .rLock f a) → CanStep c s j :=
    fun j h1 h2 h3 => canStep h1 h2 h3
  have lock : ¬ (s.pc i).crit → (s.lock = none → CanStep c s i) → CanStep c s i ∨ ∃ j, j ≠ i ∧ s.lock = some j ∧ CanStep c s j := by
    intro h1 h2
    cases hl : s.lock with
    | none => exact .inl (h2 hl)
    | some j =>
      have hj := (h.lock.crit j).1 hl
      refine .inr ⟨j, ?_, rfl, key j ?_ ?_ ?_⟩
      · rintro rfl; exact h1 hj
      · intro h'; rw [h'] at hj; exact hj
      · intro f a h'; rw [h'] at hj; exact hj
      · intro f a h'; rw [h'] at hj; exact hj
  by_cases h1 : ∃ f a, s.pc i = .gLock f a
  · obtain ⟨f, a, h1⟩ := h1
    exact lock (by rw [h1]; exact fun h => h) fun hl => .inl (by simp [step, h1, hl])
  · by_cases h2 : ∃ f a, s.pc i = .rLock f a
    · obtain ⟨f, a, h2⟩ := h2
      exact lock (by rw [h2]; exact fun h => h) fun hl => .inl (by simp [step, h2, hl])
    · exact .inl (key i hi (fun f a h => h1 ⟨f, a, h⟩) (fun f a h => h2 ⟨f, a, h⟩))

/-- **C75**: when no call is open the lock is free, also after panics. -/
theorem C75_free (h : Exec c rf tr ss s) (hi : ∀ i, s.pc i = .idle) : s.lock = none := by
  cases hl : s.lock with
  | none => rfl
  | some j =>
    have := (h.lock.crit j).1 hl
    rw [hi j] at this
    exact this.elim

/-- The longest call: a `Get` of a `RefreshCache` with all checks and a refresh. -/
example : (trace ⟨0, -1, 10⟩ ([(0, .call (.cget 4)), (0, .go), (0, .go), (0, .time 100), (0, .time 100), (0, .go), (0, .go), (0, .go), (0, .time 100),
      (0, .go), (0, .time 100), (0, .go), (0, .go), (0, .fin .panic), (0, .go), (0, .time 100)] ++ goes 0 4)).map (fun tr => (stepsOf tr 0 0 20, tr.drop 11)) =
    some (19, [.tau 0, .start 0 0 4 0, .finish 0 .panic, .tau 0, .clock 0 100, .tau 0, .tau 0, .tau 0, .ret 0 .panicked]) := by rfl

/-! ## C76 and C77 -/

/-- `f` is the function a cache has at `x`: that of the last `SetRefreshFunc`, or the one of the constructor. -/
def CurFn (rf : F) (tr : List (Ev T E F A)) (x : Nat) (f : F) : Prop :=
  (∃ y j, y < x ∧ tr[y]? = some (.stored j f) ∧ ∀ y' j' f', y < y' → y' < x → tr[y']? ≠ some (.stored j' f')) ∨
  (f = rf ∧ ∀ y j f', y < x → tr[y]? ≠ some (.stored j f'))
/-- `f` is the function a cache has for `Clear` at `x`: that of the last `SetClearFunc`, or none. -/
def CurCl (tr : List (Ev T E F A)) (x : Nat) (f : Option F) : Prop :=
  (∃ y j, y < x ∧ tr[y]? = some (.storedClear j f) ∧ ∀ y' j' f', y < y' → y' < x → tr[y']? ≠ some (.storedClear j' f')) ∨
  (f = none ∧ ∀ y j f', y < x → tr[y]? ≠ some (.storedClear j f'))

/-- The function and arguments a call from `p` should use for a refresh. -/
def Uses (rf : F) (tr : List (Ev T E F A)) (p : Nat) (f : F) (a : A) : Op F A → Prop
  | .get f' a' | .refresh f' a' => f' = f ∧ a' = a
  | .cget a' | .crefresh a' => a' = a ∧ ∃ x, p < x ∧ x < tr.length ∧ CurFn rf tr x f
  | _ => False
/-- The function and arguments a call from `p` should use for a `Clear`. -/
def UsesCl (tr : List (Ev T E F A)) (p : Nat) (f : Option F) (a : Option A) : Op F A → Prop
  | .clear f' a' => f' = f ∧ ∀ a0, a = some a0 → a' = a0
  | .cclear a' => (∀ a0, a = some a0 → a' = a0) ∧ ∃ x, p < x ∧ x < tr.length ∧ CurCl tr x f
  | _ => False

theorem CurFn.snoc {x : Nat} (h : CurFn rf tr x f) (hx : x ≤ tr.length) : CurFn rf (tr ++ [e]) x f := by
  have back : ∀ {y : Nat} {e' : Ev T E F A}, y < x → (tr ++ [e])[y]? = some e' → tr[y]? = some e' := by
    intro y e' hy h
    rcases get_snoc.1 h with h | ⟨h, _⟩
    · exact h
    · omega
  rcases h with ⟨y, j, h1, h2, h3⟩ | ⟨h1, h2⟩
  · exact .inl ⟨y, j, h1, get_keep h2, fun y' j' f' a b d => h3 y' j' f' a b (back b d)⟩
  · exact .inr ⟨h1, fun y j f' a b => h2 y j f' a (back a b)⟩

theorem CurCl.snoc {x : Nat} {f : Option F} (h : CurCl tr x f) (hx : x ≤ tr.length) : CurCl (tr ++ [e]) x f := by
  have back : ∀ {y : Nat} {e' : Ev T E F A}, y < x → (tr ++ [e])[y]? = some e' → tr[y]? = some e' := by
    intro y e' hy h
    rcases get_snoc.1 h with h | ⟨h, _⟩
    · exact h
    · omega
  rcases h with ⟨y, j, h1, h2, h3⟩ | ⟨h1, h2⟩
  · exact .inl ⟨y, j, h1, get_keep h2, fun y' j' f' a b d => h3 y' j' f' a b (back b d)⟩
  · exact .inr ⟨h1, fun y j f' a b => h2 y j f' a (back a b)⟩

theorem Uses.snoc (h : Uses rf tr p f a op) : Uses rf (tr ++ [e]) p f a op := by
  cases op <;> try exact h
  all_goals
    obtain ⟨h1, x, h2, h3, h4⟩ := h
    exact ⟨h1, x, h2, by simp; omega, h4.snoc (by omega)⟩

theorem UsesCl.snoc {f : Option F} {a : Option A} (h : UsesCl tr p f a op) : UsesCl (tr ++ [e]) p f a op := by
  cases op <;> try exact h
  obtain ⟨h1, x, h2, h3, h4⟩ := h
  exact ⟨h1, x, h2, by simp; omega, h4.snoc (by omega)⟩

/-- The function in the cache. -/
theorem Exec.curRf (h : Exec c rf tr ss s) : CurFn rf tr tr.length s.rf := by
  induction h with
  | nil => exact .inr ⟨rfl, fun y j f' h => by simp at h⟩
  | snoc h1 h2 ih =>
    rename_i tr ss s i inp s' e
    have hlen : (tr ++ [e]).length = tr.length + 1 := by simp
    rw [hlen]
    have same : s'.rf = s.rf → (∀ j f, e ≠ .stored j f) → CurFn rf (tr ++ [e]) (tr.length + 1) s'.rf := by
      intro h3 h4
      rw [h3]
      have back : ∀ {y j : Nat} {f : F}, (tr ++ [e])[y]? = some (.stored j f) → y < tr.length ∧ tr[y]? = some (.stored j f) := by
        intro y j f h
        rcases get_snoc.1 h with h | ⟨_, h⟩
        · exact ⟨get_lt h, h⟩
        · exact absurd h.symm (h4 j f)
      rcases ih with ⟨y, j, h5, h6, h7⟩ | ⟨h5, h6⟩
      · exact .inl ⟨y, j, by omega, get_keep h6, fun y' j' f' a b d => h7 y' j' f' a (back d).1 (back d).2⟩
      · exact .inr ⟨h5, fun y j f' a b => h6 y j f' (back b).1 (back b).2⟩
    cases hpc : s.pc i <;> cases inp <;> simp only [step, hpc, reduceCtorEq, Option.some.injEq, Prod.mk.injEq] at h2
    case setRefresh.go f =>
      obtain ⟨rfl, rfl⟩ := h2
      exact .inl ⟨tr.length, i, by omega, get_new, fun y' j' f' a b => by omega⟩
    all_goals first
      | (obtain ⟨rfl, rfl⟩ := h2; exact same rfl nofun)
      | (split at h2 <;> first | (cases h2; done) | (simp only [Option.some.injEq, Prod.mk.injEq] at h2; obtain ⟨rfl, rfl⟩ := h2; exact same rfl nofun))

/-- The function for `Clear` in the cache. -/
theorem Exec.curCf (h : Exec c rf tr ss s) : CurCl tr tr.length s.cf := by
  induction h with
  | nil => exact .inr ⟨rfl, fun y j f' h => by simp at h⟩
  | snoc h1 h2 ih =>
    rename_i tr ss s i inp s' e
    have hlen : (tr ++ [e]).length = tr.length + 1 := by simp
    rw [hlen]
    have same : s'.cf = s.cf → (∀ j f, e ≠ .storedClear j f) → CurCl (tr ++ [e]) (tr.length + 1) s'.cf := by
      intro h3 h4
      rw [h3]
      have back : ∀ {y j : Nat} {f : Option F}, (tr ++ [e])[y]? = some (.storedClear j f) → y < tr.length ∧ tr[y]? = some (.storedClear j f) := by
        intro y j f h
        rcases get_snoc.1 h with h | ⟨_, h⟩
        · exact ⟨get_lt h, h⟩
        · exact absurd h.symm (h4 j f)
      rcases ih with ⟨y, j, h5, h6, h7⟩ | ⟨h5, h6⟩
      · exact .inl ⟨y, j, by omega, get_keep h6, fun y' j' f' a b d => h7 y' j' f' a (back d).1 (back d).2⟩
      · exact .inr ⟨h5, fun y j f' a b => h6 y j f' (back b).1 (back b).2⟩
    cases hpc : s.pc i <;> cases inp <;> simp only [step, hpc, reduceCtorEq, Option.some.injEq, Prod.mk.injEq] at h2
    case setClear.go f =>
      obtain ⟨rfl, rfl⟩ := h2
      exact .inl ⟨tr.length, i, by omega, get_new, fun y' j' f' a b => by omega⟩
    all_goals first
      | (obtain ⟨rfl, rfl⟩ := h2; exact same rfl nofun)
      | (split at h2 <;> first | (cases h2; done) | (simp only [Option.some.injEq, Prod.mk.injEq] at h2; obtain ⟨rfl, rfl⟩ := h2; exact same rfl nofun))

/-- The call of thread `i` is from `p`. -/
def Cur (tr : List (Ev T E F A)) (i p : Nat) (op : Op F A) : Prop := tr[p]? = some (.call i op) ∧ Never tr i p Ev.isCall

theorem Cur.snoc (h : Cur tr i p op) (he : ¬ e.isCall) : Cur (tr ++ [e]) i p op :=
  ⟨get_keep h.1, h.2.ext (P := fun e => ¬ e.isCall) (Ext.snoc fun _ => he) (fun _ h => h)⟩

theorem Cur.other (h : Cur tr i p op) (he : e.tid ≠ i) : Cur (tr ++ [e]) i p op :=
  ⟨get_keep h.1, h.2.ext (P := fun _ => False) (Ext.snoc fun h => he h) (fun _ h => h.elim)⟩

/-- The data when the function for `Clear` is loaded. -/
def DataAt (ss : List (State T E F A)) (p : Nat) (d : T) : Prop := ∃ q s, p < q ∧ ss[q]? = some s ∧ s.data = d

/-- The functions in the program counter of thread `i` are those of its call. -/
def FnInv (rf : F) (tr : List (Ev T E F A)) (ss : List (State T E F A)) (i : Nat) : PC T E F A → Prop
  | .cGet a => ∃ p, Cur tr i p (.cget a)
  | .cRefresh a => ∃ p, Cur tr i p (.crefresh a)
  | .cClear a => ∃ p, Cur tr i p (.cclear a)
  | .setRefresh f => ∃ p, Cur tr i p (.setRefresh f)
  | .setClear f => ∃ p, Cur tr i p (.setClear f)
  | .gLast f a | .gChk f a _ | .gErrNow f a | .gErrChk f a _ | .gLock f a | .lLast f a | .lNow f a | .lChk f a _ | .lCmp f a _
  | .lErrNow f a | .lErrChk f a _ | .rLock f a | .old f a => ∃ p op, Cur tr i p op ∧ Uses rf tr p f a op
  | .kLoad f a => ∃ p op, Cur tr i p op ∧ UsesCl tr p (some f) (some a) op
  | .kStore none => ∃ p op, Cur tr i p op ∧ UsesCl tr p none none op
  | .kStore (some (f, a, d)) => ∃ p op, Cur tr i p op ∧ UsesCl tr p (some f) (some a) op ∧ DataAt ss p d
  | .kCall f a d => ∃ p op, Cur tr i p op ∧ UsesCl tr p (some f) (some a) op ∧ DataAt ss p d ∧ ∃ x, p < x ∧ tr[x]? = some (.cleared i)
  | _ => True

theorem FnInv.gNext (h : ∃ p op, Cur tr i p op ∧ Uses rf tr p f a op) : FnInv rf tr ss i (gNext c f a) := by
  unfold Refresh.gNext; split <;> exact h
theorem FnInv.lNext (h : ∃ p op, Cur tr i p op ∧ Uses rf tr p f a op) : FnInv rf tr ss i (lNext c f a) := by
  unfold Refresh.lNext; split <;> exact h
theorem FnInv.rawNext : FnInv rf tr ss i (rawNext c) := by
  unfold Refresh.rawNext; split <;> trivial
theorem FnInv.back {o : Outcome T E} : FnInv rf tr ss i (o.back c) := by
  rcases o with ⟨v, _ | e⟩ | _ <;> trivial
theorem FnInv.entry : FnInv rf (tr ++ [.call i op]) (ss ++ [s]) i (entry op) := by
  have hc : ∀ op, Cur (tr ++ [.call i op]) i tr.length op := fun _ => ⟨get_new, Never.fresh⟩
  cases op with
  | get f a => exact ⟨_, _, hc _, rfl, rfl⟩
  | refresh f a => exact ⟨_, _, hc _, rfl, rfl⟩
  | clear f a =>
    cases f with
    | none => exact ⟨_, _, hc _, rfl, nofun⟩
    | some f => exact ⟨_, _, hc _, rfl, fun a0 h => by injection h⟩
  | cget a => exact ⟨_, hc _⟩
  | crefresh a => exact ⟨_, hc _⟩
  | cclear a => exact ⟨_, hc _⟩
  | setRefresh f => exact ⟨_, hc _⟩
  | setClear f => exact ⟨_, hc _⟩
  | raw => trivial
  | last => trivial
  | lastErr => trivial

theorem FnInv.other {pc : PC T E F A} (h : FnInv rf tr ss i pc) (he : e.tid ≠ i) : FnInv rf (tr ++ [e]) (ss ++ [s]) i pc := by
  have hd : ∀ {p : Nat} {d : T}, DataAt ss p d → DataAt (ss ++ [s]) p d := by
    rintro p d ⟨q, s, h1, h2, h3⟩; exact ⟨q, s, h1, get_keep h2, h3⟩
  cases pc <;> try trivial
  case cGet => obtain ⟨p, h1⟩ := h; exact ⟨p, h1.other he⟩
  case cRefresh => obtain ⟨p, h1⟩ := h; exact ⟨p, h1.other he⟩
  case cClear => obtain ⟨p, h1⟩ := h; exact ⟨p, h1.other he⟩
  case setRefresh => obtain ⟨p, h1⟩ := h; exact ⟨p, h1.other he⟩
  case setClear => obtain ⟨p, h1⟩ := h; exact ⟨p, h1.other he⟩
  case kLoad => obtain ⟨p, op, h1, h2⟩ := h; exact ⟨p, op, h1.other he, h2.snoc⟩
  case kStore x =>
    rcases x with _ | ⟨f, a, d⟩
    · obtain ⟨p, op, h1, h2⟩ := h; exact ⟨p, op, h1.other he, h2.snoc⟩
    · obtain ⟨p, op, h1, h2, h3⟩ := h; exact ⟨p, op, h1.other he, h2.snoc, hd h3⟩
  case kCall => obtain ⟨p, op, h1, h2, h3, x, h4, h5⟩ := h; exact ⟨p, op, h1.other he, h2.snoc, hd h3, x, h4, get_keep h5⟩
  all_goals obtain ⟨p, op, h1, h2⟩ := h
  all_goals exact ⟨p, op, h1.other he, h2.snoc⟩

theorem Exec.fns (h : Exec c rf tr ss s) : ∀ i, FnInv rf tr ss i (s.pc i) := by
  induction h with
  | nil => exact fun i => trivial
  | snoc h1 h2 ih =>
    rename_i tr ss s i inp s' e
    intro j
    by_cases hj : j = i
    · subst hj
      have hi := ih j
      have hl := h1.len
      have hrf := h1.curRf
      have hcf := h1.curCf
      cases hpc : s.pc j <;> cases inp <;> simp only [step, hpc, reduceCtorEq, Option.some.injEq, Prod.mk.injEq] at h2
      all_goals rw [hpc] at hi
      all_goals first
        | (obtain ⟨rfl, rfl⟩ := h2)
        | (split at h2 <;> first | (cases h2; done) | (simp only [Option.some.injEq, Prod.mk.injEq] at h2; obtain ⟨rfl, rfl⟩ := h2))
      all_goals simp only [State.go, Function.update_self]
      case idle.call op => exact FnInv.entry
      case cGet.go a =>
        obtain ⟨p, h3⟩ := hi
        exact ⟨p, _, h3.snoc (fun h => h), rfl, tr.length, get_lt h3.1, by simp, hrf.snoc (Nat.le_refl _)⟩
      case cRefresh.go a =>
        obtain ⟨p, h3⟩ := hi
        exact ⟨p, _, h3.snoc (fun h => h), rfl, tr.length, get_lt h3.1, by simp, hrf.snoc (Nat.le_refl _)⟩
      case cClear.go a =>
        obtain ⟨p, h3⟩ := hi
        split
        · next hc => exact ⟨p, _, h3.snoc (fun h => h), nofun, tr.length, get_lt h3.1, by simp, hc ▸ hcf.snoc (Nat.le_refl _)⟩
        · next f hc =>
          exact ⟨p, _, h3.snoc (fun h => h), fun a0 h => by injection h, tr.length, get_lt h3.1, by simp, hc ▸ hcf.snoc (Nat.le_refl _)⟩
      case kLoad.go f a =>
        obtain ⟨p, op, h3, h4⟩ := hi
        exact ⟨p, op, h3.snoc (fun h => h), h4.snoc, ss.length, _, hl ▸ get_lt h3.1, get_new, rfl⟩
      case kStore.go x =>
        rcases x with _ | ⟨f, a, d⟩
        · trivial
        · obtain ⟨p, op, h3, h4, q, sq, h5, h6, h7⟩ := hi
          exact ⟨p, op, h3.snoc (fun h => h), h4.snoc, ⟨q, sq, h5, get_keep h6, h7⟩, tr.length, get_lt h3.1, get_new⟩
      case running.fin o => exact FnInv.back
      all_goals first
        | trivial
        | (obtain ⟨p, op, h3, h4⟩ := hi; exact ⟨p, op, h3.snoc (fun h => h), h4.snoc⟩)
        | (split <;> first
            | trivial
            | exact FnInv.rawNext
            | (obtain ⟨p, op, h3, h4⟩ := hi; first
                | exact ⟨p, op, h3.snoc (fun h => h), h4.snoc⟩
                | exact FnInv.gNext ⟨p, op, h3.snoc (fun h => h), h4.snoc⟩
                | exact FnInv.lNext ⟨p, op, h3.snoc (fun h => h), h4.snoc⟩))
    · rw [step_other h2 hj]
      exact (ih j).other (by rw [step_tid h2]; exact fun h => hj h.symm)

theorem Cur.callAt (h : Cur (tr.take z) i p op) : CallAt tr i p op z := by
  have h1 := get_take.1 h.1
  exact ⟨h1.1, h1.2, fun k op' a b d => h.2 k _ a (get_take.2 ⟨b, d⟩) rfl trivial⟩

theorem CurFn.of_take {x : Nat} (h : CurFn rf (tr.take z) x f) (hx : x ≤ z) : CurFn rf tr x f := by
  rcases h with ⟨y, j, h1, h2, h3⟩ | ⟨h1, h2⟩
  · exact .inl ⟨y, j, h1, (get_take.1 h2).2, fun y' j' f' a b d => h3 y' j' f' a b (get_take.2 ⟨by omega, d⟩)⟩
  · exact .inr ⟨h1, fun y j f' a b => h2 y j f' a (get_take.2 ⟨by omega, b⟩)⟩

theorem CurCl.of_take {x : Nat} {f : Option F} (h : CurCl (tr.take z) x f) (hx : x ≤ z) : CurCl tr x f := by
  rcases h with ⟨y, j, h1, h2, h3⟩ | ⟨h1, h2⟩
  · exact .inl ⟨y, j, h1, (get_take.1 h2).2, fun y' j' f' a b d => h3 y' j' f' a b (get_take.2 ⟨by omega, d⟩)⟩
  · exact .inr ⟨h1, fun y j f' a b => h2 y j f' a (get_take.2 ⟨by omega, b⟩)⟩

/-- **C76**: a refresh is started only in a call of `Get` or `Refresh`, with the function and the arguments of the call;
for a `RefreshCache` with the function it has at some moment of the call. -/
theorem C76 (h : Exec c rf tr ss s) {old : T} (hz : tr[z]? = some (.start i f a old)) :
    ∃ p op, CallAt tr i p op z ∧
      (op = .get f a ∨ op = .refresh f a ∨ ((op = .cget a ∨ op = .crefresh a) ∧ ∃ x, p < x ∧ x < z ∧ CurFn rf tr x f)) := by
  obtain ⟨s0, inp, s1, h1, h2, _⟩ := h.at hz
  obtain ⟨_, h4, _⟩ := step_start h2
  rw [show Ev.tid (Ev.start i f a old : Ev T E F A) = i from rfl] at h4
  have h3 := h1.fns i
  rw [h4] at h3
  obtain ⟨p, op, h5, h6⟩ := h3
  refine ⟨p, op, h5.callAt, ?_⟩
  have hlen : ∀ x, x < (tr.take z).length → x < z := fun x h => by rw [List.length_take] at h; omega
  cases op with
  | get f' a' => obtain ⟨rfl, rfl⟩ := h6; exact .inl rfl
  | refresh f' a' => obtain ⟨rfl, rfl⟩ := h6; exact .inr (.inl rfl)
  | cget a' =>
    obtain ⟨rfl, x, h7, h8, h9⟩ := h6
    exact .inr (.inr ⟨.inl rfl, x, h7, hlen x h8, h9.of_take (Nat.le_of_lt (hlen x h8))⟩)
  | crefresh a' =>
    obtain ⟨rfl, x, h7, h8, h9⟩ := h6
    exact .inr (.inr ⟨.inr rfl, x, h7, hlen x h8, h9.of_take (Nat.le_of_lt (hlen x h8))⟩)
  | _ => exact h6.elim

theorem step_stored (h : step c s i inp = some (s', .stored j f)) : s.pc i = .setRefresh f := by
  cases hpc : s.pc i <;> cases inp <;> simp only [step, hpc, reduceCtorEq, Option.some.injEq, Prod.mk.injEq] at h
  case setRefresh.go => obtain ⟨_, h⟩ := h; injection h with h1 h2; rw [h2]
  all_goals first
    | (obtain ⟨_, h⟩ := h; cases h; done)
    | (split at h <;> first | (cases h; done) | (simp only [Option.some.injEq, Prod.mk.injEq] at h; obtain ⟨_, h⟩ := h; cases h; done))

/-- **C76**: the function of a cache changes only in calls of `SetRefreshFunc`, to its argument. -/
theorem C76_set (h : Exec c rf tr ss s) (hz : tr[z]? = some (.stored i f)) : ∃ p, CallAt tr i p (.setRefresh f) z := by
  obtain ⟨s0, inp, s1, h1, h2, _⟩ := h.at hz
  have h4 := step_stored h2
  rw [show Ev.tid (Ev.stored i f : Ev T E F A) = i from rfl] at h4
  have h3 := h1.fns i
  rw [h4] at h3
  obtain ⟨p, h5⟩ := h3
  exact ⟨p, h5.callAt⟩

theorem step_clearStart {d : T} (h : step c s i inp = some (s', .clearStart j f a d)) : s.pc i = .kCall f a d := by
  cases hpc : s.pc i <;> cases inp <;> simp only [step, hpc, reduceCtorEq, Option.some.injEq, Prod.mk.injEq] at h
  case kCall.go => obtain ⟨_, h⟩ := h; injection h with h1 h2 h3 h4; rw [h2, h3, h4]
  all_goals first
    | (obtain ⟨_, h⟩ := h; cases h; done)
    | (split at h <;> first | (cases h; done) | (simp only [Option.some.injEq, Prod.mk.injEq] at h; obtain ⟨_, h⟩ := h; cases h; done))

/-- **C77**: the function of `Clear` is called in a call of `Clear`, after the cache is cleared, with its function and arguments
(for a `RefreshCache` the function it has at some moment of the call), and with a value `d` that is at least as new as that of
every refresh without error that returned before the call. -/
theorem C77 (h : Exec c rf tr ss s) {d : T} (hz : tr[z]? = some (.clearStart i f a d)) :
    ∃ p op x, CallAt tr i p op z ∧ p < x ∧ x < z ∧ tr[x]? = some (.cleared i) ∧
      (op = .clear (some f) a ∨ (op = .cclear a ∧ ∃ x, p < x ∧ x < z ∧ CurCl tr x (some f))) ∧
      (∀ n j o w r, tr[n]? = some (.finish j o) → (o.yield c.zero).isSome → n < w → w < p → tr[w]? = some (.ret j r) →
        ∃ n' j' o', n ≤ n' ∧ n' < z ∧ tr[n']? = some (.finish j' o') ∧ o'.yield c.zero = some d) ∧
      ((∀ n j o, n < z → tr[n]? = some (.finish j o) → o.yield c.zero = none) → d = c.zero) := by
  obtain ⟨s0, inp, s1, h1, h2, _⟩ := h.at hz
  have h4 := step_clearStart h2
  rw [show Ev.tid (Ev.clearStart i f a d : Ev T E F A) = i from rfl] at h4
  have h3 := h1.fns i
  rw [h4] at h3
  obtain ⟨p, op, h5, h6, ⟨q, sq, h7, h8, h9⟩, x, h10, h11⟩ := h3
  have hlen : ∀ x, x < (tr.take z).length → x < z := fun x h => by rw [List.length_take] at h; omega
  refine ⟨p, op, x, h5.callAt, h10, (get_take.1 h11).1, (get_take.1 h11).2, ?_, ?_, ?_⟩
  · cases op with
    | clear f' a' => obtain ⟨rfl, g⟩ := h6; obtain rfl := g _ rfl; exact .inl rfl
    | cclear a' =>
      obtain ⟨g, x, h7, h8, h9⟩ := h6
      obtain rfl := g _ rfl
      exact .inr ⟨rfl, x, h7, hlen x h8, h9.of_take (Nat.le_of_lt (hlen x h8))⟩
    | _ => exact h6.elim
  · intro n j o w r a1 a2 a3 a4 a5
    have e2 := h.state (get_take.1 h8).2
    have hq := (get_take.1 h8).1
    rcases e2.dataSrc n j o (get_take.2 ⟨by omega, a1⟩) a2 with ⟨_, b1⟩ | ⟨n', j', o', b1, b2, b3⟩
    · exact absurd trivial (b1 w _ a3 (get_take.2 ⟨by omega, a5⟩) rfl)
    · have := get_take.1 b2
      exact ⟨n', j', o', b1, by omega, this.2, by rw [b3, h9]⟩
  · intro hno
    have e2 := h.state (get_take.1 h8).2
    have hq := (get_take.1 h8).1
    rw [← h9]
    exact e2.data.2 fun n j o b => hno n j o (by have := (get_take.1 b).1; omega) (get_take.1 b).2

/-- `SetRefreshFunc` and `SetClearFunc` by thread 1, then `Get` and `Clear` by thread 0 with the new functions. -/
example : trace ⟨0, 5, 0⟩ ([(1, .call (.setRefresh 8))] ++ goes 1 2 ++ [(1, .call (.setClear (some 9)))] ++ goes 1 2 ++
      [(0, .call (.cget 4)), (0, .go), (0, .go), (0, .time 100), (0, .go), (0, .time 100), (0, .go), (0, .go), (0, .fin (.ret 7 none)), (0, .go), (0, .time 100)] ++
      goes 0 4 ++ [(0, .call (.cclear 3))] ++ goes 0 4 ++ [(0, .clearFin (some (some 6))), (0, .go)]) =
    some [.call 1 (.setRefresh 8), .stored 1 8, .ret 1 .unit, .call 1 (.setClear (some 9)), .storedClear 1 (some 9), .ret 1 .unit,
      .call 0 (.cget 4), .tau 0, .tau 0, .clock 0 100, .locked 0, .clock 0 100, .tau 0, .start 0 8 4 0, .finish 0 (.ret 7 none), .tau 0, .clock 0 100, .tau 0,
      .tau 0, .tau 0, .ret 0 (.val 7 none), .call 0 (.cclear 3), .tau 0, .tau 0, .cleared 0, .clearStart 0 9 3 7, .clearEnd 0 (some (some 6)),
      .ret 0 (.err (some 6))] := by rfl

end Verif.Refresh
