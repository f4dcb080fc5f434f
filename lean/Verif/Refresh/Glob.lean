import Verif.Refresh.Own
/-!
# What the fields hold, in terms of the ends of refreshes
-/
namespace Verif.Refresh
variable {T E F A : Type}
variable {c : Cfg T} {rf : F} {tr : List (Ev T E F A)} {ss : List (State T E F A)} {i : Nat}
  {s s' : State T E F A} {e : Ev T E F A} {inp : In T E F A}

/-! ## What a step changes -/

theorem step_data (h : step c s i inp = some (s', e)) :
    s'.data = s.data ∨ ∃ v r, s.pc i = .wData v r ∧ s'.data = v := by
  cases hpc : s.pc i <;> cases inp <;> simp only [step, hpc, reduceCtorEq, Option.some.injEq, Prod.mk.injEq] at h
  case wData.go v r => obtain ⟨rfl, rfl⟩ := h; exact .inr ⟨v, r, rfl, rfl⟩
  all_goals left
  all_goals first
    | (obtain ⟨rfl, rfl⟩ := h; rfl)
    | (split at h <;> first | (cases h; done) | (simp only [Option.some.injEq, Prod.mk.injEq] at h; obtain ⟨rfl, rfl⟩ := h; rfl))

theorem step_err (h : step c s i inp = some (s', e)) :
    s'.err = s.err ∨ ∃ er r, s.pc i = .wErr er r ∧ s'.err = some er := by
  cases hpc : s.pc i <;> cases inp <;> simp only [step, hpc, reduceCtorEq, Option.some.injEq, Prod.mk.injEq] at h
  case wErr.go v r => obtain ⟨rfl, rfl⟩ := h; exact .inr ⟨v, r, rfl, rfl⟩
  all_goals left
  all_goals first
    | (obtain ⟨rfl, rfl⟩ := h; rfl)
    | (split at h <;> first | (cases h; done) | (simp only [Option.some.injEq, Prod.mk.injEq] at h; obtain ⟨rfl, rfl⟩ := h; rfl))

theorem step_last (h : step c s i inp = some (s', e)) :
    (s'.last = s.last ∧ ∀ j, e ≠ .cleared j) ∨
    (∃ t r, s.pc i = .wLast t r ∧ s'.last = t ∧ s'.pc i = .wLastErr r ∧ e = .tau i) ∨
    (∃ r, s.pc i = .wErrClr r ∧ s'.last = 0 ∧ s'.pc i = .unlock r ∧ e = .tau i) ∨ (e = .cleared i ∧ s'.last = 0) := by
  cases hpc : s.pc i <;> cases inp <;> simp only [step, hpc, reduceCtorEq, Option.some.injEq, Prod.mk.injEq] at h
  case wLast.go v r => obtain ⟨rfl, rfl⟩ := h; exact .inr (.inl ⟨v, r, rfl, rfl, by simp [State.go], rfl⟩)
  case wErrClr.go r => obtain ⟨rfl, rfl⟩ := h; exact .inr (.inr (.inl ⟨r, rfl, rfl, by simp [State.go], rfl⟩))
  case kStore.go r => obtain ⟨rfl, rfl⟩ := h; exact .inr (.inr (.inr ⟨rfl, rfl⟩))
  all_goals left
  all_goals first
    | (obtain ⟨rfl, rfl⟩ := h; exact ⟨rfl, nofun⟩)
    | (split at h <;> first | (cases h; done) | (simp only [Option.some.injEq, Prod.mk.injEq] at h; obtain ⟨rfl, rfl⟩ := h; exact ⟨rfl, nofun⟩))

theorem step_lastErr (h : step c s i inp = some (s', e)) :
    s'.lastErr = s.lastErr ∨
    (∃ r, s.pc i = .wLastErr r ∧ s'.lastErr = 0 ∧ s'.pc i = .unlock r ∧ e = .tau i) ∨
    (∃ t r, s.pc i = .wErrLast t r ∧ s'.lastErr = t ∧ s'.pc i = .wErrClr r ∧ e = .tau i) := by
  cases hpc : s.pc i <;> cases inp <;> simp only [step, hpc, reduceCtorEq, Option.some.injEq, Prod.mk.injEq] at h
  case wLastErr.go r => obtain ⟨rfl, rfl⟩ := h; exact .inr (.inl ⟨r, rfl, rfl, by simp [State.go], rfl⟩)
  case wErrLast.go t r => obtain ⟨rfl, rfl⟩ := h; exact .inr (.inr ⟨t, r, rfl, rfl, by simp [State.go], rfl⟩)
  all_goals left
  all_goals first
    | (obtain ⟨rfl, rfl⟩ := h; rfl)
    | (split at h <;> first | (cases h; done) | (simp only [Option.some.injEq, Prod.mk.injEq] at h; obtain ⟨rfl, rfl⟩ := h; rfl))

theorem step_finish {j : Nat} {o : Outcome T E} (h : step c s i inp = some (s', .finish j o)) :
    j = i ∧ s.pc i = .running ∧ s' = s.go i (o.back c) := by
  cases hpc : s.pc i <;> cases inp <;> simp only [step, hpc, reduceCtorEq, Option.some.injEq, Prod.mk.injEq] at h
  case running.fin o' =>
    obtain ⟨rfl, h⟩ := h
    injection h with h1 h2
    subst h1; subst h2
    exact ⟨rfl, rfl, rfl⟩
  all_goals first
    | (obtain ⟨_, h⟩ := h; cases h; done)
    | (split at h <;> first | (cases h; done) | (simp only [Option.some.injEq, Prod.mk.injEq] at h; obtain ⟨_, h⟩ := h; cases h; done))

/-! ## Ends of refreshes and the holder of the lock -/

/-- A thread in the write-back has the newest end. -/
theorem newest_of_wb (h : Exec c rf tr ss s) (hc : (s.pc i).crit) {n : Nat} {o : Outcome T E} {r : Res T E} (hw : WB c tr ss i n o r)
    {n' j : Nat} {o' : Outcome T E} (hn : tr[n']? = some (.finish j o')) : n' ≤ n := by
  obtain ⟨p, op, k0, z, h1, h2⟩ := hw.st
  obtain ⟨k, h3, h4⟩ := h.lock.excl i ((h.lock.crit i).2 hc)
  have h5 : ¬ k < k0 := fun hlt => (h4 k0 _ hlt h1.lock).1 trivial
  have hk : k = k0 := h1.oneLock k _ (by have := h1.lt; omega) h3 rfl trivial
  subst hk
  rcases Nat.lt_or_ge n n' with h6 | h6
  · have h7 := (h4 n' _ (by have := h1.lt'; omega) hn).2 (.inr trivial)
    exact absurd trivial (hw.quiet n' _ h6 hn h7)
  · exact h6

/-- Only one thread holds the lock. -/
theorem crit_unique (h : Exec c rf tr ss s) {j : Nat} (h1 : (s.pc i).crit) (h2 : (s.pc j).crit) : i = j := by
  have a := (h.lock.crit i).2 h1
  rw [(h.lock.crit j).2 h2] at a
  injection a with a
  exact a.symm

theorem get_same {tr : List (Ev T E F A)} {n i j : Nat} {o o' : Outcome T E} (h1 : tr[n]? = some (.finish i o))
    (h2 : tr[n]? = some (.finish j o')) : i = j ∧ o = o' := by
  rw [h1] at h2
  injection h2 with h2
  injection h2 with a b
  exact ⟨a, b⟩

/-- The newest end that leaves a value. -/
structure NewestOk (c : Cfg T) (tr : List (Ev T E F A)) (n i : Nat) (o : Outcome T E) (v : T) : Prop where
  at_ : tr[n]? = some (.finish i o)
  ok : o.yield c.zero = some v
  last : ∀ n' j o', n < n' → tr[n']? = some (.finish j o') → o'.yield c.zero = none

/-- The newest end with an error. -/
structure NewestErr (tr : List (Ev T E F A)) (n i : Nat) (v : T) (er : E) : Prop where
  at_ : tr[n]? = some (.finish i (.ret v (some er)))
  last : ∀ n' j v' er', n < n' → tr[n']? ≠ some (.finish j (.ret v' (some er')))

/-- The newest end. -/
structure Newest (tr : List (Ev T E F A)) (n i : Nat) (o : Outcome T E) : Prop where
  at_ : tr[n]? = some (.finish i o)
  last : ∀ n' j o', n < n' → tr[n']? ≠ some (.finish j o')

theorem NewestOk.prev {n j : Nat} {o : Outcome T E} {v : T} (h : NewestOk c (tr ++ [e]) n j o v) (hn : n ≠ tr.length) :
    NewestOk c tr n j o v := by
  refine ⟨?_, h.ok, fun n' j o' h1 h2 => h.last n' j o' h1 (get_keep h2)⟩
  rcases get_snoc.1 h.at_ with h1 | ⟨h1, _⟩
  · exact h1
  · exact absurd h1 hn

theorem NewestErr.prev {n j : Nat} {v : T} {er : E} (h : NewestErr (tr ++ [e]) n j v er) (hn : n ≠ tr.length) :
    NewestErr tr n j v er := by
  refine ⟨?_, fun n' j o' e' h1 h2 => h.last n' j o' e' h1 (get_keep h2)⟩
  rcases get_snoc.1 h.at_ with h1 | ⟨h1, _⟩
  · exact h1
  · exact absurd h1 hn

theorem Newest.prev {n j : Nat} {o : Outcome T E} (h : Newest (tr ++ [e]) n j o) (hn : n ≠ tr.length) : Newest tr n j o := by
  refine ⟨?_, fun n' j o' h1 h2 => h.last n' j o' h1 (get_keep h2)⟩
  rcases get_snoc.1 h.at_ with h1 | ⟨h1, _⟩
  · exact h1
  · exact absurd h1 hn

/-- If the new event is an end it is the newest. -/
theorem Newest.eq_len {n j j' : Nat} {o o' : Outcome T E} (h : Newest (tr ++ [.finish j' o']) n j o) : n = tr.length := by
  rcases Nat.lt_trichotomy n tr.length with h1 | h1 | h1
  · exact absurd get_new (h.last _ j' o' h1)
  · exact h1
  · have := get_lt h.at_
    simp at this; omega

/-! ## `data` -/

theorem Exec.data (h : Exec c rf tr ss s) :
    (∀ n i o v, NewestOk c tr n i o v → (∃ r, s.pc i = .wData v r) ∨ s.data = v) ∧
    ((∀ (n i : Nat) (o : Outcome T E), tr[n]? = some (.finish i o) → o.yield c.zero = none) → s.data = c.zero) := by
  induction h with
  | nil => exact ⟨fun n i o v h => by have := h.at_; simp at this, fun _ => rfl⟩
  | snoc h1 h2 ih =>
    rename_i tr ss s i inp s' e
    obtain ⟨ih1, ih2⟩ := ih
    have hpi := h1.pcs i
    refine ⟨?_, ?_⟩
    · intro n j o v hn
      by_cases hl : n = tr.length
      · subst hl
        have h3 := hn.at_
        rw [get_new] at h3
        injection h3 with h3
        subst h3
        obtain ⟨rfl, _, rfl⟩ := step_finish h2
        left
        simp only [State.go, Function.update_self]
        have := hn.ok
        rcases o with ⟨w, _ | er⟩ | _
        · injection this with this; subst this; exact ⟨_, rfl⟩
        · cases this
        · injection this with this; subst this; exact ⟨_, rfl⟩
      · have hp := hn.prev hl
        rcases ih1 n j o v hp with ⟨r, h3⟩ | h3
        · by_cases hj : j = i
          · subst hj
            rcases step_data h2 with h4 | ⟨v', r', h4, h5⟩
            · cases inp <;> simp only [step, h3, reduceCtorEq, Option.some.injEq, Prod.mk.injEq] at h2
              obtain ⟨rfl, rfl⟩ := h2
              exact .inr rfl
            · rw [h3] at h4
              injection h4 with h4
              exact .inr (by rw [h5, h4])
          · exact .inl ⟨r, by rw [step_other h2 hj, h3]⟩
        · rcases step_data h2 with h4 | ⟨v', r', h4, h5⟩
          · exact .inr (by rw [h4, h3])
          · rw [h4] at hpi
            obtain ⟨n', o', w1, w2, w3⟩ := hpi
            have a := newest_of_wb h1 (by rw [h4]; trivial) w1 hp.at_
            have b : n = n' := by
              rcases Nat.lt_or_ge n n' with hlt | hge
              · rw [hp.last n' _ _ hlt w1.at_] at w2; cases w2
              · omega
            subst b
            obtain ⟨_, rfl⟩ := get_same hp.at_ w1.at_
            rw [hp.ok] at w2
            injection w2 with w2
            exact .inr (by rw [h5, w2])
    · intro hno
      have := ih2 fun n j o hj => hno n j o (get_keep hj)
      rcases step_data h2 with h4 | ⟨v', r', h4, h5⟩
      · rw [h4, this]
      · rw [h4] at hpi
        obtain ⟨n', o', w1, w2, w3⟩ := hpi
        rw [hno n' _ _ (get_keep w1.at_)] at w2
        cases w2

/-! ## `err` -/

theorem Exec.err (h : Exec c rf tr ss s) :
    (∀ n i v er, NewestErr tr n i v er → (∃ r, s.pc i = .wErr er r) ∨ s.err = some er) ∧
    ((∀ (n i : Nat) (v : T) (er : E), tr[n]? ≠ some (.finish i (.ret v (some er)))) → s.err = none) := by
  induction h with
  | nil => exact ⟨fun n i o v h => by have := h.at_; simp at this, fun _ => rfl⟩
  | snoc h1 h2 ih =>
    rename_i tr ss s i inp s' e
    obtain ⟨ih1, ih2⟩ := ih
    have hpi := h1.pcs i
    refine ⟨?_, ?_⟩
    · intro n j v er hn
      by_cases hl : n = tr.length
      · subst hl
        have h3 := hn.at_
        rw [get_new] at h3
        injection h3 with h3
        subst h3
        obtain ⟨rfl, _, rfl⟩ := step_finish h2
        left
        simp only [State.go, Function.update_self]
        exact ⟨_, rfl⟩
      · have hp := hn.prev hl
        rcases ih1 n j v er hp with ⟨r, h3⟩ | h3
        · by_cases hj : j = i
          · subst hj
            cases inp <;> simp only [step, h3, reduceCtorEq, Option.some.injEq, Prod.mk.injEq] at h2
            obtain ⟨rfl, rfl⟩ := h2
            exact .inr rfl
          · exact .inl ⟨r, by rw [step_other h2 hj, h3]⟩
        · rcases step_err h2 with h4 | ⟨v', r', h4, h5⟩
          · exact .inr (by rw [h4, h3])
          · rw [h4] at hpi
            obtain ⟨n', w, w1, w3⟩ := hpi
            have a := newest_of_wb h1 (by rw [h4]; trivial) w1 hp.at_
            have b : n = n' := by
              rcases Nat.lt_or_ge n n' with hlt | hge
              · exact absurd w1.at_ (hp.last n' _ _ _ hlt)
              · omega
            subst b
            obtain ⟨_, h6⟩ := get_same hp.at_ w1.at_
            injection h6 with _ h6
            injection h6 with h6
            exact .inr (by rw [h5, h6])
    · intro hno
      have := ih2 fun n j o er hj => hno n j o er (get_keep hj)
      rcases step_err h2 with h4 | ⟨v', r', h4, h5⟩
      · rw [h4, this]
      · rw [h4] at hpi
        obtain ⟨n', w, w1, w3⟩ := hpi
        exact absurd (get_keep w1.at_) (hno n' _ _ _)

/-! ## `last` and `lastErr` -/

/-- In the write-back of a success, before the store to `last`. -/
def PC.pendOk : PC T E F A → Prop
  | .wData _ _ | .wNow _ | .wLast _ _ => True
  | _ => False
/-- In the write-back of a success. -/
def PC.pendOk' : PC T E F A → Prop
  | .wData _ _ | .wNow _ | .wLast _ _ | .wLastErr _ => True
  | _ => False
/-- In the write-back of an error, before the store to `lastErr`. -/
def PC.pendErr : PC T E F A → Prop
  | .wErr _ _ | .wErrNow _ | .wErrLast _ _ => True
  | _ => False

theorem Exec.ok (h : Exec c rf tr ss s) : ∀ n i o v, Newest tr n i o → o.yield c.zero = some v →
    ((s.pc i).pendOk ∨ ∃ m t, Stamp tr i n m t ∧ (s.last = t ∨ ∃ x j, m < x ∧ tr[x]? = some (.cleared j))) ∧
    ((s.pc i).pendOk' ∨ s.lastErr = 0) := by
  induction h with
  | nil => intro n i o v h; have := h.at_; simp at this
  | snoc h1 h2 ih =>
    rename_i tr ss s i inp s' e
    intro n j o v hn hv
    have hpi := h1.pcs i
    by_cases hl : n = tr.length
    · subst hl
      have h3 := hn.at_
      rw [get_new] at h3
      injection h3 with h3
      subst h3
      obtain ⟨rfl, _, rfl⟩ := step_finish h2
      simp only [State.go, Function.update_self]
      rcases o with ⟨w, _ | er⟩ | _
      · exact ⟨.inl trivial, .inl trivial⟩
      · cases hv
      · exact ⟨.inl trivial, .inl trivial⟩
    · have hp := hn.prev hl
      obtain ⟨ih1, ih2⟩ := ih n j o v hp hv
      -- a thread in a write-back has this end
      have same : ∀ {n' o' r}, (s.pc i).crit → WB c tr ss i n' o' r → n' = n ∧ i = j ∧ o' = o := by
        intro n' o' r hc hw
        have a := newest_of_wb h1 hc hw hp.at_
        have b : n' = n := by
          rcases Nat.lt_or_ge n n' with hlt | hge
          · exact absurd hw.at_ (hp.last n' _ _ hlt)
          · omega
        subst b
        obtain ⟨rfl, rfl⟩ := get_same hw.at_ hp.at_
        exact ⟨rfl, rfl, rfl⟩
      refine ⟨?_, ?_⟩
      · rcases ih1 with h3 | ⟨m, t, h3, h4⟩
        · by_cases hj : j = i
          · subst hj
            cases hpc : s.pc j <;> rw [hpc] at h3 hpi <;> try exact h3.elim
            · cases inp <;> simp only [step, hpc, reduceCtorEq, Option.some.injEq, Prod.mk.injEq] at h2
              obtain ⟨rfl, rfl⟩ := h2
              left; simp only [State.go, Function.update_self]; trivial
            · cases inp <;> simp only [step, hpc, reduceCtorEq, Option.some.injEq, Prod.mk.injEq] at h2
              obtain ⟨rfl, rfl⟩ := h2
              left; simp only [State.go, Function.update_self]; trivial
            · cases inp <;> simp only [step, hpc, reduceCtorEq, Option.some.injEq, Prod.mk.injEq] at h2
              obtain ⟨rfl, rfl⟩ := h2
              obtain ⟨n', o', m, w1, w2, w3⟩ := hpi
              obtain ⟨rfl, _, _⟩ := same (by rw [hpc]; trivial) w1
              exact .inr ⟨m, _, w3.ext, .inl rfl⟩
          · left; rw [step_other h2 hj]; exact h3
        · right
          refine ⟨m, t, h3.ext, ?_⟩
          rcases h4 with h4 | ⟨x, j', h4, h5⟩
          · rcases step_last h2 with ⟨h5, _⟩ | ⟨t', r, h5, h6, h7, h8⟩ | ⟨r, h5, h6, h7, h8⟩ | ⟨h5, h6⟩
            · exact .inl (by rw [h5, h4])
            · rw [h5] at hpi
              obtain ⟨n', o', m', w1, w2, w3⟩ := hpi
              obtain ⟨rfl, rfl, _⟩ := same (by rw [h5]; trivial) w1
              exact .inl (by rw [h6]; exact (w3.unique h3).2)
            · rw [h5] at hpi
              obtain ⟨n', v', er, m', t', w1, w3⟩ := hpi
              obtain ⟨_, _, rfl⟩ := same (by rw [h5]; trivial) w1
              cases hv
            · subst h5
              exact .inr ⟨tr.length, i, get_lt h3.at_, get_new⟩
          · exact .inr ⟨x, j', h4, get_keep h5⟩
      · rcases ih2 with h3 | h3
        · by_cases hj : j = i
          · subst hj
            cases hpc : s.pc j <;> rw [hpc] at h3 <;> try exact h3.elim
            all_goals cases inp <;> simp only [step, hpc, reduceCtorEq, Option.some.injEq, Prod.mk.injEq] at h2
            all_goals obtain ⟨rfl, rfl⟩ := h2
            · left; simp only [State.go, Function.update_self]; trivial
            · left; simp only [State.go, Function.update_self]; trivial
            · left; simp only [State.go, Function.update_self]; trivial
            · right; rfl
          · left; rw [step_other h2 hj]; exact h3
        · rcases step_lastErr h2 with h5 | ⟨r, h5, h6, h7, h8⟩ | ⟨t, r, h5, h6, h7, h8⟩
          · exact .inr (by rw [h5, h3])
          · exact .inr h6
          · rw [h5] at hpi
            obtain ⟨n', v', er, m', w1, w3⟩ := hpi
            obtain ⟨_, _, rfl⟩ := same (by rw [h5]; trivial) w1
            cases hv

theorem Exec.fail (h : Exec c rf tr ss s) : ∀ n i v er, Newest tr n i (.ret v (some er)) →
    (s.pc i).pendErr ∨ ∃ m t, Stamp tr i n m t ∧ s.lastErr = t ∧ ((∃ r, s.pc i = .wErrClr r) ∨ s.last = 0) := by
  induction h with
  | nil => intro n i o v h; have := h.at_; simp at this
  | snoc h1 h2 ih =>
    rename_i tr ss s i inp s' e
    intro n j v er hn
    have hpi := h1.pcs i
    by_cases hl : n = tr.length
    · subst hl
      have h3 := hn.at_
      rw [get_new] at h3
      injection h3 with h3
      subst h3
      obtain ⟨rfl, _, rfl⟩ := step_finish h2
      simp only [State.go, Function.update_self]
      exact .inl trivial
    · have hp := hn.prev hl
      have same : ∀ {n' o' r}, (s.pc i).crit → WB c tr ss i n' o' r → n' = n ∧ i = j ∧ o' = .ret v (some er) := by
        intro n' o' r hc hw
        have a := newest_of_wb h1 hc hw hp.at_
        have b : n' = n := by
          rcases Nat.lt_or_ge n n' with hlt | hge
          · exact absurd hw.at_ (hp.last n' _ _ hlt)
          · omega
        subst b
        obtain ⟨rfl, rfl⟩ := get_same hw.at_ hp.at_
        exact ⟨rfl, rfl, rfl⟩
      rcases ih n j v er hp with h3 | ⟨m, t, h3, h4, h5⟩
      · by_cases hj : j = i
        · subst hj
          cases hpc : s.pc j <;> rw [hpc] at h3 hpi <;> try exact h3.elim
          · cases inp <;> simp only [step, hpc, reduceCtorEq, Option.some.injEq, Prod.mk.injEq] at h2
            obtain ⟨rfl, rfl⟩ := h2
            left; simp only [State.go, Function.update_self]; trivial
          · cases inp <;> simp only [step, hpc, reduceCtorEq, Option.some.injEq, Prod.mk.injEq] at h2
            obtain ⟨rfl, rfl⟩ := h2
            left; simp only [State.go, Function.update_self]; trivial
          · cases inp <;> simp only [step, hpc, reduceCtorEq, Option.some.injEq, Prod.mk.injEq] at h2
            obtain ⟨rfl, rfl⟩ := h2
            obtain ⟨n', v', e', m, w1, w3⟩ := hpi
            obtain ⟨rfl, _, _⟩ := same (by rw [hpc]; trivial) w1
            exact .inr ⟨m, _, w3.ext, rfl, .inl ⟨_, by simp only [State.go, Function.update_self]; rfl⟩⟩
        · left; rw [step_other h2 hj]; exact h3
      · right
        refine ⟨m, t, h3.ext, ?_, ?_⟩
        · rcases step_lastErr h2 with h6 | ⟨r, h6, _, _, _⟩ | ⟨t', r, h6, h7, _, _⟩
          · rw [h6, h4]
          · rw [h6] at hpi
            obtain ⟨n', o', m', t', w1, w2, w3⟩ := hpi
            obtain ⟨_, _, rfl⟩ := same (by rw [h6]; trivial) w1
            cases w2
          · rw [h6] at hpi
            obtain ⟨n', v', e', m', w1, w3⟩ := hpi
            obtain ⟨rfl, rfl, _⟩ := same (by rw [h6]; trivial) w1
            rw [h7]; exact (w3.unique h3).2
        · have hlast : (∃ r, s.pc j = .wErrClr r) ∧ j ≠ i ∨ s'.last = 0 := by
            rcases step_last h2 with ⟨h6, _⟩ | ⟨t', r, h6, h7, _, _⟩ | ⟨r, h6, h7, _, _⟩ | ⟨h6, h7⟩
            · rcases h5 with ⟨r, h5⟩ | h5
              · by_cases hj : j = i
                · subst hj
                  cases inp <;> simp only [step, h5, reduceCtorEq, Option.some.injEq, Prod.mk.injEq] at h2
                  obtain ⟨rfl, rfl⟩ := h2
                  exact .inr rfl
                · exact .inl ⟨⟨r, h5⟩, hj⟩
              · exact .inr (by rw [h6, h5])
            · rw [h6] at hpi
              obtain ⟨n', o', m', w1, w2, w3⟩ := hpi
              obtain ⟨_, _, rfl⟩ := same (by rw [h6]; trivial) w1
              cases w2
            · exact .inr h7
            · exact .inr h7
          rcases hlast with ⟨⟨r, h6⟩, hj⟩ | h6
          · exact .inl ⟨r, by rw [step_other h2 hj, h6]⟩
          · exact .inr h6

/-- Where a value of `last` other than 0 comes from: the store at `w`. -/
theorem Exec.lastSrc (h : Exec c rf tr ss s) (hne : s.last ≠ 0) : ∃ n m w j o, tr[n]? = some (.finish j o) ∧
    (o.yield c.zero).isSome ∧ Stamp tr j n m s.last ∧ m < w ∧ w < tr.length ∧ (∀ x j', w < x → tr[x]? ≠ some (.cleared j')) ∧
    (∀ x r, n < x → x ≤ w → tr[x]? ≠ some (.ret j r)) := by
  induction h with
  | nil => exact absurd rfl hne
  | snoc h1 h2 ih =>
    rename_i tr ss s i inp s' e
    have hpi := h1.pcs i
    rcases step_last h2 with ⟨h6, h7⟩ | ⟨t', r, h6, h7, h8, h9⟩ | ⟨r, h6, h7, _, _⟩ | ⟨h6, h7⟩
    · rw [h6] at hne ⊢
      obtain ⟨n, m, w, j, o, a1, a2, a3, a4, a5, a6, a7⟩ := ih hne
      refine ⟨n, m, w, j, o, get_keep a1, a2, a3.ext, a4, by simp; omega, ?_, ?_⟩
      · intro x j' hx hc
        rcases get_snoc.1 hc with h | ⟨_, h⟩
        · exact a6 x j' hx h
        · exact h7 j' h.symm
      · intro x r hx hxw hr
        rcases get_snoc.1 hr with h | ⟨h, _⟩
        · exact a7 x r hx hxw h
        · omega
    · rw [h6] at hpi
      obtain ⟨n, o, m, w1, w2, w3⟩ := hpi
      subst h9
      refine ⟨n, m, tr.length, i, o, get_keep w1.at_, w2, by rw [h7]; exact w3.ext, get_lt w3.at_, by simp, ?_, ?_⟩
      · intro x j' hx hc
        have := get_lt hc
        simp at this; omega
      · intro x r' hx hxw hr
        rcases get_snoc.1 hr with h | ⟨_, h⟩
        · exact w1.quiet x _ hx h rfl trivial
        · cases h
    · exact absurd h7 hne
    · exact absurd h7 hne

end Verif.Refresh
