import Verif.SyncCache.Finish
/-!
# Fair schedulers (C173)

Executions without end, in which new calls may be made for ever. The callbacks and the functions given to `Range` come to an end.
A call of the map is one step, as in `Model.lean`; for the steps of the map itself see C171.
-/
namespace Verif.SyncCache
variable {K V : Type} [DecidableEq K]

/-! ## Specification -/

/-- An execution without end: contents of the map so far, and state, before the `n`-th step; the thread that makes it; what happens in it. `tr` is what happened before. -/
structure Forever (c : Cfg V) (tr : List (Ev K V)) (f : Nat → List (Map K) × State K V) (who : Nat → Nat) (ev : Nat → Ev K V) : Prop where
  start : Exec c tr (f 0).1 (f 0).2
  step : ∀ n, ∃ inp, step c (f n).1 (f n).2 (who n) inp = some ((f (n + 1)).2, ev n)
  hist : ∀ n, (f (n + 1)).1 = (f n).1 ++ [(f (n + 1)).2.m]

/-- Every goroutine has its turns: a thread that stays in a call makes a step again. (No call waits for another one, C89.) -/
def Fair (f : Nat → List (Map K) × State K V) (who : Nat → Nat) : Prop :=
  ∀ i N, (∀ n, N ≤ n → (f n).2.pc i ≠ .idle) → ∃ n, N ≤ n ∧ who n = i

variable {c : Cfg V} {tr : List (Ev K V)} {hist : List (Map K)} {s s' : State K V} {e : Ev K V} {i j n m N : Nat} {k : K} {a : Nat} {op : Op K V} {r : Res V}
  {f : Nat → List (Map K) × State K V} {who : Nat → Nat} {ev : Nat → Ev K V}

/-! ## Steps -/

/-- The key of the `LoadOrStore` that the thread is in. -/
def losOf : PC K V → Option K
  | .losMk k _ _ | .losTry k _ _ _ | .chk k _ (.los _ _) | .chkExp k _ _ (.los _ _) => some k
  | .cad _ _ (.los k _ _ _) | .cbCall _ (.los k _ _ _) | .cbRun (.los k _ _ _) => some k
  | _ => none

/-- What decreases with every step of a call, unless `LoadOrStore` takes an entry out of the map. -/
def height (p : PC K V) : Nat × Nat × Nat := left .init p

theorem Step.rank (h : Step c hist s i s' e) (hi : s.pc i ≠ .idle) :
    lt3 (height (s'.pc i)) (height (s.pc i)) ∨ ∃ k a, losOf (s.pc i) = some k ∧ e = .del i k a := by
  have next : ∀ {aft : After K V} {b : Bool}, (∀ k v d a, aft = .los k v d a → b = true) →
      lt3 (SyncCache.height (aft.next b)) (SyncCache.height (.cbRun aft)) := by
    intro aft b h
    rcases aft with _ | _ | _ | _ | ⟨k, v, d, a⟩ | _ | _ | _ | _
    case los => rw [h k v d a rfl]; exact .x3 (by omega)
    all_goals (cases b <;> exact .x3 (by decide))
  have run : ∀ {aft : After K V} {a : Nat}, lt3 (SyncCache.height (.cbRun aft)) (SyncCache.height (.cbCall a aft)) := by
    intro aft a
    rcases aft with _ | _ | _ | _ | ⟨k, v, d, a⟩ | _ | _ | _ | _ <;> exact .x3 (by omega)
  have tran : ∀ {x y z : Nat × Nat × Nat}, lt3 x y → lt3 y z → lt3 x z := by
    rintro ⟨x1, x2, x3⟩ ⟨y1, y2, y3⟩ ⟨z1, z2, z3⟩ h1 h2
    simp only [lt3, Prod.lex_def] at *
    omega
  have after : ∀ {aft : After K V} {a : Nat} {x : Nat × Nat × Nat},
      lt3 (SyncCache.height (.cbCall a aft)) x → lt3 (SyncCache.height (afterDel c a aft)) x := by
    intro aft a x hx
    unfold afterDel
    split
    · exact hx
    · exact tran (next (fun _ _ _ _ _ => rfl)) (tran (run (a := a)) hx)
  cases h
  case call op hpc => exact absurd hpc hi
  case ldSome k x a hpc hm => rw [State.go_pc, hpc]; cases x <;> exact .inl (.x3 (by decide))
  case chk k a st now hpc => rw [State.go_pc, hpc]; cases st <;> exact .inl (.x3 (by simp))
  case chkNone k a now st hpc hx =>
    rw [State.go_pc, hpc]
    cases st
    case range it => exact .inl (.x23 (Nat.zero_le _) (by decide))
    all_goals exact .inl (.x3 (by omega))
  case chkDead k a now st x hpc hx hd =>
    rw [State.go_pc, hpc]
    cases st
    case lad => exact .inl (after (.x3 (by decide)))
    all_goals (simp only [SyncCache.height, SyncCache.left, Site.dead, if_true]; exact .inl (.x3 (by omega)))
  case chkLive k a now st x hpc hx hd =>
    rw [State.go_pc, hpc]
    cases st
    case lad => exact .inl (after (.x3 (by decide)))
    all_goals exact .inl (.x3 (by omega))
  case losMk hpc => rw [State.go_pc, hpc]; exact .inl (.x3 (by omega))
  case losPut hpc _ => rw [State.go_pc, hpc]; exact .inl (.x3 (by omega))
  case losGet hpc _ => rw [State.go_pc, hpc]; exact .inl (.x3 (by omega))
  case delSome hpc _ => rw [State.go_pc, hpc]; exact .inl (after (.x3 (by decide)))
  case cadDel k a aft hpc hm =>
    rw [State.go_pc, hpc]
    rcases aft with _ | _ | _ | _ | ⟨k', v, d, a'⟩ | _ | _ | _ | _
    case los =>
      by_cases hk : k' = k
      · subst hk; exact .inr ⟨k', a, rfl, rfl⟩
      · refine .inl (after ?_)
        simp only [SyncCache.height, SyncCache.left, if_neg hk]
        exact .x1 (by decide)
    all_goals exact .inl (after (.x3 (by decide)))
  case cadFail k a aft hpc hm =>
    rw [State.go_pc, hpc]
    rcases aft with _ | _ | _ | _ | ⟨k', v, d, a'⟩ | _ | _ | _ | _
    case los =>
      simp only [SyncCache.height, SyncCache.left, After.next]
      split
      · exact .inl (.x3 (by omega))
      · exact .inl (.x1 (by decide))
    all_goals exact .inl (.x3 (by decide))
  case cbNone a aft hpc hx =>
    rw [State.go_pc, hpc]
    rcases aft with _ | _ | _ | _ | ⟨k', v, d, a'⟩ | _ | _ | _ | _ <;> exact .inl (.x23 (Nat.zero_le _) (by omega))
  case cbCall a aft x hpc hx => rw [State.go_pc, hpc]; exact .inl run
  case cbOk aft hpc => rw [State.go_pc, hpc]; exact .inl (next (fun _ _ _ _ _ => rfl))
  case cbPanic aft hpc =>
    rw [State.go_pc, hpc]
    rcases aft with _ | _ | _ | _ | ⟨k', v, d, a'⟩ | _ | _ | _ | _ <;> exact .inl (.x23 (Nat.zero_le _) (by omega))
  case snap hpc _ _ => rw [State.go_pc, hpc]; exact .inl (.x1 (by decide))
  case clrWipe hpc _ => rw [State.go_pc, hpc]; exact .inl (.x1 (by decide))
  case tkOff hpc _ => rw [State.go_pc, hpc]; exact .inl (.x1 (by decide))
  case iterEnd hpc => rw [State.go_pc, hpc]; exact .inl (.x3 (by decide))
  case iterNone hpc _ _ _ => rw [State.go_pc, hpc]; exact .inl (.x2 (by simp))
  case iterSome hpc _ _ _ => rw [State.go_pc, hpc]; unfold Iter.visit; split <;> exact .inl (.x2 (by simp))
  case tNone hpc _ => rw [State.go_pc, hpc]; exact .inl (.x23 (Nat.zero_le _) (by decide))
  case fPanic hpc => rw [State.go_pc, hpc]; exact .inl (.x23 (Nat.zero_le _) (by decide))
  case fStop hpc => rw [State.go_pc, hpc]; exact .inl (.x23 (Nat.zero_le _) (by decide))
  all_goals
    rw [State.go_pc, (by assumption : s.pc i = _)]
    exact .inl (.x3 (by decide))

/-- A call stays what it is. -/
theorem Step.losOf (h : Step c hist s i s' e) (hi : s.pc i ≠ .idle) : losOf (s'.pc i) = losOf (s.pc i) ∨ ∃ r, s'.pc i = .done r ∨ s'.pc i = .idle := by
  have after : ∀ (aft : After K V) (a : Nat), SyncCache.losOf (aft.next true) = SyncCache.losOf (.cbCall a aft) ∧
      SyncCache.losOf (afterDel c a aft) = SyncCache.losOf (.cbCall a aft) := by
    intro aft a
    have h1 : SyncCache.losOf (aft.next true) = SyncCache.losOf (.cbCall a aft) := by
      rcases aft with _ | _ | _ | _ | ⟨k, v, d, a⟩ | _ | _ | _ | _ <;> rfl
    refine ⟨h1, ?_⟩
    unfold afterDel
    split
    · rfl
    · exact h1
  cases h
  case call op hpc => exact absurd hpc hi
  case ret r hpc => exact .inr ⟨r, .inr State.go_pc⟩
  case ldSome k x a hpc hm => rw [State.go_pc, hpc]; cases x <;> exact .inl rfl
  case chk k a st now hpc => rw [State.go_pc, hpc]; cases st <;> exact .inl rfl
  case chkDead k a now st x hpc hx hd =>
    rw [State.go_pc, hpc]
    cases st
    case lad => exact .inl (after _ a).2
    all_goals exact .inl rfl
  case chkLive k a now st x hpc hx hd =>
    rw [State.go_pc, hpc]
    cases st
    case lad => exact .inl (after _ a).2
    case los => exact .inr ⟨_, .inl rfl⟩
    all_goals exact .inl rfl
  case delSome a hpc _ => rw [State.go_pc, hpc]; exact .inl (after _ a).2
  case cadDel k a aft hpc hm =>
    rw [State.go_pc, hpc]
    refine .inl ((after _ a).2.trans ?_)
    rcases aft with _ | _ | _ | _ | ⟨k', v, d, a'⟩ | _ | _ | _ | _ <;> rfl
  case cadFail k a aft hpc hm =>
    rw [State.go_pc, hpc]
    rcases aft with _ | _ | _ | _ | ⟨k', v, d, a'⟩ | _ | _ | _ | _
    case los => exact .inr ⟨_, .inl rfl⟩
    all_goals exact .inl rfl
  case cbCall a aft x hpc hx =>
    rw [State.go_pc, hpc]
    rcases aft with _ | _ | _ | _ | ⟨k', v, d, a'⟩ | _ | _ | _ | _ <;> exact .inl rfl
  case cbOk aft hpc =>
    rw [State.go_pc, hpc]
    refine .inl ((after _ 0).1.trans ?_)
    rcases aft with _ | _ | _ | _ | ⟨k', v, d, a'⟩ | _ | _ | _ | _ <;> rfl
  case iterSome hpc _ _ _ => rw [State.go_pc, hpc]; unfold Iter.visit; split <;> exact .inl rfl
  all_goals
    rw [State.go_pc, (by assumption : s.pc i = _)]
    first
    | exact .inl rfl
    | exact .inr ⟨_, .inl rfl⟩

omit [DecidableEq K] in
theorem enter_losOf (h : losOf (enter op) = some k) : ∃ v d, op = .loadOrStore k v d := by
  cases op <;> simp [enter, losOf] at h
  subst h; exact ⟨_, _, rfl⟩

omit [DecidableEq K] in
theorem enter_ne_idle : enter op ≠ (.idle : PC K V) := by cases op <;> simp [enter]

/-- What a step does to the entry of a key. -/
theorem Step.entry (h : Step c hist s i s' e) (k : K) :
    s'.m.get k = s.m.get k ∨ s'.m.get k = none ∨ ∃ a, e = .put i k a ∧ s'.m.get k = some a ∧ ∃ r, s'.pc i = .done r := by
  have er : ∀ {k'}, (s.m.erase k').get k = s.m.get k ∨ (s.m.erase k').get k = none ∨ ∃ a, e = .put i k a ∧ (s.m.erase k').get k = some a ∧ ∃ r, s'.pc i = .done r := by
    intro k'
    rw [Map.get_erase]
    split
    · exact .inr (.inl rfl)
    · exact .inl rfl
  cases h
  case stPut k' a hpc =>
    by_cases hk : k' = k
    · subst hk; exact .inr (.inr ⟨a, rfl, by simp [State.go, Map.get_set], _, State.go_pc⟩)
    · exact .inl (by simp [State.go, Map.get_set, hk])
  case losPut k' v d a hpc hm =>
    by_cases hk : k' = k
    · subst hk; exact .inr (.inr ⟨a, rfl, by simp [State.go, Map.get_set], _, State.go_pc⟩)
    · exact .inl (by simp [State.go, Map.get_set, hk])
  case delSome => exact er
  case ladSome => exact er
  case cadDel => exact er
  case clrWipe => exact .inr (.inl rfl)
  all_goals exact .inl rfl

/-- A removal. -/
theorem Step.del_was (h : Step c hist s i s' (.del j k a)) : s.m.get k = some a ∧ s'.m.get k = none := by
  cases h <;> exact ⟨by assumption, by simp [State.go, Map.get_erase]⟩

theorem Step.call_pc (h : Step c hist s i s' (.call j op)) : j = i ∧ s'.pc i = enter op := by
  cases h; exact ⟨rfl, State.go_pc⟩

theorem Step.to_idle (h : Step c hist s i s' e) (hi : s'.pc i = .idle) : ∃ r, e = .ret i r := by
  have h1 : ∀ (aft : After K V) (b : Bool), aft.next b ≠ .idle := by
    intro aft b; rcases aft with _ | _ | _ | _ | ⟨k', v, d, a'⟩ | _ | _ | _ | _ <;> cases b <;> simp [After.next]
  have h2 : ∀ (aft : After K V) (a : Nat), afterDel c a aft ≠ .idle := by
    intro aft a; unfold afterDel; split
    · simp
    · exact h1 _ _
  have h3 : ∀ (st : Site K V) (k : K) (a : Nat), st.dead c k a ≠ .idle ∧ st.live c k a ≠ .idle := by
    intro st k a; cases st <;> simp [Site.dead, Site.live, h2]
  cases h
  case ret r _ => exact ⟨r, rfl⟩
  case call => rw [State.go_pc] at hi; exact absurd hi enter_ne_idle
  case iterSome => rw [State.go_pc] at hi; unfold Iter.visit at hi; split at hi <;> cases hi
  all_goals
    rw [State.go_pc] at hi
    first
    | cases hi
    | exact absurd hi (h1 _ _)
    | exact absurd hi (h2 _ _)
    | exact absurd hi (h3 _ _ _).1
    | exact absurd hi (h3 _ _ _).2

theorem Step.from_done (h : Step c hist s i s' e) (hi : s.pc i = .done r) : s'.pc i = .idle := by
  cases h <;> first | exact State.go_pc | simp_all

/-! ## Executions without end -/

theorem Forever.at (hf : Forever c tr f who ev) (n : Nat) : Step c (f n).1 (f n).2 (who n) (f (n + 1)).2 (ev n) := by
  obtain ⟨inp, h⟩ := hf.step n
  exact step_Step h

/-- A call that stays in progress never comes to its last step. -/
theorem Forever.not_done (hf : Forever c tr f who ev) (hfair : Fair f who) (hi : ∀ n, N ≤ n → (f n).2.pc i ≠ .idle) (hn : N ≤ n) : (f n).2.pc i ≠ .done r := by
  intro hd
  have stay : ∀ d, (f (n + d)).2.pc i = .done r := by
    intro d
    induction d with
    | zero => exact hd
    | succ d ih =>
      by_cases hw : who (n + d) = i
      · have h := hf.at (n + d)
        rw [hw] at h
        exact absurd (h.from_done ih) (hi _ (by omega))
      · have := (hf.at (n + d)).other (Ne.symm hw)
        exact this.trans ih
  obtain ⟨m, hm, hw⟩ := hfair i n (fun m hm => hi m (by omega))
  obtain ⟨d, rfl⟩ := Nat.exists_eq_add_of_le hm
  have h := hf.at (n + d)
  rw [hw] at h
  exact hi (n + d + 1) (by omega) (h.from_done (stay d))

theorem Forever.losOf (hf : Forever c tr f who ev) (hfair : Fair f who) (hi : ∀ n, N ≤ n → (f n).2.pc i ≠ .idle) (d : Nat) :
    SyncCache.losOf ((f (N + d)).2.pc i) = SyncCache.losOf ((f N).2.pc i) := by
  induction d with
  | zero => rfl
  | succ d ih =>
    rw [← ih, ← Nat.add_assoc]
    by_cases hw : who (N + d) = i
    · have h := hf.at (N + d)
      rw [hw] at h
      rcases h.losOf (hi _ (by omega)) with h1 | ⟨r, h1 | h1⟩
      · exact h1
      · exact absurd h1 (hf.not_done hfair hi (by omega))
      · exact absurd h1 (hi _ (by omega))
    · rw [(hf.at (N + d)).other (Ne.symm hw)]

/-- A call that stays in progress takes entries out of the map, as `LoadOrStore`, again and again. -/
theorem Forever.dels (hf : Forever c tr f who ev) (hfair : Fair f who) : ∀ (x : Nat × Nat × Nat) (N : Nat), height ((f N).2.pc i) = x →
    (∀ n, N ≤ n → (f n).2.pc i ≠ .idle) → ∃ n k a, N ≤ n ∧ SyncCache.losOf ((f n).2.pc i) = some k ∧ ev n = .del i k a := by
  intro x
  induction x using lt3_wf.induction with
  | h x ih =>
    rintro N rfl hi
    have first : ∀ d, (∃ m, m < d ∧ who (N + m) = i) → ∃ m, who (N + m) = i ∧ ∀ m', m' < m → who (N + m') ≠ i := by
      intro d
      induction d with
      | zero => rintro ⟨m, hm, _⟩; omega
      | succ d ihd =>
        rintro ⟨m, hm, hw⟩
        by_cases hc : ∃ m, m < d ∧ who (N + m) = i
        · exact ihd hc
        · exact ⟨m, hw, fun m' hm' hw' => hc ⟨m', by omega, hw'⟩⟩
    obtain ⟨m0, hm0, hw0⟩ := hfair i N hi
    obtain ⟨d0, rfl⟩ := Nat.exists_eq_add_of_le hm0
    obtain ⟨d, hw, hno⟩ := first (d0 + 1) ⟨d0, by omega, hw0⟩
    have same : ∀ d', d' ≤ d → (f (N + d')).2.pc i = (f N).2.pc i := by
      intro d'
      induction d' with
      | zero => intro _; rfl
      | succ d' ihd =>
        intro hd'
        rw [← ihd (by omega)]
        exact (hf.at (N + d')).other (Ne.symm (hno d' (by omega)))
    have h := hf.at (N + d)
    rw [hw] at h
    rcases h.rank (hi _ (by omega)) with h1 | ⟨k, a, h1, h2⟩
    · rw [same d (Nat.le_refl _)] at h1
      obtain ⟨n, k, a, h3, h4⟩ := ih _ h1 (N + d + 1) rfl fun n hn => hi n (by omega)
      exact ⟨n, k, a, by omega, h4⟩
    · exact ⟨N + d, k, a, by omega, h1, h2⟩

/-- A key that had no entry, and has one, was stored in between. -/
theorem Forever.stored (hf : Forever c tr f who ev) (h0 : (f N).2.m.get k = none) (d : Nat) (h1 : (f (N + d)).2.m.get k = some a) :
    ∃ n j, N ≤ n ∧ n < N + d ∧ ev n = .put j k a ∧ who n = j ∧ ∃ r, (f (n + 1)).2.pc j = .done r := by
  induction d with
  | zero => rw [Nat.add_zero, h0] at h1; cases h1
  | succ d ih =>
    rw [← Nat.add_assoc] at h1
    rcases (hf.at (N + d)).entry k with h2 | h2 | ⟨b, h2, h3, h4⟩
    · obtain ⟨n, j, h3, h4, h5⟩ := ih (h2 ▸ h1)
      exact ⟨n, j, h3, by omega, h5⟩
    · rw [h1] at h2; cases h2
    · rw [h1] at h3; cases h3
      exact ⟨N + d, _, by omega, by omega, h2, rfl, h4⟩

/-- A call that does not return. -/
theorem Forever.stays (hf : Forever c tr f who ev) (hn : ev n = .call i op) (hno : ∀ m r, n < m → ev m ≠ .ret i r) :
    (f (n + 1)).2.pc i = enter op ∧ ∀ m, n + 1 ≤ m → (f m).2.pc i ≠ .idle := by
  have h := hf.at n
  rw [hn] at h
  obtain ⟨h1, h2⟩ := h.call_pc
  rw [← h1] at h2
  refine ⟨h2, fun m hm => ?_⟩
  obtain ⟨d, rfl⟩ := Nat.exists_eq_add_of_le hm
  induction d with
  | zero => rw [Nat.add_zero, h2]; exact enter_ne_idle
  | succ d ih =>
    intro hc
    by_cases hw : who (n + 1 + d) = i
    · have h := hf.at (n + 1 + d)
      rw [hw] at h
      obtain ⟨r, hr⟩ := h.to_idle hc
      exact hno _ r (by omega) hr
    · rw [← Nat.add_assoc, (hf.at (n + 1 + d)).other (Ne.symm hw)] at hc
      exact ih (by omega) hc

/-- **C173**. Full statement: under a fair scheduler every call returns; false, see `C173_false`. What is true: a call that does not return is a `LoadOrStore`, and again and again another call stores an entry for its key, which
it then finds expired and takes out. So all other calls return, however many are made, and `LoadOrStore` does unless others store its key for ever. -/
theorem C173_partial (hf : Forever c tr f who ev) (hfair : Fair f who) (hn : ev n = .call i op) (hno : ∀ m r, n < m → ev m ≠ .ret i r) :
    ∃ k v d, op = .loadOrStore k v d ∧ ∀ N, ∃ p q j a, N ≤ p ∧ p < q ∧ j ≠ i ∧ ev p = .put j k a ∧ ev q = .del i k a := by
  obtain ⟨hpc, hi⟩ := hf.stays hn hno
  obtain ⟨n0, k, a0, h1, h2, h3⟩ := hf.dels hfair _ (n + 1) rfl hi
  have hl : ∀ m, n + 1 ≤ m → SyncCache.losOf ((f m).2.pc i) = SyncCache.losOf (enter op) := by
    intro m hm
    obtain ⟨d, rfl⟩ := Nat.exists_eq_add_of_le hm
    rw [hf.losOf hfair hi d, hpc]
  obtain ⟨v, d, rfl⟩ := enter_losOf ((hl n0 h1).symm.trans h2)
  refine ⟨k, v, d, rfl, fun N => ?_⟩
  have del : ∀ N, ∃ q a, N ≤ q ∧ n + 1 ≤ q ∧ ev q = .del i k a := by
    intro N
    obtain ⟨q, k', a, h4, h5, h6⟩ := hf.dels hfair _ (max N (n + 1)) rfl fun m hm => hi m (by omega)
    rw [hl q (by omega)] at h5
    cases h5
    exact ⟨q, a, by omega, by omega, h6⟩
  obtain ⟨q1, a1, h4, h5, h6⟩ := del N
  obtain ⟨q2, a2, h7, h8, h9⟩ := del (q1 + 1)
  have s1 := hf.at q1
  rw [h6] at s1
  have s2 := hf.at q2
  rw [h9] at s2
  obtain ⟨d', rfl⟩ := Nat.exists_eq_add_of_le h7
  obtain ⟨p, j, g1, g2, g3, g4, r, g5⟩ := hf.stored s1.del_was.2 d' s2.del_was.1
  refine ⟨p, _, j, a2, by omega, g2, ?_, g3, h9⟩
  rintro rfl
  exact hf.not_done hfair hi (by omega) g5

/-- **C173**: under a fair scheduler every call but `LoadOrStore` returns. -/
theorem C173_others_partial (hf : Forever c tr f who ev) (hfair : Fair f who) (hn : ev n = .call i op) (hop : ∀ k v d, op ≠ .loadOrStore k v d) :
    ∃ m r, n < m ∧ ev m = .ret i r := by
  by_contra hno
  obtain ⟨k, v, d, h, _⟩ := C173_partial hf hfair hn fun m r hm he => hno ⟨m, r, hm, he⟩
  exact hop k v d h

/-- **C173**: under a fair scheduler a `LoadOrStore` returns, unless others store its key again and again. -/
theorem C173_quiet_partial {v : V} {d : Int} (hf : Forever c tr f who ev) (hfair : Fair f who) (hn : ev n = .call i (.loadOrStore k v d))
    (hq : ∀ m j a, N ≤ m → j ≠ i → ev m ≠ .put j k a) : ∃ m r, n < m ∧ ev m = .ret i r := by
  by_contra hno
  obtain ⟨k, v, d, h, h'⟩ := C173_partial hf hfair hn fun m r hm he => hno ⟨m, r, hm, he⟩
  cases h
  obtain ⟨p, q, j, a, h1, _, h3, h4, _⟩ := h' N
  exact hq p j a h1 h3 h4

/-! ## A run without end -/

namespace Storm

def pcs (p q : PC Nat Nat) (j : Nat) : PC Nat Nat := if j = 0 then p else if j = 1 then q else .idle

/-- Thread 0 is in `LoadOrStore`, thread 1 stores an entry that expires at once again and again; one round has nine steps. -/
def st (t k : Nat) : State Nat Nat :=
  let at_ (l : Nat) (m : Map Nat) (p q : PC Nat Nat) : State Nat Nat :=
    { m := m, ents := List.replicate l (7, 100), reg := false, pc := pcs p q }
  match k with
  | 0 => at_ (2 * t) [] (.losMk 1 7 0) .idle
  | 1 => at_ (2 * t) [] (.losMk 1 7 0) (.stMk 1 7 0)
  | 2 => at_ (2 * t + 1) [] (.losMk 1 7 0) (.stPut 1 (2 * t))
  | 3 => at_ (2 * t + 1) [(1, 2 * t)] (.losMk 1 7 0) (.done .unit)
  | 4 => at_ (2 * t + 1) [(1, 2 * t)] (.losMk 1 7 0) .idle
  | 5 => at_ (2 * t + 2) [(1, 2 * t)] (.losTry 1 7 0 (2 * t + 1)) .idle
  | 6 => at_ (2 * t + 2) [(1, 2 * t)] (.chk 1 (2 * t) (.los 7 0)) .idle
  | 7 => at_ (2 * t + 2) [(1, 2 * t)] (.chkExp 1 (2 * t) 101000000 (.los 7 0)) .idle
  | _ => at_ (2 * t + 2) [(1, 2 * t)] (.cad 1 (2 * t) (.los 1 7 0 (2 * t))) .idle

def turn (k : Nat) : Nat := if k < 4 then 1 else 0

def inp : Nat → In Nat Nat
  | 0 => .call (.store 1 7 0)
  | 1 => .time 100000000
  | 4 => .time 100000000
  | 6 => .time 101000000
  | _ => .go

def evs (t : Nat) : Nat → Ev Nat Nat
  | 0 => .call 1 (.store 1 7 0)
  | 1 => .mk 1 (2 * t) 7 100000000 0
  | 2 => .put 1 1 (2 * t)
  | 3 => .ret 1 .unit
  | 4 => .mk 0 (2 * t + 1) 7 100000000 0
  | 5 => .tau 0
  | 6 => .clock 0 101000000
  | 7 => .seen 0 (2 * t)
  | _ => .del 0 1 (2 * t)

theorem pcs0 (p q : PC Nat Nat) : pcs p q 0 = p := rfl
theorem pcs1 (p q : PC Nat Nat) : pcs p q 1 = q := rfl

theorem upd0 (p p' q : PC Nat Nat) : Function.update (pcs p q) 0 p' = pcs p' q := by
  funext j
  by_cases h : j = 0
  · subst h; simp [pcs]
  · rw [Function.update_of_ne h]; simp [h, pcs]

theorem upd1 (p q q' : PC Nat Nat) : Function.update (pcs p q) 1 q' = pcs p q' := by
  funext j
  by_cases h : j = 1
  · subst h; simp [pcs]
  · rw [Function.update_of_ne h]; simp [h, pcs]

theorem round (hist : List (Map Nat)) (t k : Nat) (hk : k < 9) :
    step (cfg false) hist (st t k) (turn k) (inp k) = some (if k = 8 then st (t + 1) 0 else st t (k + 1), evs t k) := by
  have : k = 0 ∨ k = 1 ∨ k = 2 ∨ k = 3 ∨ k = 4 ∨ k = 5 ∨ k = 6 ∨ k = 7 ∨ k = 8 := by omega
  have rep : ∀ l, List.replicate l ((7 : Nat), (100 : Int)) ++ [(7, ms 100000000)] = List.replicate (l + 1) (7, 100) := by
    intro l; rw [List.replicate_succ']; rfl
  have get : (List.replicate (2 * t + 2) ((7 : Nat), (100 : Int)))[2 * t]? = some (7, 100) := by simp
  have ex : ms 101000000 > 100 := by decide
  rcases this with rfl | rfl | rfl | rfl | rfl | rfl | rfl | rfl | rfl
  · simp [step, st, turn, inp, evs, State.go, pcs1, upd1, enter]
  · simp [step, st, turn, inp, evs, State.go, pcs1, upd1, State.mk_, rep]
  · simp [step, st, turn, inp, evs, State.go, pcs1, upd1, Map.set, Map.erase]
  · simp [step, st, turn, inp, evs, State.go, pcs1, upd1]
  · simp [step, st, turn, inp, evs, State.go, pcs0, upd0, State.mk_, rep]
  · simp [step, st, turn, inp, evs, State.go, pcs0, upd0, Map.get]
  · simp [step, st, turn, inp, evs, State.go, pcs0, upd0]
  · simp [step, st, turn, inp, evs, State.go, pcs0, upd0, ex, Site.dead]
  · simp [step, st, turn, inp, evs, State.go, pcs0, upd0, Map.get, Map.erase, afterDel, cfg, After.next, Nat.mul_add]

def past : Nat → List (Map Nat)
  | 0 => [[], []]
  | n + 1 => past n ++ [(st ((n + 1) / 9) ((n + 1) % 9)).m]

/-- The run. -/
def run (n : Nat) : List (Map Nat) × State Nat Nat := (past n, st (n / 9) (n % 9))

theorem start : Exec (cfg false) [.call 0 (.loadOrStore 1 7 0)] (run 0).1 (run 0).2 := by
  have h := (Exec.nil (c := cfg false)).snoc (i := 0) (inp := .call (.loadOrStore 1 7 0)) (e := .call 0 (.loadOrStore 1 7 0)) (s' := st 0 0) (by
    simp only [step, State.init, State.go, st, enter]
    congr 2
    congr 1
    funext j
    simp only [pcs]
    by_cases h : j = 0
    · subst h; simp
    · rw [Function.update_of_ne h]; simp [h])
  exact h

theorem forever : Forever (cfg false) [.call 0 (.loadOrStore 1 7 0)] run (fun n => turn (n % 9)) (fun n => evs (n / 9) (n % 9)) where
  start := start
  step n := by
    refine ⟨inp (n % 9), ?_⟩
    rw [show (run n).2 = st (n / 9) (n % 9) from rfl, round _ _ _ (Nat.mod_lt _ (by omega))]
    congr 2
    show _ = st ((n + 1) / 9) ((n + 1) % 9)
    split
    · rw [show (n + 1) / 9 = n / 9 + 1 by omega, show (n + 1) % 9 = 0 by omega]
    · rw [show (n + 1) / 9 = n / 9 by omega, show (n + 1) % 9 = n % 9 + 1 by omega]
  hist n := rfl

theorem fair : Fair run (fun n => turn (n % 9)) := by
  intro i N hi
  by_cases h0 : i = 0
  · subst h0; exact ⟨9 * N + 5, by omega, by simp only [show (9 * N + 5) % 9 = 5 by omega]; rfl⟩
  · by_cases h1 : i = 1
    · subst h1; exact ⟨9 * N, by omega, by simp only [show (9 * N) % 9 = 0 by omega]; rfl⟩
    · exfalso
      refine hi N (Nat.le_refl _) ?_
      simp only [run]
      unfold st; simp only
      split <;> simp [pcs, h0, h1]

theorem zero (t k : Nat) : (st t k).pc 0 ≠ .idle := by
  unfold st; simp only; split <;> simp [pcs]

end Storm

/-- **C173** is false of `LoadOrStore`: while another thread makes one call of `Store` after the other, whose entries expire at once, a `LoadOrStore` of the same key may go on
for ever though every thread has its turns. It finds each of the entries expired, takes it out, and finds the next one. -/
theorem C173_false : ∃ (f : Nat → List (Map Nat) × State Nat Nat) (who : Nat → Nat) (ev : Nat → Ev Nat Nat),
    Forever (cfg false) [.call 0 (.loadOrStore 1 7 0)] f who ev ∧ Fair f who ∧ (∀ n, (f n).2.pc 0 ≠ .idle) ∧ (∀ n r, ev n ≠ .ret 0 r) ∧
    ∀ N, ∃ n, N ≤ n ∧ ev n = .ret 1 .unit := by
  refine ⟨_, _, _, Storm.forever, Storm.fair, fun n => Storm.zero _ _, fun n r => ?_, fun N => ⟨9 * N + 3, by omega, ?_⟩⟩
  · simp only [Storm.evs]; split <;> simp
  · simp only [show (9 * N + 3) % 9 = 3 by omega]; rfl

/-- In this run each call of `Store` returns. -/
example (t : Nat) : ∃ m r, 9 * t < m ∧ Storm.evs (m / 9) (m % 9) = .ret 1 r :=
  C173_others_partial (op := .store 1 7 0) Storm.forever Storm.fair (by simp only [show (9 * t) % 9 = 0 by omega]; rfl) nofun

end Verif.SyncCache
