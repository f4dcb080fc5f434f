import Verif.Refresh.Model
/-!
# Facts about growing traces
-/
namespace Verif.Refresh
variable {T E F A : Type}

theorem get_snoc {α : Type} {l : List α} {a x : α} {k : Nat} :
    (l ++ [a])[k]? = some x ↔ l[k]? = some x ∨ (k = l.length ∧ x = a) := by
  rcases Nat.lt_trichotomy k l.length with h | h | h
  · rw [List.getElem?_append_left h]
    constructor
    · exact .inl
    · rintro (h' | h')
      · exact h'
      · omega
  · subst h
    rw [List.getElem?_append_right (Nat.le_refl _)]
    simp
    exact eq_comm
  · rw [List.getElem?_eq_none (by simp; omega), List.getElem?_eq_none (l := l) (by omega)]
    simp; omega

theorem get_lt {α : Type} {l : List α} {x : α} {k : Nat} (h : l[k]? = some x) : k < l.length :=
  (List.getElem?_eq_some_iff.1 h).1

theorem get_keep {α : Type} {l : List α} {a x : α} {k : Nat} (h : l[k]? = some x) : (l ++ [a])[k]? = some x :=
  get_snoc.2 (.inl h)

theorem get_new {α : Type} {l : List α} {a : α} : (l ++ [a])[l.length]? = some a := get_snoc.2 (.inr ⟨rfl, rfl⟩)

/-- A call. -/
def Ev.isCall : Ev T E F A → Prop
  | .call _ _ => True
  | _ => False
def Ev.isLocked : Ev T E F A → Prop
  | .locked _ => True
  | _ => False
def Ev.isStart : Ev T E F A → Prop
  | .start _ _ _ _ => True
  | _ => False
def Ev.isFinish : Ev T E F A → Prop
  | .finish _ _ => True
  | _ => False
def Ev.isClock : Ev T E F A → Prop
  | .clock _ _ => True
  | _ => False
/-- Neither an internal step nor a reading of the clock. -/
def Ev.isLoud : Ev T E F A → Prop
  | .tau _ => False
  | .clock _ _ => False
  | _ => True

/-- `tr'` is `tr` and later events; those of thread `i` satisfy `P`. -/
structure Ext (tr tr' : List (Ev T E F A)) (i : Nat) (P : Ev T E F A → Prop) : Prop where
  keep : ∀ (k : Nat) (e : Ev T E F A), tr[k]? = some e → tr'[k]? = some e
  new : ∀ (k : Nat) (e : Ev T E F A), tr'[k]? = some e → tr[k]? = some e ∨ (tr.length ≤ k ∧ (e.tid = i → P e))

theorem Ext.snoc {tr : List (Ev T E F A)} {e : Ev T E F A} {i : Nat} {P : Ev T E F A → Prop} (h : e.tid = i → P e) :
    Ext tr (tr ++ [e]) i P := by
  refine ⟨fun k e => get_keep, ?_⟩
  intro k e' he
  rcases get_snoc.1 he with h' | ⟨h', h''⟩
  · exact .inl h'
  · subst h''; exact .inr ⟨by omega, h⟩

/-- After `p` no event of `i` satisfies `Q`. -/
def Never (tr : List (Ev T E F A)) (i p : Nat) (Q : Ev T E F A → Prop) : Prop :=
  ∀ k e, p < k → tr[k]? = some e → e.tid = i → ¬ Q e

/-- After `p`, an event of `i` satisfying `Q` is at `k`. -/
def OnlyAt (tr : List (Ev T E F A)) (i p : Nat) (Q : Ev T E F A → Prop) (k : Nat) : Prop :=
  ∀ j e, p < j → tr[j]? = some e → e.tid = i → Q e → j = k

variable {tr tr' : List (Ev T E F A)} {i : Nat} {P Q : Ev T E F A → Prop}

theorem Never.ext {p : Nat} (h : Never tr i p Q) (hx : Ext tr tr' i P) (hPQ : ∀ e, P e → ¬ Q e) : Never tr' i p Q := by
  intro k e hk he hi hq
  rcases hx.new k e he with h' | ⟨_, h'⟩
  · exact h k e hk h' hi hq
  · exact hPQ e (h' hi) hq

theorem OnlyAt.ext {p k : Nat} (h : OnlyAt tr i p Q k) (hx : Ext tr tr' i P) (hPQ : ∀ e, P e → ¬ Q e) :
    OnlyAt tr' i p Q k := by
  intro j e hk he hi hq
  rcases hx.new j e he with h' | ⟨_, h'⟩
  · exact h j e hk h' hi hq
  · exact absurd hq (hPQ e (h' hi))

theorem Never.only {p k : Nat} (h : Never tr i p Q) : OnlyAt tr i p Q k := fun j e hj he hi hq => absurd hq (h j e hj he hi)

/-- Nothing yet after the end of the trace. -/
theorem Never.fresh {e : Ev T E F A} : Never (tr ++ [e]) i tr.length Q := by
  intro k e' hk he
  have := get_lt he
  rw [List.length_append, List.length_singleton] at this
  omega

/-- If the new event satisfies `Q` for the first time. -/
theorem OnlyAt.fresh {p : Nat} {e : Ev T E F A} (h : Never tr i p Q) : OnlyAt (tr ++ [e]) i p Q tr.length := by
  intro j e' hj he hi hq
  rcases get_snoc.1 he with h' | ⟨h', _⟩
  · exact absurd hq (h j e' hj h' hi)
  · exact h'

theorem Stamp.ext {n m : Nat} {t : Int} (h : Stamp tr i n m t) {e : Ev T E F A} : Stamp (tr ++ [e]) i n m t := by
  refine ⟨h.lt, get_keep h.at_, ?_⟩
  intro k t' h1 h2 h3
  have := get_lt h.at_
  rcases get_snoc.1 h3 with h4 | h4
  · exact h.first k t' h1 h2 h4
  · omega

theorem Stamp.unique {n m m' : Nat} {t t' : Int} (h : Stamp tr i n m t) (h' : Stamp tr i n m' t') : m = m' ∧ t = t' := by
  have : m = m' := by
    rcases Nat.lt_trichotomy m m' with h1 | h1 | h1
    · exact absurd h.at_ (h'.first m t h.lt h1)
    · exact h1
    · exact absurd h'.at_ (h.first m' t' h'.lt h1)
  subst this
  have := h.at_
  rw [h'.at_] at this
  injection this with this
  injection this with _ this
  exact ⟨rfl, this.symm⟩

/-- The stamp taken by the new event. -/
theorem Stamp.fresh {n : Nat} {t : Int} (hn : n < tr.length) (h : Never tr i n Ev.isClock) :
    Stamp (tr ++ [.clock i t]) i n tr.length t := by
  refine ⟨hn, get_new, ?_⟩
  intro k t' h1 h2 h3
  rcases get_snoc.1 h3 with h4 | h4
  · exact h k _ h1 h4 rfl trivial
  · omega

/-! ## Steps -/

variable {c : Cfg T} {rf : F} {s s' : State T E F A} {ss : List (State T E F A)} {e : Ev T E F A} {inp : In T E F A}

theorem step_tid (h : step c s i inp = some (s', e)) : e.tid = i := by
  cases hpc : s.pc i <;> cases inp <;> simp only [step, hpc, reduceCtorEq, Option.some.injEq, Prod.mk.injEq] at h
  all_goals first
    | (obtain ⟨_, rfl⟩ := h; rfl)
    | (split at h <;> first | (cases h; done) | (simp only [Option.some.injEq, Prod.mk.injEq] at h; obtain ⟨_, rfl⟩ := h; rfl))

theorem step_other (h : step c s i inp = some (s', e)) {j : Nat} (hj : j ≠ i) : s'.pc j = s.pc j := by
  cases hpc : s.pc i <;> cases inp <;> simp only [step, hpc, reduceCtorEq, Option.some.injEq, Prod.mk.injEq] at h
  all_goals first
    | (obtain ⟨rfl, _⟩ := h; simp [State.go, Function.update_of_ne hj])
    | (split at h <;> first | (cases h; done) | (simp only [Option.some.injEq, Prod.mk.injEq] at h; obtain ⟨rfl, _⟩ := h; simp [State.go, Function.update_of_ne hj]))

theorem Exec.len (h : Exec c rf tr ss s) : tr.length = ss.length := by
  induction h with
  | nil => rfl
  | snoc _ _ ih => simp [ih]

/-- The execution up to event `z`, and its step. -/
theorem Exec.at (h : Exec c rf tr ss s) {z : Nat} {e : Ev T E F A} (hz : tr[z]? = some e) :
    ∃ s0 inp s1, Exec c rf (tr.take z) (ss.take z) s0 ∧ step c s0 e.tid inp = some (s1, e) ∧ ss[z]? = some s1 := by
  induction h with
  | nil => simp at hz
  | snoc h1 h2 ih =>
    rename_i tr ss s i inp s' e'
    have hl := h1.len
    rcases get_snoc.1 hz with h3 | ⟨rfl, rfl⟩
    · have := get_lt h3
      obtain ⟨s0, inp0, s1, a, b, d⟩ := ih h3
      refine ⟨s0, inp0, s1, ?_, b, get_keep d⟩
      rw [List.take_append_of_le_length (by omega), List.take_append_of_le_length (by omega)]
      exact a
    · refine ⟨s, inp, s', ?_, ?_, ?_⟩
      · rw [List.take_left, hl, List.take_left]; exact h1
      · rw [step_tid h2]; exact h2
      · rw [hl]; exact get_new

/-- The execution up to and with event `q`. -/
theorem Exec.state (h : Exec c rf tr ss s) {q : Nat} {sq : State T E F A} (hq : ss[q]? = some sq) :
    Exec c rf (tr.take (q + 1)) (ss.take (q + 1)) sq := by
  have hl := h.len
  have hlt := get_lt hq
  have he : tr[q]? = some tr[q] := List.getElem?_eq_getElem (by omega)
  obtain ⟨s0, inp, s1, a, b, d⟩ := h.at he
  rw [hq] at d
  injection d with d
  subst d
  rw [List.take_add_one, he, List.take_add_one, hq]
  exact .snoc a b

theorem get_take {α : Type} {l : List α} {x : α} {z k : Nat} : (l.take z)[k]? = some x ↔ k < z ∧ l[k]? = some x := by
  rw [List.getElem?_take]
  split
  · next h => simp [h]
  · next h => simp [h]

/-! ## The lock -/

/-- Between acquiring and releasing the lock. -/
def PC.crit : PC T E F A → Prop
  | .lLast _ _ | .lNow _ _ | .lChk _ _ _ | .lCmp _ _ _ | .lData | .lErrNow _ _ | .lErrChk _ _ _ | .lErr
  | .old _ _ | .running | .wData _ _ | .wNow _ | .wLast _ _ | .wLastErr _ | .wErr _ _ | .wErrNow _ | .wErrLast _ _
  | .wErrClr _ | .unlock _ => True
  | _ => False

theorem entry_crit (op : Op F A) : ¬ (entry op : PC T E F A).crit := by
  cases op with
  | clear f a => cases f <;> exact fun h => h
  | _ => exact fun h => h
theorem gNext_crit {f : F} {a : A} : ¬ (gNext c f a : PC T E F A).crit := by
  unfold gNext; split <;> exact fun h => h
theorem lNext_crit {f : F} {a : A} : (lNext c f a : PC T E F A).crit := by
  unfold lNext; split <;> trivial
theorem rawNext_crit : ¬ (rawNext c : PC T E F A).crit := by
  unfold rawNext; split <;> exact fun h => h
theorem back_crit {o : Outcome T E} : (o.back c : PC T E F A).crit := by
  rcases o with ⟨v, _ | e⟩ | _ <;> trivial

/-- What a step does to the lock. -/
theorem step_lock (h : step c s i inp = some (s', e)) :
    (s'.lock = s.lock ∧ ((s'.pc i).crit ↔ (s.pc i).crit) ∧ ¬ e.isLocked ∧ ((e.isStart ∨ e.isFinish) → (s.pc i).crit)) ∨
    (s.lock = none ∧ s'.lock = some i ∧ (s'.pc i).crit ∧ e = .locked i) ∨
    ((s.pc i).crit ∧ s'.lock = none ∧ ¬ (s'.pc i).crit ∧ ¬ e.isLocked ∧ ¬ e.isStart ∧ ¬ e.isFinish) := by
  cases hpc : s.pc i <;> cases inp <;> simp only [step, hpc, reduceCtorEq, Option.some.injEq, Prod.mk.injEq] at h
  case gLock =>
    split at h
    · next hl =>
      simp only [Option.some.injEq, Prod.mk.injEq] at h; obtain ⟨rfl, rfl⟩ := h
      refine .inr (.inl ⟨hl, rfl, ?_, rfl⟩)
      simp only [State.go, Function.update_self]
      split <;> trivial
    · cases h
  case rLock =>
    split at h
    · next hl =>
      simp only [Option.some.injEq, Prod.mk.injEq] at h; obtain ⟨rfl, rfl⟩ := h
      refine .inr (.inl ⟨hl, rfl, ?_, rfl⟩)
      simp only [State.go, Function.update_self]
      trivial
    · cases h
  case unlock =>
    obtain ⟨rfl, rfl⟩ := h
    refine .inr (.inr ⟨trivial, rfl, ?_, fun h => h, fun h => h, fun h => h⟩)
    simp only [State.go, Function.update_self]
    exact fun h => h
  all_goals left
  all_goals first
    | (obtain ⟨rfl, rfl⟩ := h)
    | (split at h <;> first | (cases h; done) | (simp only [Option.some.injEq, Prod.mk.injEq] at h; obtain ⟨rfl, rfl⟩ := h))
  all_goals refine ⟨rfl, ?_, fun h => h, ?_⟩
  all_goals first
    | (simp only [State.go, Function.update_self]; first
        | exact Iff.rfl
        | exact iff_of_false (entry_crit _) (fun h => h)
        | exact iff_of_true back_crit trivial
        | (split <;> first | exact Iff.rfl | exact iff_of_false gNext_crit (fun h => h) | exact iff_of_true lNext_crit trivial | exact iff_of_false rawNext_crit (fun h => h)))
    | exact fun h => h.elim (fun h => h.elim) (fun h => h.elim)
    | exact fun _ => trivial

/-- The holder of the lock is the thread between acquiring and releasing it; after it acquired the lock
there are no events of others that need the lock. -/
structure LockInv (tr : List (Ev T E F A)) (s : State T E F A) : Prop where
  crit : ∀ i, s.lock = some i ↔ (s.pc i).crit
  excl : ∀ i, s.lock = some i → ∃ k : Nat, tr[k]? = some (.locked i) ∧
    ∀ (k' : Nat) (e : Ev T E F A), k < k' → tr[k']? = some e → ¬ e.isLocked ∧ ((e.isStart ∨ e.isFinish) → e.tid = i)

theorem Exec.lock (h : Exec c rf tr ss s) : LockInv tr s := by
  induction h with
  | nil => exact ⟨fun i => ⟨nofun, fun h => h.elim⟩, nofun⟩
  | snoc h1 h2 ih =>
    rename_i tr ss s i inp s' e
    have ho := fun j (hj : j ≠ i) => step_other h2 hj
    have ht := step_tid h2
    have hlen : ∀ {k e'}, tr[k]? = some e' → k < tr.length := get_lt
    rcases step_lock h2 with ⟨a, b, d, g⟩ | ⟨a, b, d, g⟩ | ⟨a, b, d, g1, g2, g3⟩
    · refine ⟨?_, ?_⟩
      · intro j
        rw [a, ih.crit j]
        by_cases hj : j = i
        · subst hj; exact b.symm
        · rw [ho j hj]
      · intro j hj
        rw [a] at hj
        obtain ⟨k, h3, h4⟩ := ih.excl j hj
        refine ⟨k, get_keep h3, ?_⟩
        intro k' e' hk he
        rcases get_snoc.1 he with h5 | ⟨h5, rfl⟩
        · exact h4 k' e' hk h5
        · refine ⟨d, fun h6 => ?_⟩
          have := (ih.crit i).2 (g h6)
          rw [hj] at this
          injection this with this
          rw [ht, this]
    · refine ⟨?_, ?_⟩
      · intro j
        rw [b]
        by_cases hj : j = i
        · subst hj; exact ⟨fun _ => d, fun _ => rfl⟩
        · rw [ho j hj]
          constructor
          · intro h; injection h with h; exact absurd h.symm hj
          · intro h; rw [← ih.crit j, a] at h; cases h
      · intro j hj
        rw [b] at hj
        injection hj with hj
        subst hj
        refine ⟨tr.length, by rw [get_new, g], ?_⟩
        intro k' e' hk he
        have := get_lt he
        rw [List.length_append, List.length_singleton] at this
        omega
    · refine ⟨?_, ?_⟩
      · intro j
        rw [b]
        by_cases hj : j = i
        · subst hj; exact ⟨nofun, fun h => absurd h d⟩
        · rw [ho j hj]
          refine ⟨nofun, fun h => ?_⟩
          rw [← ih.crit j] at h
          rw [← ih.crit i, h] at a
          injection a with a
          exact absurd a hj
      · intro j hj; rw [b] at hj; cases hj

end Verif.Refresh
