import Verif.Refresh.Obs
/-!
# What `Get`, `Clear` and the setters return (C96, C97)
-/
namespace Verif.Refresh
variable {T E F A : Type}
variable {c : Cfg T} {rf : F} {tr tr' : List (Ev T E F A)} {ss ss' : List (State T E F A)} {i j n m p q z : Nat}
  {s s' : State T E F A} {e : Ev T E F A} {inp : In T E F A} {op : Op F A} {f : F} {a : A} {r : Res T E} {v : T} {er : E} {t : Int}
  {P : Ev T E F A → Prop}

/-! ## C96 -/

/-- **C96**: a `Get` that starts a refresh starts one, and returns its outcome. -/
theorem C96_get (h : Exec c rf tr ss s) (hc : CallAt tr i p op q) (hg : op.isGet) (hq : tr[q]? = some (.ret i r)) {old : T}
    (hz : tr[z]? = some (.start i f a old)) (hpz : p < z) (hzq : z < q) :
    ∃ n o, z < n ∧ n < q ∧ tr[n]? = some (.finish i o) ∧ r = o.res ∧
      ∀ z' f' a' old', p < z' → z' < q → tr[z']? = some (.start i f' a' old') → z' = z := by
  obtain ⟨s0, _, h2⟩ := h.get_out hq hc hg
  have hs : (tr.take q)[z]? = some (.start i f a old) := get_take.2 ⟨hzq, hz⟩
  have no : ¬ Never (tr.take q) i p Ev.isStart := fun h => h z _ hpz hs rfl trivial
  cases h2 with
  | fastData d a b g => exact absurd b no
  | fastErr e a b g g' => exact absurd b no
  | lockData k d a b g g1 => exact absurd g1 no
  | lockErr k e a b g g1 => exact absurd g1 no
  | refreshed k z' n f a old o b1 b2 b3 b4 b5 b6 b7 b8 b9 b10 =>
    have hz' : z = z' := b6 z _ hpz hs rfl trivial
    subst hz'
    exact ⟨n, o, b9, (get_take.1 b10).1, (get_take.1 b10).2, rfl, fun z' f' a' old' c1 c2 c3 => b6 z' _ c1 (get_take.2 ⟨c2, c3⟩) rfl trivial⟩

/-- **C96**: a `Get` that starts no refresh returns a value without an error, or the zero value. -/
theorem C96_none (h : Exec c rf tr ss s) (hc : CallAt tr i p op q) (hg : op.isGet) (hq : tr[q]? = some (.ret i r)) (hns : NoStart tr i p q) :
    ∃ v e, r = .val v e ∧ (e = none ∨ v = c.zero) := by
  obtain ⟨s0, _, h2⟩ := h.get_out hq hc hg
  cases h2 with
  | fastData d a b g => exact ⟨_, _, rfl, .inl rfl⟩
  | fastErr e a b g g' => exact ⟨_, _, rfl, .inr rfl⟩
  | lockData k d a b g g1 => exact ⟨_, _, rfl, .inl rfl⟩
  | lockErr k e a b g g1 => exact ⟨_, _, rfl, .inr rfl⟩
  | refreshed k z' n f a old o b1 b2 b3 b4 b5 =>
    exact absurd (get_take.1 b5).2 (hns z' f a old (by omega) (get_take.1 b5).1)

/-- A `Get` whose refresh fails returns the value and the error of the function. -/
example : trace ⟨0, 5, 0⟩ ([(0, .call (.get 3 4)), (0, .go), (0, .time 100), (0, .go), (0, .time 100), (0, .go), (0, .go), (0, .fin (.ret 7 (some 9))), (0, .go),
      (0, .time 101)] ++ goes 0 4) =
    some [.call 0 (.get 3 4), .tau 0, .clock 0 100, .locked 0, .clock 0 100, .tau 0, .start 0 3 4 0, .finish 0 (.ret 7 (some 9)), .tau 0, .clock 0 101,
      .tau 0, .tau 0, .tau 0, .ret 0 (.val 7 (some 9))] := by rfl

/-! ## C97 -/

def Ev.isClearStart : Ev T E F A → Prop
  | .clearStart _ _ _ _ => True
  | _ => False

/-- How a `Clear` from `p` comes to its result. -/
def ClrOut (tr : List (Ev T E F A)) (i p : Nat) (op : Op F A) (r : Res T E) : Prop :=
  ∃ x, p < x ∧ tr[x]? = some (.cleared i) ∧
    ((UsesCl tr p none none op ∧ Never tr i p Ev.isClearStart ∧ r = .err none) ∨
     ∃ z n f a d o, x < z ∧ z < n ∧ tr[z]? = some (.clearStart i f a d) ∧ OnlyAt tr i p Ev.isClearStart z ∧ tr[n]? = some (.clearEnd i o) ∧
      r = o.elim .panicked .err)

/-- How a call from `p` comes to its result. -/
def RetOut (tr : List (Ev T E F A)) (i p : Nat) (r : Res T E) : Op F A → Prop
  | .clear f a => ClrOut tr i p (.clear f a) r
  | .cclear a => ClrOut tr i p (.cclear a) r
  | .setRefresh f => r = .unit ∧ ∃ x, p < x ∧ tr[x]? = some (.stored i f)
  | .setClear f => r = .unit ∧ ∃ x, p < x ∧ tr[x]? = some (.storedClear i f)
  | _ => True

/-- What a thread knows in a `Clear` or a setter. -/
def RetInv (tr : List (Ev T E F A)) (i : Nat) : PC T E F A → Prop
  | .cClear _ | .kLoad _ _ | .kStore _ => ∃ p op, Cur tr i p op ∧ Never tr i p Ev.isClearStart
  | .kCall _ _ _ => ∃ p op x, Cur tr i p op ∧ Never tr i p Ev.isClearStart ∧ p < x ∧ tr[x]? = some (.cleared i)
  | .kRun => ∃ p op x z f a d, Cur tr i p op ∧ p < x ∧ tr[x]? = some (.cleared i) ∧ x < z ∧ tr[z]? = some (.clearStart i f a d) ∧
      OnlyAt tr i p Ev.isClearStart z
  | .done r => ∃ p op, Cur tr i p op ∧ RetOut tr i p r op
  | _ => True

theorem ClrOut.other (h : ClrOut tr i p op r) (he : e.tid ≠ i) : ClrOut (tr ++ [e]) i p op r := by
  have hx : Ext tr (tr ++ [e]) i (fun _ => False) := Ext.snoc fun h => he h
  obtain ⟨x, h1, h2, ⟨h3, h4, h5⟩ | ⟨z, n, f, a, d, o, h3, h4, h5, h6, h7, h8⟩⟩ := h
  · exact ⟨x, h1, get_keep h2, .inl ⟨h3.snoc, h4.ext hx (fun _ h => h.elim), h5⟩⟩
  · exact ⟨x, h1, get_keep h2, .inr ⟨z, n, f, a, d, o, h3, h4, get_keep h5, h6.ext hx (fun _ h => h.elim), get_keep h7, h8⟩⟩

theorem RetOut.other (h : RetOut tr i p r op) (he : e.tid ≠ i) : RetOut (tr ++ [e]) i p r op := by
  cases op <;> try trivial
  · exact ClrOut.other h he
  · exact ClrOut.other h he
  · obtain ⟨h1, x, h2, h3⟩ := h; exact ⟨h1, x, h2, get_keep h3⟩
  · obtain ⟨h1, x, h2, h3⟩ := h; exact ⟨h1, x, h2, get_keep h3⟩

theorem RetInv.other {pc : PC T E F A} (h : RetInv tr i pc) (he : e.tid ≠ i) : RetInv (tr ++ [e]) i pc := by
  have hx : Ext tr (tr ++ [e]) i (fun _ => False) := Ext.snoc fun h => he h
  have hf : ∀ e : Ev T E F A, False → ¬ e.isClearStart := fun _ h => h.elim
  cases pc <;> try trivial
  case cClear => obtain ⟨p, op, h1, h2⟩ := h; exact ⟨p, op, h1.other he, h2.ext hx hf⟩
  case kLoad => obtain ⟨p, op, h1, h2⟩ := h; exact ⟨p, op, h1.other he, h2.ext hx hf⟩
  case kStore => obtain ⟨p, op, h1, h2⟩ := h; exact ⟨p, op, h1.other he, h2.ext hx hf⟩
  case kCall => obtain ⟨p, op, x, h1, h2, h3, h4⟩ := h; exact ⟨p, op, x, h1.other he, h2.ext hx hf, h3, get_keep h4⟩
  case kRun =>
    obtain ⟨p, op, x, z, f, a, d, h1, h2, h3, h4, h5, h6⟩ := h
    exact ⟨p, op, x, z, f, a, d, h1.other he, h2, get_keep h3, h4, get_keep h5, h6.ext hx hf⟩
  case done => obtain ⟨p, op, h1, h2⟩ := h; exact ⟨p, op, h1.other he, h2.other he⟩

theorem RetOut.of_get (h : op.isGet) : RetOut tr i p r op := by cases op <;> first | exact h.elim | trivial
theorem RetOut.of_ref (h : op.isGet ∨ op.isRefresh) : RetOut tr i p r op := by
  cases op <;> first | trivial | exact (h.elim (fun h => h) (fun h => h)).elim
theorem RetOut.of_clear (h : (∃ f a, op = .clear f a) ∨ ∃ a, op = .cclear a) (h' : ClrOut tr i p op r) : RetOut tr i p r op := by
  rcases h with ⟨f, a, rfl⟩ | ⟨a, rfl⟩ <;> exact h'

theorem Never.tau (h : Never tr i p Ev.isClearStart) (he : ¬ e.isClearStart) : Never (tr ++ [e]) i p Ev.isClearStart :=
  h.ext (P := fun e => ¬ e.isClearStart) (Ext.snoc fun _ => he) (fun _ h => h)

theorem Exec.rets (h : Exec c rf tr ss s) : ∀ i, RetInv tr i (s.pc i) := by
  induction h with
  | nil => exact fun i => trivial
  | snoc h1 h2 ih =>
    rename_i tr ss s i inp s' e
    intro j
    by_cases hj : j = i
    · subst hj
      have hi := ih j
      have hk := h1.kind j
      have hf := h1.fns j
      cases hpc : s.pc j <;> cases inp <;> simp only [step, hpc, reduceCtorEq, Option.some.injEq, Prod.mk.injEq] at h2
      all_goals rw [hpc] at hi hk hf
      all_goals try (obtain ⟨rfl, rfl⟩ := h2)
      all_goals try (simp only [State.go, Function.update_self])
      case idle.call op =>
        have hc : Cur (tr ++ [.call j op]) j tr.length op := ⟨get_new, Never.fresh⟩
        cases op with
        | clear f a => cases f <;> exact ⟨_, _, hc, Never.fresh⟩
        | cclear a => exact ⟨_, _, hc, Never.fresh⟩
        | _ => trivial
      case running.fin o => rcases o with ⟨v, _ | e⟩ | _ <;> trivial
      case cClear.go =>
        obtain ⟨p, op, h3, h4⟩ := hi
        split <;> exact ⟨p, op, h3.snoc (fun h => h), h4.tau (fun h => h)⟩
      case setRefresh.go f =>
        obtain ⟨p, h3⟩ := hf
        exact ⟨p, _, h3.snoc (fun h => h), rfl, tr.length, get_lt h3.1, get_new⟩
      case setClear.go f =>
        obtain ⟨p, h3⟩ := hf
        exact ⟨p, _, h3.snoc (fun h => h), rfl, tr.length, get_lt h3.1, get_new⟩
      case gData.go =>
        obtain ⟨p, op, h3, h4⟩ := hk nofun
        exact ⟨p, _, h3.snoc (fun h => h), .of_get h4⟩
      case gErr.go =>
        obtain ⟨p, op, h3, h4⟩ := hk nofun
        exact ⟨p, _, h3.snoc (fun h => h), .of_get h4⟩
      case gChk.go => split at h2 <;> first | (cases h2; done) | (simp only [Option.some.injEq, Prod.mk.injEq] at h2; obtain ⟨rfl, rfl⟩ := h2; simp [State.go, RetInv])
      case gChk.time l now =>
        split at h2
        · cases h2
        · simp only [Option.some.injEq, Prod.mk.injEq] at h2; obtain ⟨rfl, rfl⟩ := h2
          simp only [State.go, Function.update_self]
          split <;> first | trivial | (unfold gNext; split <;> trivial)
      case gErrChk.go => split <;> trivial
      case gLock.go =>
        split at h2
        · simp only [Option.some.injEq, Prod.mk.injEq] at h2; obtain ⟨rfl, rfl⟩ := h2
          simp only [State.go, Function.update_self]
          split <;> trivial
        · cases h2
      case rLock.go =>
        split at h2
        · simp only [Option.some.injEq, Prod.mk.injEq] at h2; obtain ⟨rfl, rfl⟩ := h2
          simp only [State.go, Function.update_self]
          trivial
        · cases h2
      case lLast.go => split <;> trivial
      case lChk.go => split <;> first | trivial | (unfold lNext; split <;> trivial)
      case lCmp.time => split <;> first | trivial | (unfold lNext; split <;> trivial)
      case lErrChk.go => split <;> trivial
      case unlock.go =>
        obtain ⟨p, op, h3, h4⟩ := hk nofun
        exact ⟨p, op, h3.snoc (fun h => h), .of_ref h4⟩
      case kLoad.go =>
        obtain ⟨p, op, h3, h4⟩ := hi
        exact ⟨p, op, h3.snoc (fun h => h), h4.tau (fun h => h)⟩
      case kStore.go x =>
        obtain ⟨p, op, h3, h4⟩ := hi
        rcases x with _ | ⟨f, a, d⟩
        · obtain ⟨p', op', h5, h6⟩ := hk nofun
          obtain ⟨rfl, rfl⟩ := h3.unique h5
          obtain ⟨p', op', h5, h7⟩ := hf
          obtain ⟨rfl, rfl⟩ := h3.unique h5
          exact ⟨p, op, h3.snoc (fun h => h), .of_clear h6 ⟨tr.length, get_lt h3.1, get_new, .inl ⟨h7.snoc, h4.tau (fun h => h), rfl⟩⟩⟩
        · exact ⟨p, op, tr.length, h3.snoc (fun h => h), h4.tau (fun h => h), get_lt h3.1, get_new⟩
      case kCall.go f a d =>
        obtain ⟨p, op, x, h3, h4, h5, h6⟩ := hi
        exact ⟨p, op, x, tr.length, f, a, d, h3.snoc (fun h => h), h5, get_keep h6, get_lt h6, get_new, .fresh h4⟩
      case kRun.clearFin o =>
        obtain ⟨p, op, x, z, f, a, d, h3, h4, h5, h6, h7, h8⟩ := hi
        obtain ⟨p', op', h9, h10⟩ := hk nofun
        obtain ⟨rfl, rfl⟩ := h3.unique h9
        refine ⟨p, op, h3.snoc (fun h => h), .of_clear h10 ⟨x, h4, get_keep h5, .inr ⟨z, tr.length, f, a, d, o, h6, get_lt h7, get_keep h7, ?_, get_new, ?_⟩⟩⟩
        · exact h8.ext (P := fun e => ¬ e.isClearStart) (Ext.snoc fun _ h => h) (fun _ h => h)
        · cases o <;> rfl
      case wRawChk.go l => split at h2 <;> first | (cases h2; done) | (simp only [Option.some.injEq, Prod.mk.injEq] at h2; obtain ⟨rfl, rfl⟩ := h2; simp [State.go, RetInv])
      case wRawChk.time l now =>
        split at h2
        · cases h2
        · simp only [Option.some.injEq, Prod.mk.injEq] at h2; obtain ⟨rfl, rfl⟩ := h2
          simp only [State.go, Function.update_self]
          split <;> first | trivial | (unfold rawNext; split <;> trivial)
      case wRawErrChk.go => split <;> trivial
      case wRawData.go => obtain ⟨p, op, h3, rfl⟩ := hk nofun; exact ⟨p, _, h3.snoc (fun h => h), trivial⟩
      case wRawErr.go => obtain ⟨p, op, h3, rfl⟩ := hk nofun; exact ⟨p, _, h3.snoc (fun h => h), trivial⟩
      case wRawBoth2.go => obtain ⟨p, op, h3, rfl⟩ := hk nofun; exact ⟨p, _, h3.snoc (fun h => h), trivial⟩
      case rdLast.go => obtain ⟨p, op, h3, rfl⟩ := hk nofun; exact ⟨p, _, h3.snoc (fun h => h), trivial⟩
      case rdLastErr.go => obtain ⟨p, op, h3, rfl⟩ := hk nofun; exact ⟨p, _, h3.snoc (fun h => h), trivial⟩
      all_goals trivial
    · rw [step_other h2 hj]
      exact (ih j).other (by rw [step_tid h2]; exact fun h => hj h.symm)

theorem Exec.ret_out (h : Exec c rf tr ss s) (hq : tr[q]? = some (.ret i r)) (hc : CallAt tr i p op q) : RetOut (tr.take q) i p r op := by
  obtain ⟨s0, inp, s1, h1, h2, _⟩ := h.at hq
  obtain ⟨_, h4⟩ := step_ret h2
  have h3 := h1.rets i
  rw [show Ev.tid (Ev.ret i r : Ev T E F A) = i from rfl] at h4
  rw [h4] at h3
  obtain ⟨p', op', h5, h7⟩ := h3
  obtain ⟨rfl, rfl⟩ := (hc.take hc.lt (Nat.le_refl _)).same h5.1 (get_take.1 h5.1).1 h5.2
  exact h7

def Op.isClear : Op F A → Prop
  | .clear _ _ | .cclear _ => True
  | _ => False

/-- **C97**: a `Clear` takes effect, then either there is no function (at some moment of the call, for a `RefreshCache`), none is called and it returns nil;
or it calls a function once, after taking effect, and returns its error, or panics with it. -/
theorem C97_clear (h : Exec c rf tr ss s) (hc : CallAt tr i p op q) (hr : op.isClear) (hq : tr[q]? = some (.ret i r)) :
    ∃ x, p < x ∧ x < q ∧ tr[x]? = some (.cleared i) ∧
      (((∃ a, op = .clear none a ∨ (op = .cclear a ∧ ∃ y, p < y ∧ y < q ∧ CurCl tr y none)) ∧ r = .err none ∧
          ∀ z f a d, p < z → z < q → tr[z]? ≠ some (.clearStart i f a d)) ∨
       ∃ z n f a d o, x < z ∧ z < n ∧ n < q ∧ tr[z]? = some (.clearStart i f a d) ∧ tr[n]? = some (.clearEnd i o) ∧ r = o.elim .panicked .err ∧
          ∀ z' f' a' d', p < z' → z' < q → tr[z']? = some (.clearStart i f' a' d') → z' = z) := by
  have h1 := h.ret_out hq hc
  have h2 : ClrOut (tr.take q) i p op r := by cases op <;> first | exact h1 | exact hr.elim
  obtain ⟨x, h3, h4, h5⟩ := h2
  obtain ⟨h4, h4'⟩ := get_take.1 h4
  refine ⟨x, h3, h4, h4', h5.imp ?_ ?_⟩
  · rintro ⟨h6, h7, h8⟩
    refine ⟨?_, h8, fun z f a d c1 c2 c3 => h7 z _ c1 (get_take.2 ⟨c2, c3⟩) rfl trivial⟩
    cases op <;> first | exact hr.elim | skip
    · obtain ⟨rfl, _⟩ := h6; exact ⟨_, .inl rfl⟩
    · obtain ⟨_, y, a1, a2, a3⟩ := h6
      have : y < q := Nat.lt_of_lt_of_le a2 (by rw [List.length_take]; omega)
      exact ⟨_, .inr ⟨rfl, y, a1, this, a3.of_take (by omega)⟩⟩
  · rintro ⟨z, n, f, a, d, o, a1, a2, a3, a4, a5, a6⟩
    exact ⟨z, n, f, a, d, o, a1, a2, (get_take.1 a5).1, (get_take.1 a3).2, (get_take.1 a5).2, a6,
      fun z' f' a' d' c1 c2 c3 => a4 z' _ c1 (get_take.2 ⟨c2, c3⟩) rfl trivial⟩

/-- **C97**: when a setter returns, the cache had its function at a moment of the call. -/
theorem C97_set (h : Exec c rf tr ss s) (hc : CallAt tr i p op q) (hq : tr[q]? = some (.ret i r)) :
    (∀ f, op = .setRefresh f → r = .unit ∧ ∃ x, p < x ∧ x ≤ q ∧ CurFn rf tr x f) ∧
    (∀ f, op = .setClear f → r = .unit ∧ ∃ x, p < x ∧ x ≤ q ∧ CurCl tr x f) := by
  have h1 := h.ret_out hq hc
  constructor
  · rintro f rfl
    obtain ⟨h2, x, h3, h4⟩ := h1
    obtain ⟨h4, h5⟩ := get_take.1 h4
    exact ⟨h2, x + 1, by omega, h4, .inl ⟨x, i, by omega, h5, fun y' j' f' a b => by omega⟩⟩
  · rintro f rfl
    obtain ⟨h2, x, h3, h4⟩ := h1
    obtain ⟨h4, h5⟩ := get_take.1 h4
    exact ⟨h2, x + 1, by omega, h4, .inl ⟨x, i, by omega, h5, fun y' j' f' a b => by omega⟩⟩

/-- `Clear` without a function, and with one that fails. -/
example : trace ⟨0, 5, 0⟩ ([(0, .call (.cclear 1)), (0, .go), (0, .go), (0, .go), (0, .call (.setClear (some 2))), (0, .go), (0, .go),
      (0, .call (.cclear 1)), (0, .go), (0, .go), (0, .go), (0, .go), (0, .clearFin (some (some 9))), (0, .go)]) =
    some [.call 0 (.cclear 1), .tau 0, .cleared 0, .ret 0 (.err none), .call 0 (.setClear (some 2)), .storedClear 0 (some 2), .ret 0 .unit,
      .call 0 (.cclear 1), .tau 0, .tau 0, .cleared 0, .clearStart 0 2 1 0, .clearEnd 0 (some (some 9)), .ret 0 (.err (some 9))] := by rfl

end Verif.Refresh
