import Verif.Refresh.Fun
/-!
# `Refresh`, `Raw`, `Last`, `LastErr`, and served errors (C78-C81)
-/
namespace Verif.Refresh
variable {T E F A : Type}
variable {c : Cfg T} {rf : F} {tr tr' : List (Ev T E F A)} {ss ss' : List (State T E F A)} {i j n m p q z : Nat}
  {s s' : State T E F A} {e : Ev T E F A} {inp : In T E F A} {op : Op F A} {f : F} {a : A} {r : Res T E} {v : T} {er : E} {t : Int}
  {P : Ev T E F A → Prop}

/-! ## Which operation a thread is in -/

def Op.isRefresh : Op F A → Prop
  | .refresh _ _ | .crefresh _ => True
  | _ => False

/-- The operations in which a program counter is possible. -/
def PC.okOp : PC T E F A → Op F A → Prop
  | .idle, _ => False
  | .cGet _, op => op.isGet
  | .cRefresh _, op => op.isRefresh
  | .cClear _, op => ∃ a, op = .cclear a
  | .setRefresh _, op => ∃ f, op = .setRefresh f
  | .setClear _, op => ∃ f, op = .setClear f
  | .gLast _ _, op | .gChk _ _ _, op | .gData, op | .gErrNow _ _, op | .gErrChk _ _ _, op | .gErr, op | .gLock _ _, op
  | .lLast _ _, op | .lNow _ _, op | .lChk _ _ _, op | .lCmp _ _ _, op | .lData, op | .lErrNow _ _, op | .lErrChk _ _ _, op
  | .lErr, op => op.isGet
  | .rLock _ _, op => op.isRefresh
  | .old _ _, op | .running, op | .wData _ _, op | .wNow _, op | .wLast _ _, op | .wLastErr _, op | .wErr _ _, op | .wErrNow _, op
  | .wErrLast _ _, op | .wErrClr _, op | .unlock _, op => op.isGet ∨ op.isRefresh
  | .kLoad _ _, op | .kStore _, op | .kCall _ _ _, op | .kRun, op => (∃ f a, op = .clear f a) ∨ ∃ a, op = .cclear a
  | .wRaw, op | .wRawChk _, op | .wRawData, op | .wRawErrNow, op | .wRawErrChk _, op | .wRawErr, op | .wRawBoth, op
  | .wRawBoth2 _, op => op = .raw
  | .rdLast, op => op = .last
  | .rdLastErr, op => op = .lastErr
  | .done _, _ => True

theorem entry_okOp : (entry op : PC T E F A).okOp op := by
  cases op with
  | clear f a => cases f <;> exact .inl ⟨_, _, rfl⟩
  | cclear a => exact ⟨_, rfl⟩
  | setRefresh a => exact ⟨_, rfl⟩
  | setClear a => exact ⟨_, rfl⟩
  | get | cget | refresh | crefresh => trivial
  | _ => rfl

theorem back_okOp {o : Outcome T E} (h : op.isGet ∨ op.isRefresh) : (o.back c : PC T E F A).okOp op := by
  rcases o with ⟨v, _ | e⟩ | _ <;> exact h
theorem gNext_okOp (h : op.isGet) : (gNext c f a : PC T E F A).okOp op := by unfold gNext; split <;> exact h
theorem lNext_okOp (h : op.isGet) : (lNext c f a : PC T E F A).okOp op := by unfold lNext; split <;> first | exact h | exact .inl h
theorem rawNext_okOp (h : op = .raw) : (rawNext c : PC T E F A).okOp op := by unfold rawNext; split <;> exact h

theorem step_okOp (h : step c s i inp = some (s', e)) (hk : (s.pc i).okOp op) (hd : s'.pc i ≠ .idle) : (s'.pc i).okOp op := by
  cases hpc : s.pc i <;> cases inp <;> simp only [step, hpc, reduceCtorEq, Option.some.injEq, Prod.mk.injEq] at h
  all_goals rw [hpc] at hk
  case idle.call => exact hk.elim
  all_goals first
    | (obtain ⟨rfl, rfl⟩ := h)
    | (split at h <;> first | (cases h; done) | (simp only [Option.some.injEq, Prod.mk.injEq] at h; obtain ⟨rfl, rfl⟩ := h))
  all_goals simp only [State.go, Function.update_self] at hd ⊢
  case done.go => exact absurd rfl hd
  case running.fin => exact back_okOp hk
  case cClear.go => split <;> exact .inr hk
  case kStore.go => split <;> first | trivial | exact hk
  all_goals first
    | exact hk
    | exact .inl hk
    | exact .inr hk
    | trivial
    | (split <;> first | exact hk | exact .inl hk | exact gNext_okOp hk | exact lNext_okOp hk | exact rawNext_okOp hk)

theorem Exec.kind (h : Exec c rf tr ss s) : ∀ i, s.pc i ≠ .idle → ∃ p op, Cur tr i p op ∧ (s.pc i).okOp op := by
  induction h with
  | nil => exact fun i h => absurd rfl h
  | snoc h1 h2 ih =>
    rename_i tr ss s i inp s' e
    intro j hj'
    by_cases hj : j = i
    · subst hj
      rcases step_rank h2 with ⟨op, rfl, h3⟩ | ⟨h3, h4⟩
      · exact ⟨tr.length, op, ⟨get_new, Never.fresh⟩, by rw [h3]; exact entry_okOp⟩
      · obtain ⟨p, op, h5, h6⟩ := ih j (fun h => by rw [h] at h3; exact absurd h3 (Nat.not_lt_zero _))
        exact ⟨p, op, h5.snoc h4, step_okOp h2 h6 hj'⟩
    · rw [step_other h2 hj] at hj' ⊢
      obtain ⟨p, op, h5, h6⟩ := ih j hj'
      exact ⟨p, op, h5.other (by rw [step_tid h2]; exact fun h => hj h.symm), h6⟩

theorem Cur.unique {p' : Nat} {op' : Op F A} (h : Cur tr i p op) (h' : Cur tr i p' op') : p = p' ∧ op = op' := by
  have : p = p' := by
    rcases Nat.lt_trichotomy p p' with h1 | h1 | h1
    · exact absurd trivial (h.2 p' _ h1 h'.1 rfl)
    · exact h1
    · exact absurd trivial (h'.2 p _ h1 h.1 rfl)
  subst this
  have := h.1
  rw [h'.1] at this
  injection this with this
  injection this with _ this
  exact ⟨rfl, this.symm⟩

/-! ## How the other calls come to their results -/

/-- How a `Raw` called at `p` comes to its result. -/
inductive RawOut (c : Cfg T) (tr : List (Ev T E F A)) (ss : List (State T E F A)) (i p : Nat) : Res T E → Prop where
  | data (d : T) : DataHit c tr ss i p d → RawOut c tr ss i p (.val d none)
  | err (e : Option E) : DataFail c tr ss i p → ErrHit c tr ss i p e → RawOut c tr ss i p (.val c.zero e)
  | both (d : T) (e : Option E) : Missed c tr ss i p → Saw ss p (·.data = d) → Saw ss p (·.err = e) → RawOut c tr ss i p (.val d e)

/-- A refresh in a call from `p`, and its outcome. -/
def RefOut (tr : List (Ev T E F A)) (i p : Nat) (r : Res T E) : Prop :=
  ∃ z n f a old o, p < z ∧ z < n ∧ tr[z]? = some (.start i f a old) ∧ OnlyAt tr i p Ev.isStart z ∧ tr[n]? = some (.finish i o) ∧ r = o.res

/-- How a call from `p` comes to its result. -/
def OpOut (c : Cfg T) (tr : List (Ev T E F A)) (ss : List (State T E F A)) (i p : Nat) (r : Res T E) : Op F A → Prop
  | .refresh _ _ | .crefresh _ => RefOut tr i p r
  | .raw => RawOut c tr ss i p r
  | .last => ∃ t, r = .time t ∧ Saw ss p (·.last = t)
  | .lastErr => ∃ t, r = .time t ∧ Saw ss p (·.lastErr = t)
  | _ => True

theorem RawOut.ext (h : RawOut c tr ss i p r) (hx : Ext tr tr' i P) (hs : Sx ss ss') : RawOut c tr' ss' i p r := by
  cases h with
  | data d h1 => exact .data d (h1.ext hx hs)
  | err e h1 h2 => exact .err e (h1.ext hx hs) (h2.ext hx hs)
  | both d e h1 h2 h3 => exact .both d e (h1.ext hx hs) (h2.ext hs) (h3.ext hs)

theorem RefOut.ext (h : RefOut tr i p r) (hx : Ext tr tr' i P) (hp : ∀ e, P e → ¬ e.isStart) : RefOut tr' i p r := by
  obtain ⟨z, n, f, a, old, o, h1, h2, h3, h4, h5, h6⟩ := h
  exact ⟨z, n, f, a, old, o, h1, h2, hx.keep _ _ h3, h4.ext hx hp, hx.keep _ _ h5, h6⟩

theorem OpOut.ext (h : OpOut c tr ss i p r op) (hx : Ext tr tr' i P) (hs : Sx ss ss') (hp : ∀ e, P e → ¬ e.isStart) : OpOut c tr' ss' i p r op := by
  cases op <;> try trivial
  · exact RefOut.ext h hx hp
  · exact RawOut.ext h hx hs
  · obtain ⟨t, h1, h2⟩ := h; exact ⟨t, h1, h2.ext hs⟩
  · obtain ⟨t, h1, h2⟩ := h; exact ⟨t, h1, h2.ext hs⟩
  · exact RefOut.ext h hx hp

/-- What a thread knows in the other calls. -/
def ObsInv (c : Cfg T) (tr : List (Ev T E F A)) (ss : List (State T E F A)) (i : Nat) : PC T E F A → Prop
  | .wRawChk l => ∃ p op, Cur tr i p op ∧ Saw ss p (·.last = l)
  | .wRawData => ∃ p op, Cur tr i p op ∧ Hit c tr ss i p
  | .wRawErrNow => ∃ p op, Cur tr i p op ∧ DataFail c tr ss i p ∧ c.errAge > 0
  | .wRawErrChk now => ∃ p op, Cur tr i p op ∧ DataFail c tr ss i p ∧ c.errAge > 0 ∧ Clk tr i p (· = now)
  | .wRawErr => ∃ p op, Cur tr i p op ∧ DataFail c tr ss i p ∧ EHit c tr ss i p
  | .wRawBoth => ∃ p op, Cur tr i p op ∧ Missed c tr ss i p
  | .wRawBoth2 d => ∃ p op, Cur tr i p op ∧ Missed c tr ss i p ∧ Saw ss p (·.data = d)
  | .unlock r | .done r => ∃ p op, Cur tr i p op ∧ OpOut c tr ss i p r op
  | _ => True

theorem ObsInv.other {pc : PC T E F A} (h : ObsInv c tr ss i pc) (he : e.tid ≠ i) : ObsInv c (tr ++ [e]) (ss ++ [s]) i pc := by
  have hx : Ext tr (tr ++ [e]) i (fun _ => False) := Ext.snoc fun h => he h
  have hs : Sx ss (ss ++ [s]) := .snoc
  cases pc <;> try trivial
  case wRawChk => obtain ⟨p, op, h1, h2⟩ := h; exact ⟨p, op, h1.other he, h2.ext hs⟩
  case wRawData => obtain ⟨p, op, h1, h2⟩ := h; exact ⟨p, op, h1.other he, h2.ext hx hs⟩
  case wRawErrNow => obtain ⟨p, op, h1, h2, h3⟩ := h; exact ⟨p, op, h1.other he, h2.ext hx hs, h3⟩
  case wRawErrChk => obtain ⟨p, op, h1, h2, h3, h4⟩ := h; exact ⟨p, op, h1.other he, h2.ext hx hs, h3, h4.ext hx⟩
  case wRawErr => obtain ⟨p, op, h1, h2, h3⟩ := h; exact ⟨p, op, h1.other he, h2.ext hx hs, h3.ext hx hs⟩
  case wRawBoth => obtain ⟨p, op, h1, h2⟩ := h; exact ⟨p, op, h1.other he, h2.ext hx hs⟩
  case wRawBoth2 => obtain ⟨p, op, h1, h2, h3⟩ := h; exact ⟨p, op, h1.other he, h2.ext hx hs, h3.ext hs⟩
  case unlock => obtain ⟨p, op, h1, h2⟩ := h; exact ⟨p, op, h1.other he, h2.ext hx hs (fun _ h => h.elim)⟩
  case done => obtain ⟨p, op, h1, h2⟩ := h; exact ⟨p, op, h1.other he, h2.ext hx hs (fun _ h => h.elim)⟩

theorem ObsInv.rawNext (h : ∃ p op, Cur tr i p op ∧ DataFail c tr ss i p) : ObsInv c tr ss i (rawNext c) := by
  obtain ⟨p, op, h1, h2⟩ := h
  unfold Refresh.rawNext
  split
  · next h => exact ⟨p, op, h1, h2, h⟩
  · next h => exact ⟨p, op, h1, h2, fun h' => absurd h' h⟩

theorem OpOut.of_get (h : op.isGet) : OpOut c tr ss i p r op := by cases op <;> first | exact h.elim | trivial

/-- The end of a write-back. -/
theorem WB.out {o : Outcome T E} (h : WB c tr ss i n o r) : ∃ p op, Cur tr i p op ∧ RefOut tr i p r := by
  obtain ⟨p, op, k, z, h1, h2⟩ := h.st
  obtain ⟨f, a, old, h3⟩ := h1.start
  have hlt := h1.lt
  have hlt' := h1.lt'
  exact ⟨p, op, ⟨h1.at_, h1.noCall⟩, z, n, f, a, old, o, by omega, h2, h3, h1.oneStart, h.at_, h.res⟩

theorem OpOut.of_ref (h : RefOut tr i p r) (hk : op.isGet ∨ op.isRefresh) : OpOut c tr ss i p r op := by
  cases op <;> first | exact h | trivial | exact (hk.elim (fun h => h) (fun h => h)).elim

theorem Exec.obs (h : Exec c rf tr ss s) : ∀ i, ObsInv c tr ss i (s.pc i) := by
  induction h with
  | nil => exact fun i => trivial
  | snoc h1 h2 ih =>
    rename_i tr ss s i inp s' e
    intro j
    by_cases hj : j = i
    · subst hj
      have hi := ih j
      have hp := h1.pcs j
      have hl := h1.len
      have hk := h1.kind j
      have hlt : ∀ {p : Nat} {e : Ev T E F A}, tr[p]? = some e → p < ss.length := fun h => hl ▸ get_lt h
      have hxt : Ext tr (tr ++ [Ev.tau j]) j (· = .tau j) := .snoc fun _ => rfl
      have hqt : ∀ e : Ev T E F A, e = .tau j → ¬ e.isStart := by rintro e rfl; exact fun h => h
      cases hpc : s.pc j <;> cases inp <;> simp only [step, hpc, reduceCtorEq, Option.some.injEq, Prod.mk.injEq] at h2
      all_goals rw [hpc] at hi hp hk
      all_goals try (obtain ⟨rfl, rfl⟩ := h2)
      all_goals try (simp only [State.go, Function.update_self])
      case idle.call op =>
        cases op with
        | clear f a => cases f <;> trivial
        | _ => trivial
      case running.fin o => rcases o with ⟨v, _ | e⟩ | _ <;> trivial
      case cClear.go => split <;> trivial
      case setRefresh.go =>
        obtain ⟨p, op, h3, f, rfl⟩ := hk nofun
        exact ⟨p, _, h3.snoc (fun h => h), trivial⟩
      case setClear.go =>
        obtain ⟨p, op, h3, f, rfl⟩ := hk nofun
        exact ⟨p, _, h3.snoc (fun h => h), trivial⟩
      case gData.go =>
        obtain ⟨p, op, h3, h4⟩ := hk nofun
        exact ⟨p, _, h3.snoc (fun h => h), .of_get h4⟩
      case gErr.go =>
        obtain ⟨p, op, h3, h4⟩ := hk nofun
        exact ⟨p, _, h3.snoc (fun h => h), .of_get h4⟩
      case lData.go =>
        obtain ⟨p, op, h3, h4⟩ := hk nofun
        exact ⟨p, _, h3.snoc (fun h => h), .of_get h4⟩
      case lErr.go =>
        obtain ⟨p, op, h3, h4⟩ := hk nofun
        exact ⟨p, _, h3.snoc (fun h => h), .of_get h4⟩
      case gChk.go => split at h2 <;> first | (cases h2; done) | (simp only [Option.some.injEq, Prod.mk.injEq] at h2; obtain ⟨rfl, rfl⟩ := h2; simp [State.go, ObsInv])
      case gChk.time l now =>
        split at h2
        · cases h2
        · next hm =>
          simp only [Option.some.injEq, Prod.mk.injEq] at h2; obtain ⟨rfl, rfl⟩ := h2
          simp only [State.go, Function.update_self]
          split <;> first | trivial | (unfold gNext; split <;> trivial)
      case gErrChk.go => split <;> trivial
      case gLock.go =>
        split at h2
        · simp only [Option.some.injEq, Prod.mk.injEq] at h2; obtain ⟨rfl, rfl⟩ := h2
          simp only [State.go, Function.update_self]
          split <;> trivial
        · cases h2
      case rLock.go =>
        split at h2
        · simp only [Option.some.injEq, Prod.mk.injEq] at h2; obtain ⟨rfl, rfl⟩ := h2
          simp only [State.go, Function.update_self]
          trivial
        · cases h2
      case lLast.go => split <;> trivial
      case lChk.go => split <;> first | trivial | (unfold lNext; split <;> trivial)
      case lCmp.time => split <;> first | trivial | (unfold lNext; split <;> trivial)
      case lErrChk.go => split <;> trivial
      case wLastErr.go =>
        obtain ⟨n, o, m, t, w1, _⟩ := hp
        obtain ⟨p, op, h3, h4⟩ := hk nofun
        obtain ⟨p', op', h5, h6⟩ := w1.out
        obtain ⟨rfl, rfl⟩ := h3.unique h5
        exact ⟨p, op, h3.snoc (fun h => h), .of_ref (h6.ext hxt hqt) h4⟩
      case wErrClr.go =>
        obtain ⟨n, v, e, m, t, w1, _⟩ := hp
        obtain ⟨p, op, h3, h4⟩ := hk nofun
        obtain ⟨p', op', h5, h6⟩ := w1.out
        obtain ⟨rfl, rfl⟩ := h3.unique h5
        exact ⟨p, op, h3.snoc (fun h => h), .of_ref (h6.ext hxt hqt) h4⟩
      case unlock.go =>
        obtain ⟨p, op, h3, h4⟩ := hi
        exact ⟨p, op, h3.snoc (fun h => h), h4.ext hxt .snoc hqt⟩
      case kStore.go x =>
        rcases x with _ | ⟨f, a, d⟩
        · obtain ⟨p, op, h3, h4⟩ := hk nofun
          refine ⟨p, op, h3.snoc (fun h => h), ?_⟩
          rcases h4 with ⟨f, a, rfl⟩ | ⟨a, rfl⟩ <;> trivial
        · trivial
      case kRun.clearFin =>
        obtain ⟨p, op, h3, h4⟩ := hk nofun
        refine ⟨p, op, h3.snoc (fun h => h), ?_⟩
        rcases h4 with ⟨f, a, rfl⟩ | ⟨a, rfl⟩ <;> trivial
      case wRaw.go =>
        obtain ⟨p, op, h3, h4⟩ := hk nofun
        exact ⟨p, op, h3.snoc (fun h => h), .new (hlt h3.1) rfl⟩
      case wRawChk.go l =>
        split at h2
        · next hm =>
          simp only [Option.some.injEq, Prod.mk.injEq] at h2; obtain ⟨rfl, rfl⟩ := h2
          simp only [State.go, Function.update_self]
          obtain ⟨p, op, h3, h4⟩ := hi
          exact ⟨p, op, h3.snoc (fun h => h), l, h4.ext .snoc, .inl hm⟩
        · cases h2
      case wRawChk.time l now =>
        split at h2
        · cases h2
        · next hm =>
          simp only [Option.some.injEq, Prod.mk.injEq] at h2; obtain ⟨rfl, rfl⟩ := h2
          simp only [State.go, Function.update_self]
          obtain ⟨p, op, h3, h4⟩ := hi
          split
          · next hlt' => exact ⟨p, op, h3.snoc (fun h => h), l, h4.ext .snoc, .inr (.new (get_lt h3.1) hlt')⟩
          · next hlt' =>
            refine ObsInv.rawNext ⟨p, op, h3.snoc (fun h => h), ⟨l, h4.ext .snoc, .new (get_lt h3.1) hlt'⟩, ?_⟩
            intro hneg
            obtain ⟨q, sq, a1, a2, a3⟩ := h4
            exact ⟨q, sq, a1, get_keep a2, fun hp => hm ⟨hneg, a3 ▸ hp⟩⟩
      case wRawData.go =>
        obtain ⟨p, op, h3, h4⟩ := hi
        obtain ⟨p', op', h5, rfl⟩ := hk nofun
        obtain ⟨rfl, rfl⟩ := h3.unique h5
        exact ⟨p, _, h3.snoc (fun h => h), RawOut.data _ (h4.data (fun h => h))⟩
      case wRawErrNow.time now =>
        obtain ⟨p, op, h3, h4, h5⟩ := hi
        exact ⟨p, op, h3.snoc (fun h => h), h4.ext (Ext.snoc (P := fun _ => True) fun _ => trivial) .snoc, h5, .new (get_lt h3.1) rfl⟩
      case wRawErrChk.go now =>
        obtain ⟨p, op, h3, h4, h5, h6⟩ := hi
        have h6' : ∀ {φ : Int → Prop}, φ now → Clk (tr ++ [.tau j]) j p φ := by
          intro φ hφ
          obtain ⟨q, now', a1, a2, rfl⟩ := h6
          exact ⟨q, now', a1, get_keep a2, hφ⟩
        split
        · next hc => exact ⟨p, op, h3.snoc (fun h => h), h4.ext hxt .snoc, h5, _, .new (hlt h3.1) rfl, h6' hc⟩
        · next hc => exact ⟨p, op, h3.snoc (fun h => h), h4.ext hxt .snoc, fun _ => ⟨_, .new (hlt h3.1) rfl, h6' hc⟩⟩
      case wRawErr.go =>
        obtain ⟨p, op, h3, h4, h6⟩ := hi
        obtain ⟨p', op', h5, rfl⟩ := hk nofun
        obtain ⟨rfl, rfl⟩ := h3.unique h5
        exact ⟨p, _, h3.snoc (fun h => h), RawOut.err _ (h4.ext hxt .snoc) (h6.err (fun h => h))⟩
      case wRawBoth.go =>
        obtain ⟨p, op, h3, h4⟩ := hi
        exact ⟨p, op, h3.snoc (fun h => h), h4.ext hxt .snoc, .new (hlt h3.1) rfl⟩
      case wRawBoth2.go d =>
        obtain ⟨p, op, h3, h4, h6⟩ := hi
        obtain ⟨p', op', h5, rfl⟩ := hk nofun
        obtain ⟨rfl, rfl⟩ := h3.unique h5
        exact ⟨p, _, h3.snoc (fun h => h), RawOut.both _ _ (h4.ext hxt .snoc) (h6.ext .snoc) (.new (hlt h3.1) rfl)⟩
      case rdLast.go =>
        obtain ⟨p, op, h3, rfl⟩ := hk nofun
        exact ⟨p, _, h3.snoc (fun h => h), _, rfl, .new (hlt h3.1) rfl⟩
      case rdLastErr.go =>
        obtain ⟨p, op, h3, rfl⟩ := hk nofun
        exact ⟨p, _, h3.snoc (fun h => h), _, rfl, .new (hlt h3.1) rfl⟩
      all_goals trivial
    · rw [step_other h2 hj]
      exact (ih j).other (by rw [step_tid h2]; exact fun h => hj h.symm)

/-- How a call comes to its result. -/
theorem Exec.op_out (h : Exec c rf tr ss s) (hq : tr[q]? = some (.ret i r)) (hc : CallAt tr i p op q) :
    ∃ s0, Exec c rf (tr.take q) (ss.take q) s0 ∧ OpOut c (tr.take q) (ss.take q) i p r op := by
  obtain ⟨s0, inp, s1, h1, h2, _⟩ := h.at hq
  obtain ⟨_, h4⟩ := step_ret h2
  have h3 := h1.obs i
  rw [show Ev.tid (Ev.ret i r : Ev T E F A) = i from rfl] at h4
  rw [h4] at h3
  obtain ⟨p', op', h5, h7⟩ := h3
  obtain ⟨rfl, rfl⟩ := (hc.take hc.lt (Nat.le_refl _)).same h5.1 (get_take.1 h5.1).1 h5.2
  exact ⟨s0, h1, h7⟩

/-! ## C78 -/

/-- **C78**: `Refresh` runs one refresh function, whatever the cache holds, and returns its outcome. -/
theorem C78 (h : Exec c rf tr ss s) (hc : CallAt tr i p op q) (hr : op.isRefresh) (hq : tr[q]? = some (.ret i r)) :
    ∃ z n f a old o, p < z ∧ z < n ∧ n < q ∧ tr[z]? = some (.start i f a old) ∧ tr[n]? = some (.finish i o) ∧ r = o.res ∧
      ∀ z' f' a' old', p < z' → z' < q → tr[z']? = some (.start i f' a' old') → z' = z := by
  obtain ⟨s0, h1, h2⟩ := h.op_out hq hc
  have h3 : RefOut (tr.take q) i p r := by cases op <;> first | exact h2 | exact hr.elim
  obtain ⟨z, n, f, a, old, o, a1, a2, a3, a4, a5, a6⟩ := h3
  refine ⟨z, n, f, a, old, o, a1, a2, (get_take.1 a5).1, (get_take.1 a3).2, (get_take.1 a5).2, a6, ?_⟩
  intro z' f' a' old' b1 b2 b3
  exact a4 z' _ b1 (get_take.2 ⟨b2, b3⟩) rfl trivial

/-- A refresh of a fresh value. -/
example : (trace ⟨0, 5, 0⟩ (refreshBy 0 (.ret 7 none) 100 ++ refreshBy 0 (.ret 8 none) 101)).map (·.drop 10) =
    some [.call 0 (.refresh 0 0), .locked 0, .start 0 0 0 7, .finish 0 (.ret 8 none), .tau 0, .clock 0 101, .tau 0, .tau 0, .tau 0,
      .ret 0 (.val 8 none)] := by rfl

/-! ## Reading between refreshes: C79 and C80 -/

/-- A call of `i` from `p` to `q` during which, and since the end at `n` of the refresh of `j` whose call has returned, no refresh
ends and (for `m`, the time of its stamp `t`) no `Clear` takes effect. -/
structure Calm (tr : List (Ev T E F A)) (n j : Nat) (o : Outcome T E) (m : Nat) (t : Int) (p q : Nat) : Prop where
  at_ : tr[n]? = some (.finish j o)
  stamp : Stamp tr j n m t
  over : ∃ w r, n < w ∧ w < p ∧ tr[w]? = some (.ret j r)
  none_ : ∀ (x j' : Nat) (o' : Outcome T E), n < x → x < q → tr[x]? ≠ some (.finish j' o')
  noClear : NoClear tr m q

theorem Calm.ok {o : Outcome T E} (hb : Calm tr n j o m t p q) (h : Exec c rf tr ss s) (hv : o.yield c.zero = some v) {s0 : State T E F A}
    (h0 : Exec c rf (tr.take q) (ss.take q) s0) (hpq : p < q) {q' : Nat} {s' : State T E F A} (hs : (ss.take q)[q']? = some s') (hq : p < q') :
    s'.data = v ∧ s'.last = t ∧ s'.lastErr = 0 := by
  obtain ⟨w, r, h1, h2, h3⟩ := hb.over
  have ho : Over tr n j p := .inl ⟨w, r, h1, by omega, h3⟩
  have hm := stamp_before_ret h hb.at_ hb.stamp h3 h1
  obtain ⟨a1, a2, a3⟩ := states_ok (m := m) (t := t) h0 (get_take.2 ⟨by omega, hb.at_⟩) hv (ho.take hpq)
    (fun x j' o' b1 b2 => hb.none_ x j' o' b1 (get_take.1 b2).1 (get_take.1 b2).2) hs hq
  refine ⟨a1, a3 (stamp_take hb.stamp (by omega)) ?_, a2⟩
  intro x j' hx _ hx''
  have := get_take.1 hx''
  exact hb.noClear x j' hx this.1 this.2

theorem Calm.err (hb : Calm tr n j (.ret v (some er)) m t p q) (h : Exec c rf tr ss s) {s0 : State T E F A}
    (h0 : Exec c rf (tr.take q) (ss.take q) s0) (hpq : p < q) {q' : Nat} {s' : State T E F A} (hs : (ss.take q)[q']? = some s') (hq : p < q') :
    s'.err = some er ∧ s'.last = 0 ∧ s'.lastErr = t := by
  obtain ⟨w, r, h1, h2, h3⟩ := hb.over
  have ho : Over tr n j p := .inl ⟨w, r, h1, by omega, h3⟩
  have hm := stamp_before_ret h hb.at_ hb.stamp h3 h1
  obtain ⟨a1, a2, a3⟩ := states_err (m := m) (t := t) h0 (get_take.2 ⟨by omega, hb.at_⟩) (ho.take hpq)
    (fun x j' o' b1 b2 => hb.none_ x j' o' b1 (get_take.1 b2).1 (get_take.1 b2).2) hs hq
  exact ⟨a1, a2, a3 (stamp_take hb.stamp (by omega))⟩

/-- **C79**: after a success stamped `t`, with no refresh and no `Clear` since, `Last` returns `t` and `LastErr` 0. -/
theorem C79_ok {o : Outcome T E} (h : Exec c rf tr ss s) (hc : CallAt tr i p op q) (hq : tr[q]? = some (.ret i r)) (hb : Calm tr n j o m t p q)
    (hv : o.yield c.zero = some v) : (op = .last → r = .time t) ∧ (op = .lastErr → r = .time 0) := by
  obtain ⟨s0, h1, h2⟩ := h.op_out hq hc
  constructor
  · rintro rfl
    obtain ⟨t', rfl, q', s', a1, a2, rfl⟩ := h2
    rw [(hb.ok h hv h1 hc.lt a2 a1).2.1]
  · rintro rfl
    obtain ⟨t', rfl, q', s', a1, a2, rfl⟩ := h2
    rw [(hb.ok h hv h1 hc.lt a2 a1).2.2]

/-- **C79**: after an error stamped `t`, with no refresh since, `Last` returns 0 and `LastErr` `t`. -/
theorem C79_err (h : Exec c rf tr ss s) (hc : CallAt tr i p op q) (hq : tr[q]? = some (.ret i r)) (hb : Calm tr n j (.ret v (some er)) m t p q) :
    (op = .last → r = .time 0) ∧ (op = .lastErr → r = .time t) := by
  obtain ⟨s0, h1, h2⟩ := h.op_out hq hc
  constructor
  · rintro rfl
    obtain ⟨t', rfl, q', s', a1, a2, rfl⟩ := h2
    rw [(hb.err h h1 hc.lt a2 a1).2.1]
  · rintro rfl
    obtain ⟨t', rfl, q', s', a1, a2, rfl⟩ := h2
    rw [(hb.err h h1 hc.lt a2 a1).2.2]

example : (trace ⟨0, 5, 0⟩ (refreshBy 0 (.ret 7 none) 100 ++ [(1, .call .last)] ++ goes 1 2 ++ refreshBy 0 (.ret 7 (some 3)) 200 ++ [(1, .call .lastErr)] ++
      goes 1 2)).map (fun tr => (tr[12]?, tr[25]?)) = some (some (.ret 1 (.time 100)), some (.ret 1 (.time 200))) := by rfl

/-- Every reading of the clock by `i` between `p` and `q` satisfies `φ`. -/
def Readings (tr : List (Ev T E F A)) (i p q : Nat) (φ : Int → Prop) : Prop :=
  ∀ (x : Nat) (now : Int), p < x → x < q → tr[x]? = some (.clock i now) → φ now

/-- The most recent error, if any. -/
def Outcome.error : Outcome T E → Option E
  | .ret _ (some e) => some e
  | _ => none

/-- `e` is the error of the most recent refresh that failed before `q`, if any. -/
def LastError (tr : List (Ev T E F A)) (q : Nat) (e : Option E) : Prop :=
  (∃ n j o, n < q ∧ tr[n]? = some (.finish j o) ∧ o.error = e ∧ e ≠ none ∧ ∀ n' j' o', n < n' → n' < q → tr[n']? = some (.finish j' o') → o'.error = none) ∨
  (e = none ∧ ∀ n j o, n < q → tr[n]? = some (.finish j o) → o.error = none)

theorem newest_error {tr : List (Ev T E F A)} (z : Nat) :
    (∃ n j o, n < z ∧ tr[n]? = some (.finish j o) ∧ o.error ≠ none ∧ ∀ n' j' o', n < n' → n' < z → tr[n']? = some (.finish j' o') → o'.error = none) ∨
    (∀ n j o, n < z → tr[n]? = some (.finish j o) → o.error = none) := by
  induction z with
  | zero => exact .inr fun n j o h => by omega
  | succ z ih =>
    by_cases h : ∃ j o, tr[z]? = some (.finish j o) ∧ o.error ≠ none
    · obtain ⟨j, o, h1, h2⟩ := h
      exact .inl ⟨z, j, o, by omega, h1, h2, fun n' j' o' a b => by omega⟩
    · have hz : ∀ j o, tr[z]? = some (.finish j o) → o.error = none := by
        intro j o h1
        cases h2 : o.error with
        | none => rfl
        | some v => exact absurd ⟨j, o, h1, by rw [h2]; nofun⟩ h
      rcases ih with ⟨n, j, o, h1, h2, h3, h4⟩ | h1
      · refine .inl ⟨n, j, o, by omega, h2, h3, ?_⟩
        intro n' j' o' h5 h6 h7
        rcases Nat.lt_or_ge n' z with h8 | h8
        · exact h4 n' j' o' h5 h8 h7
        · have : n' = z := by omega
          subst this; exact hz j' o' h7
      · refine .inr fun n j o h2 h3 => ?_
        rcases Nat.lt_or_ge n z with h8 | h8
        · exact h1 n j o h8 h3
        · have : n = z := by omega
          subst this; exact hz j o h3

/-- The error field when no thread is about to write it. -/
theorem err_last (h : Exec c rf tr ss s) (hno : ∀ i er r, s.pc i ≠ .wErr er r) : LastError tr tr.length s.err := by
  rcases newest_error (tr := tr) tr.length with ⟨n, j, o, h1, h2, h3, h4⟩ | h1
  · rcases o with ⟨v, _ | er⟩ | _
    · exact absurd rfl h3
    · have hn : NewestErr tr n j v er := by
        refine ⟨h2, fun n' j' v' er' a b => ?_⟩
        have := h4 n' j' _ a (get_lt b) b
        cases this
      rcases h.err.1 n j v er hn with ⟨r, h5⟩ | h5
      · exact absurd h5 (hno _ _ _)
      · exact .inl ⟨n, j, _, h1, h2, by rw [h5]; rfl, by rw [h5]; nofun, h4⟩
    · exact absurd rfl h3
  · refine .inr ⟨h.err.2 fun n j v er h2 => ?_, h1⟩
    have := h1 n j _ (get_lt h2) h2
    cases this

theorem Calm.no_wErr {o : Outcome T E} (hb : Calm tr n j o m t p q) (h : Exec c rf tr ss s) (hpq : p < q) {q' : Nat} {s' : State T E F A}
    (hs : (ss.take q)[q']? = some s') (hq : p < q') : LastError tr q s'.err := by
  obtain ⟨w, r, h1, h2, h3⟩ := hb.over
  have hs' := get_take.1 hs
  have e1 := h.state hs'.2
  have hlen : (tr.take (q' + 1)).length = q' + 1 := by
    have := get_lt hs'.2
    rw [List.length_take, h.len]; omega
  have hn : Newest (tr.take (q' + 1)) n j o :=
    ⟨get_take.2 ⟨by omega, hb.at_⟩, fun x j' o' b1 b2 => hb.none_ x j' o' b1 (by have := (get_take.1 b2).1; omega) (get_take.1 b2).2⟩
  have ho : Over (tr.take (q' + 1)) n j p := .inl ⟨w, r, h1, by omega, get_take.2 ⟨by omega, h3⟩⟩
  have key := err_last e1 (by
    intro k er r' hpc
    have hp := e1.pcs k
    rw [hpc] at hp
    obtain ⟨n', v', w1, _⟩ := hp
    have a1 := newest_of_wb e1 (by rw [hpc]; trivial) w1 hn.at_
    have a2 : n' = n := by
      rcases Nat.lt_or_ge n n' with h | h
      · exact absurd w1.at_ (hn.last _ _ _ h)
      · omega
    subst a2
    obtain ⟨rfl, _⟩ := get_same w1.at_ hn.at_
    exact ho.not_wb e1 hn (by rw [hpc]; trivial) w1)
  rw [hlen] at key
  have late : ∀ {x k : Nat} {o' : Outcome T E}, x < q → tr[x]? = some (.finish k o') → x < q' + 1 := by
    intro x k o' hx hk
    rcases Nat.lt_or_ge n x with h' | h'
    · exact absurd hk (hb.none_ x k o' h' hx)
    · omega
  rcases key with ⟨n0, j0, o0, g1, g2, g3, g4, g5⟩ | ⟨g1, g2⟩
  · refine .inl ⟨n0, j0, o0, by omega, (get_take.1 g2).2, g3, g4, ?_⟩
    intro n' j' o' b1 b2 b3
    have := late b2 b3
    exact g5 n' j' o' b1 this (get_take.2 ⟨this, b3⟩)
  · refine .inr ⟨g1, fun n' j' o' b2 b3 => ?_⟩
    have := late b2 b3
    exact g2 n' j' o' this (get_take.2 ⟨this, b3⟩)

/-- **C80**: after a success with `v`, with no refresh and no `Clear` since, `Raw` returns `v`; with no error while it is fresh, with the
most recent error after that, if any (for clocks not less than `errAge`). It starts no refresh. -/
theorem C80_ok {o : Outcome T E} (h : Exec c rf tr ss s) (hc : CallAt tr i p .raw q) (hq : tr[q]? = some (.ret i r)) (hb : Calm tr n j o m t p q)
    (hv : o.yield c.zero = some v) :
    NoStart tr i p q ∧ (FreshFor c tr i p q t → r = .val v none) ∧
    (Readings tr i p q (fun now => c.maxAge ≤ now - t ∧ c.errAge ≤ now) → (c.maxAge < 0 → t ≤ 0) → ∃ e, r = .val v e ∧ LastError tr q e) := by
  obtain ⟨s0, h1, h2⟩ := h.op_out hq hc
  have hk : ∀ {q' : Nat} {s' : State T E F A}, (ss.take q)[q']? = some s' → p < q' → s'.data = v ∧ s'.last = t ∧ s'.lastErr = 0 :=
    fun a b => hb.ok h hv h1 hc.lt a b
  refine ⟨?_, ?_, ?_⟩
  · intro z f a old hz hzq hs
    obtain ⟨p', op', b1, b2⟩ := C76 h hs
    have : p' = p ∧ op' = .raw := by
      have hc' : CallAt tr i p .raw z := ⟨hz, hc.at_, fun k op' a b => hc.only k op' a (by omega)⟩
      rcases Nat.lt_trichotomy p' p with h' | h' | h'
      · exact absurd hc.at_ (b1.only p _ h' hz)
      · subst h'
        have := hc.at_
        rw [b1.at_] at this
        injection this with this
        injection this with _ this
        exact ⟨rfl, this⟩
      · exact absurd b1.at_ (hc'.only p' _ h' b1.lt)
    obtain ⟨rfl, rfl⟩ := this
    rcases b2 with b2 | b2 | ⟨b2 | b2, _⟩ <;> cases b2
  · intro hf
    cases h2 with
    | data d a1 =>
      obtain ⟨l, q1, _, _, _, q2, s2, b1, b2, b3⟩ := a1
      rw [← b3, (hk b2 (by omega)).1]
    | err e a1 a2 => exact (a1.not_fresh (fun q' s' a b => (hk a b).2.1) (hf.take (Nat.le_refl _))).elim
    | both d e a1 a2 a3 => exact (a1.1.not_fresh (fun q' s' a b => (hk a b).2.1) (hf.take (Nat.le_refl _))).elim
  · intro hf hneg
    cases h2 with
    | data d a1 =>
      exfalso
      obtain ⟨l, q1, a1, ⟨s1, a2, a3⟩, a4, _⟩ := a1
      have := (hk a2 a1).2.1
      rcases a4 with a4 | ⟨q2, now, b1, b2, b3⟩
      · have := hneg a4.1; omega
      · have := (hf q2 now b1 (get_take.1 b2).1 (get_take.1 b2).2).1; omega
    | err e a1 a2 =>
      exfalso
      obtain ⟨h0, l, q1, a1, ⟨s1, a2, a3⟩, ⟨q2, now, b1, b2, b3⟩, _⟩ := a2
      have := (hk a2 a1).2.2
      have := (hf q2 now b1 (get_take.1 b2).1 (get_take.1 b2).2).2; omega
    | both d e a1 a2 a3 =>
      obtain ⟨q2, s2, b1, b2, rfl⟩ := a2
      obtain ⟨q3, s3, b4, b5, rfl⟩ := a3
      exact ⟨_, by rw [(hk b2 b1).1], hb.no_wErr h hc.lt b5 b4⟩

/-- **C80**: after an error, with no refresh since, `Raw` returns the error; with the zero value during `errAge`, with the last good
value after that (for clocks not less than `maxAge`). -/
theorem C80_err (h : Exec c rf tr ss s) (hc : CallAt tr i p .raw q) (hq : tr[q]? = some (.ret i r))
    (hb : Calm tr n j (.ret v (some er)) m t p q) (hclk : ClockFrom tr i p q c.maxAge) :
    (0 < c.errAge → Readings tr i p q (fun now => now - t < c.errAge) → r = .val c.zero (some er)) ∧
    (Readings tr i p q (fun now => c.errAge ≤ now - t) → ∃ d, r = .val d (some er) ∧ MostRecent (Outcome.yield c.zero) c.zero tr n d) := by
  obtain ⟨s0, h1, h2⟩ := h.op_out hq hc
  have hk : ∀ {q' : Nat} {s' : State T E F A}, (ss.take q)[q']? = some s' → p < q' → s'.err = some er ∧ s'.last = 0 ∧ s'.lastErr = t :=
    fun a b => hb.err h h1 hc.lt a b
  have nodata : ∀ {d}, ¬ DataHit c (tr.take q) (ss.take q) i p d := by
    rintro d ⟨l, q1, a1, ⟨s1, a2, a3⟩, a4, _⟩
    have := (hk a2 (by omega)).2.1
    rcases a4 with a4 | ⟨q2, now, b1, b2, b3⟩
    · omega
    · have b2' := get_take.1 b2
      have := hclk q2 now (by omega) b2'.1 b2'.2
      omega
  constructor
  · intro hage hf
    cases h2 with
    | data d a1 => exact absurd a1 nodata
    | err e a1 a2 =>
      obtain ⟨h0, l, q1, a1, _, _, q3, s3, b4, b5, b6⟩ := a2
      rw [← b6, (hk b5 (by omega)).1]
    | both d e a1 a2 a3 =>
      exfalso
      obtain ⟨l, ⟨q1, s1, b1, b2, b3⟩, ⟨q2, now, b4, b5, b6⟩⟩ := a1.2 hage
      have := (hk b2 b1).2.2
      have := hf q2 now b4 (get_take.1 b5).1 (get_take.1 b5).2
      omega
  · intro hf
    cases h2 with
    | data d a1 => exact absurd a1 nodata
    | err e a1 a2 =>
      exfalso
      obtain ⟨h0, l, q1, a1, ⟨s1, a2, a3⟩, ⟨q2, now, b1, b2, b3⟩, _⟩ := a2
      have := (hk a2 a1).2.2
      have := hf q2 now b1 (get_take.1 b2).1 (get_take.1 b2).2; omega
    | both d e a1 a2 a3 =>
      obtain ⟨q2, s2, b1, b2, rfl⟩ := a2
      obtain ⟨q3, s3, b4, b5, rfl⟩ := a3
      refine ⟨_, by rw [(hk b5 b4).1], ?_⟩
      -- the data is that of the newest success before `n`
      have b2' := get_take.1 b2
      have e1 := h.state b2'.2
      obtain ⟨w, r', g1, g2, g3⟩ := hb.over
      have ho : Over tr n j p := .inl ⟨w, r', g1, by omega, g3⟩
      have hn : Newest (tr.take (q2 + 1)) n j (.ret v (some er)) :=
        ⟨get_take.2 ⟨by omega, hb.at_⟩, fun x j' o' b1 b2 => hb.none_ x j' o' b1 (by have := (get_take.1 b2).1; omega) (get_take.1 b2).2⟩
      rcases newest_exists (tr := tr) (Outcome.yield c.zero) n with ⟨n0, j0, o0, v0, c1, c2, c3, c4⟩ | c1
      · have hno : NewestOk c (tr.take (q2 + 1)) n0 j0 o0 v0 := by
          refine ⟨get_take.2 ⟨by omega, c2⟩, c3, fun n' j' o' d1 d2 => ?_⟩
          have d2' := get_take.1 d2
          rcases Nat.lt_trichotomy n' n with h' | h' | h'
          · exact c4 n' j' o' d1 h' d2'.2
          · subst h'
            obtain ⟨_, rfl⟩ := get_same d2'.2 hb.at_
            rfl
          · exact absurd d2 (hn.last n' j' o' h')
        rcases e1.data.1 n0 j0 o0 v0 hno with ⟨r, h6⟩ | h6
        · exfalso
          have hp := e1.pcs j0
          rw [h6] at hp
          obtain ⟨n', o', w1, w2, _⟩ := hp
          have a1 := newest_of_wb e1 (by rw [h6]; trivial) w1 hn.at_
          have a2 : n' = n := by
            rcases Nat.lt_or_ge n n' with h | h
            · exact absurd w1.at_ (hn.last _ _ _ h)
            · omega
          subst a2
          obtain ⟨_, rfl⟩ := get_same w1.at_ hn.at_
          cases w2
        · exact .inl ⟨n0, j0, o0, c1, c2, by rw [c3, h6], c4⟩
      · refine .inr ⟨e1.data.2 fun n' j' o' d2 => ?_, c1⟩
        have d2' := get_take.1 d2
        rcases Nat.lt_trichotomy n' n with h' | h' | h'
        · exact c1 n' j' o' h' d2'.2
        · subst h'
          obtain ⟨_, rfl⟩ := get_same d2'.2 hb.at_
          rfl
        · exact absurd d2 (hn.last n' j' o' h')

/-- A success at 100, an error at 200; `Raw` at 205 and at 211 with `errAge` 10. -/
example : (trace ⟨0, 5, 10⟩ (refreshBy 0 (.ret 7 none) 100 ++ refreshBy 0 (.ret 8 (some 3)) 200 ++
      [(1, .call .raw), (1, .go), (1, .time 205), (1, .time 205)] ++ goes 1 3 ++
      [(1, .call .raw), (1, .go), (1, .time 211), (1, .time 211)] ++ goes 1 4)).map (fun tr => (tr[26]?, tr[34]?)) =
    some (some (.ret 1 (.val 0 (some 3))), some (.ret 1 (.val 7 (some 3)))) := by rfl

/-! ## C81 -/

theorem Exec.lastErrSrc (h : Exec c rf tr ss s) (hne : s.lastErr ≠ 0) : ∃ n m j v er, tr[n]? = some (.finish j (.ret v (some er))) ∧
    Stamp tr j n m s.lastErr := by
  induction h with
  | nil => exact absurd rfl hne
  | snoc h1 h2 ih =>
    rename_i tr ss s i inp s' e
    have hpi := h1.pcs i
    rcases step_lastErr h2 with h6 | ⟨r, h6, h7, _, _⟩ | ⟨t', r, h6, h7, h8, h9⟩
    · rw [h6] at hne ⊢
      obtain ⟨n, m, j, v, er, a1, a2⟩ := ih hne
      exact ⟨n, m, j, v, er, get_keep a1, a2.ext⟩
    · exact absurd h7 hne
    · rw [h6] at hpi
      obtain ⟨n, v, er, m, w1, w3⟩ := hpi
      exact ⟨n, m, i, v, er, get_keep w1.at_, by rw [h7]; exact w3.ext⟩

/-- The error in the cache comes from a failure, no older than any that wrote its error. -/
theorem Exec.errSrc (h : Exec c rf tr ss s) : ∀ (n j : Nat) (v : T) (er : E), tr[n]? = some (.finish j (.ret v (some er))) →
    ((∃ er r, s.pc j = .wErr er r) ∧ Never tr j n Ev.isLoud) ∨
    ∃ n' j' v' er', n ≤ n' ∧ tr[n']? = some (.finish j' (.ret v' (some er'))) ∧ s.err = some er' := by
  induction h with
  | nil => intro n j v er h; simp at h
  | snoc h1 h2 ih =>
    rename_i tr ss s i inp s' e
    intro n j v er hn
    have hpi := h1.pcs i
    rcases get_snoc.1 hn with hn' | ⟨rfl, rfl⟩
    · rcases ih n j v er hn' with ⟨⟨er1, r, h3⟩, h4⟩ | ⟨n', j', v', er', h3, h4, h5⟩
      · by_cases hj : j = i
        · subst hj
          rw [h3] at hpi
          obtain ⟨n', v', w1, w3⟩ := hpi
          cases inp <;> simp only [step, h3, reduceCtorEq, Option.some.injEq, Prod.mk.injEq] at h2
          obtain ⟨rfl, rfl⟩ := h2
          exact .inr ⟨n', j, v', er1, newest_of_wb h1 (by rw [h3]; trivial) w1 hn', get_keep w1.at_, rfl⟩
        · refine .inl ⟨⟨er1, r, by rw [step_other h2 hj, h3]⟩, ?_⟩
          exact h4.ext (P := fun _ => False) (Ext.snoc fun h => hj (by rw [← h, step_tid h2])) (fun _ h => h.elim)
      · rcases step_err h2 with h6 | ⟨er1, r, h6, h7⟩
        · exact .inr ⟨n', j', v', er', h3, get_keep h4, by rw [h6, h5]⟩
        · rw [h6] at hpi
          obtain ⟨n', v', w1, w3⟩ := hpi
          exact .inr ⟨n', i, v', er1, newest_of_wb h1 (by rw [h6]; trivial) w1 hn', get_keep w1.at_, h7⟩
    · obtain ⟨rfl, _, rfl⟩ := step_finish h2
      refine .inl ⟨?_, Never.fresh⟩
      simp only [State.go, Function.update_self]
      exact ⟨_, _, rfl⟩

/-- **C81**: an error that a `Get` serves without a refresh of its own comes with the zero value, and is that of a refresh that failed, the
same or newer than one that failed less than `errAge` ago at the time of a check. For clocks not less than `errAge`. -/
theorem C81 (h : Exec c rf tr ss s) (hc : CallAt tr i p op q) (hg : op.isGet) (hq : tr[q]? = some (.ret i (.val v (some er))))
    (hns : NoStart tr i p q) (hclk : ClockFrom tr i p q c.errAge) :
    v = c.zero ∧ 0 < c.errAge ∧ ∃ n j v0 e0 m t n' j' v', tr[n]? = some (.finish j (.ret v0 (some e0))) ∧ Stamp tr j n m t ∧
      (∃ x now, p < x ∧ x < q ∧ tr[x]? = some (.clock i now) ∧ now - t < c.errAge) ∧
      n ≤ n' ∧ n' < q ∧ tr[n']? = some (.finish j' (.ret v' (some er))) := by
  obtain ⟨s0, h1, h2⟩ := h.get_out hq hc hg
  have key : v = c.zero ∧ ErrHit c (tr.take q) (ss.take q) i p (some er) := by
    generalize hr : (Res.val v (some er) : Res T E) = r at h2
    cases h2 with
    | fastData d a1 a2 a3 => cases hr
    | fastErr e a1 a2 a3 a4 => injection hr with hr1 hr2; subst hr2; exact ⟨hr1, a4⟩
    | lockData k d a1 a2 a3 a4 a5 a6 => cases hr
    | lockErr k e a1 a2 a3 a4 a5 a6 a7 => injection hr with hr1 hr2; subst hr2; exact ⟨hr1, a7.mono (by omega)⟩
    | refreshed k z n' f a old o a1 a2 a3 a4 a5 a6 a7 a8 a9 a10 =>
      have := get_take.1 a5
      exact absurd this.2 (hns z f a old (by omega) this.1)
  obtain ⟨hv, h0, l, q1, a1, ⟨s1, a2, a3⟩, ⟨x, now, a4, a5, a6⟩, q2, s2, b1, b2, b3⟩ := key
  have a5' := get_take.1 a5
  have := hclk x now a4 a5'.1 a5'.2
  have e1 := h1.state a2
  have e2 := h1.state b2
  obtain ⟨n, m, j, v0, e0, g1, g2⟩ := e1.lastErrSrc (by omega)
  rw [a3] at g2
  have g1' := get_take.1 g1
  have g2' := get_take.1 g2.at_
  have hnm := g2.lt
  refine ⟨hv, h0, n, j, v0, e0, m, l, ?_⟩
  rcases e2.errSrc n j v0 e0 (get_take.2 ⟨by omega, g1'.2⟩) with ⟨⟨er1, r, c1⟩, c2⟩ | ⟨n', j', v', er', c1, c2, c3⟩
  · exfalso
    have hp := e2.pcs j
    rw [c1] at hp
    obtain ⟨n0, v1, w1, w3⟩ := hp
    have := newest_of_wb e2 (by rw [c1]; trivial) w1 (get_take.2 ⟨by omega, g1'.2⟩ : (((tr.take q)).take (q2 + 1))[n]? = _)
    have hn0 : n0 = n := by
      rcases Nat.lt_or_ge n n0 with h | h
      · exact absurd trivial (c2 n0 _ h w1.at_ rfl)
      · omega
    subst hn0
    exact absurd trivial (w3 m _ hnm (get_take.2 ⟨by omega, g2'.2⟩) rfl)
  · rw [b3] at c3
    injection c3 with c3
    subst c3
    have c2' := get_take.1 (get_take.1 c2).2
    exact ⟨n', j', v', (get_take.1 g1'.2).2, g2.of_take.of_take, ⟨x, now, a4, a5'.1, a5'.2, a6⟩, c1, c2'.1, c2'.2⟩

/-- An error at 100 is served at 109 but not at 110, with `errAge` 10. -/
example : (trace ⟨0, 5, 10⟩ (refreshBy 0 (.ret 7 (some 3)) 100 ++ [(1, .call (.get 0 0)), (1, .go), (1, .time 109), (1, .time 109)] ++
      goes 1 3 ++ [(1, .call (.get 0 0)), (1, .go), (1, .time 110), (1, .time 110)] ++ goes 1 2)).map (·.drop 16) =
    some [.ret 1 (.val 0 (some 3)), .call 1 (.get 0 0), .tau 1, .clock 1 110, .clock 1 110, .tau 1, .locked 1] := by rfl

end Verif.Refresh
