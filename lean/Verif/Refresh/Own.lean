import Verif.Refresh.Inv
/-!
# The invariant of a thread is kept by all steps
-/
namespace Verif.Refresh
variable {T E F A : Type}
variable {c : Cfg T} {rf : F} {tr tr' : List (Ev T E F A)} {ss ss' : List (State T E F A)} {i : Nat}
  {P : Ev T E F A → Prop} {s s' : State T E F A} {e : Ev T E F A} {inp : In T E F A}

/-- More states. -/
def Sx (ss ss' : List (State T E F A)) : Prop := ∀ (k : Nat) (s : State T E F A), ss[k]? = some s → ss'[k]? = some s

theorem Sx.snoc : Sx ss (ss ++ [s]) := fun _ _ => get_keep

/-- The new events of the thread are internal steps or readings of the clock. -/
def Quiet (P : Ev T E F A → Prop) : Prop := ∀ e, P e → ¬ e.isLoud

theorem Quiet.call (h : Quiet P) : ∀ e, P e → ¬ e.isCall := fun e he hc => h e he (by cases e <;> trivial)
theorem Quiet.locked (h : Quiet P) : ∀ e, P e → ¬ e.isLocked := fun e he hc => h e he (by cases e <;> trivial)
theorem Quiet.start (h : Quiet P) : ∀ e, P e → ¬ e.isStart := fun e he hc => h e he (by cases e <;> trivial)

theorem Saw.ext {p : Nat} {φ : State T E F A → Prop} (h : Saw ss p φ) (hs : Sx ss ss') : Saw ss' p φ := by
  obtain ⟨q, s, h1, h2, h3⟩ := h
  exact ⟨q, s, h1, hs _ _ h2, h3⟩

theorem Clk.ext {p : Nat} {φ : Int → Prop} (h : Clk tr i p φ) (hx : Ext tr tr' i P) : Clk tr' i p φ := by
  obtain ⟨q, s, h1, h2, h3⟩ := h
  exact ⟨q, s, h1, hx.keep _ _ h2, h3⟩

theorem Hit.ext {p : Nat} (h : Hit c tr ss i p) (hx : Ext tr tr' i P) (hs : Sx ss ss') : Hit c tr' ss' i p := by
  obtain ⟨l, h1, h2⟩ := h
  exact ⟨l, h1.ext hs, h2.imp id (·.ext hx)⟩

theorem DataHit.ext {p : Nat} {d : T} (h : DataHit c tr ss i p d) (hx : Ext tr tr' i P) (hs : Sx ss ss') :
    DataHit c tr' ss' i p d := by
  obtain ⟨l, q, h1, ⟨s, h2, h3⟩, h4, h5⟩ := h
  exact ⟨l, q, h1, ⟨s, hs _ _ h2, h3⟩, h4.imp id (·.ext hx), h5.ext hs⟩

theorem DataFail.ext {p : Nat} (h : DataFail c tr ss i p) (hx : Ext tr tr' i P) (hs : Sx ss ss') : DataFail c tr' ss' i p := by
  obtain ⟨⟨l, h1, h2⟩, h3⟩ := h
  exact ⟨⟨l, h1.ext hs, h2.ext hx⟩, fun h => (h3 h).ext hs⟩

theorem EHit.ext {p : Nat} (h : EHit c tr ss i p) (hx : Ext tr tr' i P) (hs : Sx ss ss') : EHit c tr' ss' i p := by
  obtain ⟨h0, l, h1, h2⟩ := h
  exact ⟨h0, l, h1.ext hs, h2.ext hx⟩

theorem ErrHit.ext {p : Nat} {d : Option E} (h : ErrHit c tr ss i p d) (hx : Ext tr tr' i P) (hs : Sx ss ss') :
    ErrHit c tr' ss' i p d := by
  obtain ⟨h0, l, q, h1, ⟨s, h2, h3⟩, h4, h5⟩ := h
  exact ⟨h0, l, q, h1, ⟨s, hs _ _ h2, h3⟩, h4.ext hx, h5.ext hs⟩

theorem Missed.ext {p : Nat} (h : Missed c tr ss i p) (hx : Ext tr tr' i P) (hs : Sx ss ss') : Missed c tr' ss' i p := by
  obtain ⟨h1, h2⟩ := h
  exact ⟨h1.ext hx hs, fun h => let ⟨l, a, b⟩ := h2 h; ⟨l, a.ext hs, b.ext hx⟩⟩

theorem Pre.ext {p : Nat} {op : Op F A} (h : Pre tr i p op) (hx : Ext tr tr' i P) (hq : Quiet P) : Pre tr' i p op :=
  ⟨hx.keep _ _ h.at_, h.noCall.ext hx hq.call, h.noLock.ext hx hq.locked, h.noStart.ext hx hq.start⟩

theorem Lk.ext {p k : Nat} {op : Op F A} (h : Lk tr i p op k) (hx : Ext tr tr' i P) (hq : Quiet P) : Lk tr' i p op k :=
  ⟨hx.keep _ _ h.at_, h.lt, hx.keep _ _ h.lock, h.noCall.ext hx hq.call, h.oneLock.ext hx hq.locked, h.noStart.ext hx hq.start⟩

theorem St.ext {p k z : Nat} {op : Op F A} (h : St c tr ss i p op k z) (hx : Ext tr tr' i P) (hs : Sx ss ss')
    (h1 : ∀ e, P e → ¬ e.isCall) (h2 : ∀ e, P e → ¬ e.isLocked) (h3 : ∀ e, P e → ¬ e.isStart) : St c tr' ss' i p op k z :=
  ⟨hx.keep _ _ h.at_, h.lt, hx.keep _ _ h.lock, h.lt', let ⟨f, a, o, h⟩ := h.start; ⟨f, a, o, hx.keep _ _ h⟩,
    h.noCall.ext hx h1, h.oneLock.ext hx h2, h.oneStart.ext hx h3, fun ho => ⟨(h.miss ho).1.ext hx hs, (h.miss ho).2.ext hx hs⟩⟩

theorem WB.ext {n : Nat} {o : Outcome T E} {r : Res T E} (h : WB c tr ss i n o r) (hx : Ext tr tr' i P) (hs : Sx ss ss')
    (hq : Quiet P) : WB c tr' ss' i n o r :=
  ⟨let ⟨p, op, k, z, h, h'⟩ := h.st; ⟨p, op, k, z, h.ext hx hs hq.call hq.locked hq.start, h'⟩, hx.keep _ _ h.at_, h.res, h.quiet.ext hx hq⟩

theorem GetOut.ext {p : Nat} {r : Res T E} (h : GetOut c tr ss i p r) (hx : Ext tr tr' i P) (hs : Sx ss ss')
    (h2 : ∀ e, P e → ¬ e.isLocked) (h3 : ∀ e, P e → ¬ e.isStart) : GetOut c tr' ss' i p r := by
  cases h with
  | fastData d a b g => exact .fastData d (a.ext hx h2) (b.ext hx h3) (g.ext hx hs)
  | fastErr e a b g g' => exact .fastErr e (a.ext hx h2) (b.ext hx h3) (g.ext hx hs) (g'.ext hx hs)
  | lockData k d a b g g1 g2 g3 =>
    exact .lockData k d a (hx.keep _ _ b) (g.ext hx h2) (g1.ext hx h3) (g2.ext hx hs) (g3.ext hx hs)
  | lockErr k e a b g g1 g2 g3 g4 =>
    exact .lockErr k e a (hx.keep _ _ b) (g.ext hx h2) (g1.ext hx h3) (g2.ext hx hs) (g3.ext hx hs) (g4.ext hx hs)
  | refreshed k z n f a old o b1 b2 b3 b4 b5 b6 b7 b8 b9 b10 =>
    exact .refreshed k z n f a old o b1 (hx.keep _ _ b2) (b3.ext hx h2) b4 (hx.keep _ _ b5) (b6.ext hx h3)
      (b7.ext hx hs) (b8.ext hx hs) b9 (hx.keep _ _ b10)

theorem InPre.ext {Q Q' : Nat → Prop} (h : InPre tr i Q) (hx : Ext tr tr' i P) (hq : Quiet P) (hQ : ∀ p, Q p → Q' p) :
    InPre tr' i Q' := by
  obtain ⟨p, op, h1, h2, h3⟩ := h
  exact ⟨p, op, h1.ext hx hq, h2, hQ p h3⟩

theorem InLk.ext {Q Q' : Nat → Prop} (h : InLk c tr ss i Q) (hx : Ext tr tr' i P) (hs : Sx ss ss') (hq : Quiet P)
    (hQ : ∀ p, Q p → Q' p) : InLk c tr' ss' i Q' := by
  obtain ⟨p, op, k, h1, h2, h3, h4⟩ := h
  exact ⟨p, op, k, h1.ext hx hq, h2, h3.ext hx hs, hQ k h4⟩

theorem InOther.ext (h : InOther tr i) (hx : Ext tr tr' i P) (hq : Quiet P) : InOther tr' i := by
  obtain ⟨p, op, h1, h2⟩ := h
  exact ⟨p, op, h1.ext hx hq, h2⟩

theorem InEnd.ext {r : Res T E} (h : InEnd c tr ss i r) (hx : Ext tr tr' i P) (hs : Sx ss ss') (hq : Quiet P) :
    InEnd c tr' ss' i r := by
  obtain ⟨p, op, h1, h2, h3⟩ := h
  exact ⟨p, op, hx.keep _ _ h1, h2.ext hx hq.call, fun h => (h3 h).ext hx hs hq.locked hq.start⟩

/-- The invariant of a thread survives the steps of other threads. -/
theorem PcInv.other {pc : PC T E F A} (h : PcInv c tr ss i pc) (hx : Ext tr tr' i (fun _ => False)) (hs : Sx ss ss')
    (hst : ∀ n m t, Stamp tr i n m t → Stamp tr' i n m t) : PcInv c tr' ss' i pc := by
  have hq : Quiet (fun _ : Ev T E F A => False) := nofun
  have hc : ∀ e : Ev T E F A, False → ¬ e.isClock := nofun
  have hf : ∀ e : Ev T E F A, False → ¬ e.isLoud := nofun
  cases pc with
  | idle => trivial
  | cGet | gLast => exact InPre.ext h hx hq fun _ h => h
  | gChk => exact InPre.ext h hx hq fun _ h => h.ext hs
  | gData => exact InPre.ext h hx hq fun _ h => h.ext hx hs
  | gErrNow => exact InPre.ext h hx hq fun _ h => ⟨h.1.ext hx hs, h.2⟩
  | gErrChk => exact InPre.ext h hx hq fun _ h => ⟨h.1.ext hx hs, h.2.1, h.2.2.ext hx⟩
  | gErr => exact InPre.ext h hx hq fun _ h => ⟨h.1.ext hx hs, h.2.ext hx hs⟩
  | gLock => exact InPre.ext h hx hq fun _ h => h.ext hx hs
  | lLast => exact InLk.ext h hx hs hq fun _ h => h
  | lNow => exact InLk.ext h hx hs hq fun _ h hm => (h hm).ext hs
  | lChk => exact InLk.ext h hx hs hq fun _ h => ⟨fun hm => (h.1 hm).ext hs, h.2.ext hx⟩
  | lCmp => exact InLk.ext h hx hs hq fun _ h => ⟨fun hm => (h.1 hm).ext hs, h.2.ext hs⟩
  | lData => exact InLk.ext h hx hs hq fun _ h => h.ext hx hs
  | lErrNow => exact InLk.ext h hx hs hq fun _ h => ⟨h.1.ext hx hs, h.2⟩
  | lErrChk => exact InLk.ext h hx hs hq fun _ h => ⟨h.1.ext hx hs, h.2.1, h.2.2.ext hx⟩
  | lErr => exact InLk.ext h hx hs hq fun _ h => ⟨h.1.ext hx hs, h.2.ext hx hs⟩
  | old =>
    obtain ⟨p, op, k, h1, h2⟩ := h
    exact ⟨p, op, k, h1.ext hx hq, fun ho => ⟨(h2 ho).1.ext hx hs, (h2 ho).2.ext hx hs⟩⟩
  | running =>
    obtain ⟨p, op, k, z, h1, h2⟩ := h
    exact ⟨p, op, k, z, h1.ext hx hs hq.call hq.locked hq.start, h2.ext hx hf⟩
  | wData =>
    obtain ⟨n, o, h1, h2, h3⟩ := h
    exact ⟨n, o, h1.ext hx hs hq, h2, h3.ext hx hc⟩
  | wNow =>
    obtain ⟨n, o, h1, h2, h3⟩ := h
    exact ⟨n, o, h1.ext hx hs hq, h2, h3.ext hx hc⟩
  | wLast =>
    obtain ⟨n, o, m, h1, h2, h3⟩ := h
    exact ⟨n, o, m, h1.ext hx hs hq, h2, hst _ _ _ h3⟩
  | wLastErr =>
    obtain ⟨n, o, m, t, h1, h2, h3⟩ := h
    exact ⟨n, o, m, t, h1.ext hx hs hq, h2, hst _ _ _ h3⟩
  | wErr =>
    obtain ⟨n, v, h1, h3⟩ := h
    exact ⟨n, v, h1.ext hx hs hq, h3.ext hx hc⟩
  | wErrNow =>
    obtain ⟨n, v, e, h1, h3⟩ := h
    exact ⟨n, v, e, h1.ext hx hs hq, h3.ext hx hc⟩
  | wErrLast =>
    obtain ⟨n, v, e, m, h1, h3⟩ := h
    exact ⟨n, v, e, m, h1.ext hx hs hq, hst _ _ _ h3⟩
  | wErrClr =>
    obtain ⟨n, v, e, m, t, h1, h3⟩ := h
    exact ⟨n, v, e, m, t, h1.ext hx hs hq, hst _ _ _ h3⟩
  | unlock | done => exact InEnd.ext h hx hs hq
  | _ => exact InOther.ext h hx hq

/-! ## Steps of the thread itself -/

theorem Pre.first {op : Op F A} : Pre (tr ++ [.call i op]) i tr.length op :=
  ⟨get_new, .fresh, .fresh, .fresh⟩

theorem Pre.lock {p : Nat} {op : Op F A} (h : Pre tr i p op) : Lk (tr ++ [.locked i]) i p op tr.length := by
  have hx : Ext tr (tr ++ [Ev.locked i]) i (· = .locked i) := .snoc fun _ => rfl
  exact ⟨get_keep h.at_, get_lt h.at_, get_new, h.noCall.ext hx (by rintro e rfl; exact fun h => h),
    .fresh h.noLock, h.noStart.ext hx (by rintro e rfl; exact fun h => h)⟩

theorem InOther.pre (h : Pre tr i p op) (ho : ¬ op.isGet) : InOther tr i := ⟨p, op, h, ho⟩

theorem InOther.end {r : Res T E} (h : InOther tr i) : InEnd c tr ss i r := by
  obtain ⟨p, op, h1, h2⟩ := h
  exact ⟨p, op, h1.at_, h1.noCall, fun h => absurd h h2⟩

theorem Saw.new {p : Nat} {φ : State T E F A → Prop} (hl : p < ss.length) (h : φ s) : Saw (ss ++ [s]) p φ :=
  ⟨ss.length, s, hl, get_new, h⟩

theorem Clk.new {p : Nat} {now : Int} {φ : Int → Prop} (hl : p < tr.length) (h : φ now) : Clk (tr ++ [.clock i now]) i p φ :=
  ⟨tr.length, now, hl, get_new, h⟩

theorem Hit.data {p : Nat} (h : Hit c tr ss i p) {e : Ev T E F A} (he : ¬ e.isLoud) : DataHit c (tr ++ [e]) (ss ++ [s]) i p s.data := by
  obtain ⟨l, ⟨q, sq, h1, h2, h3⟩, h4⟩ := h
  have hx : Ext tr (tr ++ [e]) i (¬ ·.isLoud) := .snoc fun _ => he
  exact ⟨l, q, h1, ⟨sq, get_keep h2, h3⟩, h4.imp id (·.ext hx), .new (get_lt h2) rfl⟩

theorem EHit.err {p : Nat} (h : EHit c tr ss i p) {e : Ev T E F A} (he : ¬ e.isLoud) : ErrHit c (tr ++ [e]) (ss ++ [s]) i p s.err := by
  obtain ⟨h0, l, ⟨q, sq, h1, h2, h3⟩, h4⟩ := h
  have hx : Ext tr (tr ++ [e]) i (¬ ·.isLoud) := .snoc fun _ => he
  exact ⟨h0, l, q, h1, ⟨sq, get_keep h2, h3⟩, h4.ext hx, .new (get_lt h2) rfl⟩

theorem WB.end {n : Nat} {o : Outcome T E} {r : Res T E} (h : WB c tr ss i n o r) : InEnd c tr ss i r := by
  obtain ⟨p, op, k, z, h1, h2⟩ := h.st
  obtain ⟨f, a, old, h3⟩ := h1.start
  refine ⟨p, op, h1.at_, h1.noCall, fun ho => ?_⟩
  rw [h.res]
  exact .refreshed k z n f a old o h1.lt h1.lock h1.oneLock h1.lt' h3 h1.oneStart (h1.miss ho).1 (h1.miss ho).2 h2 h.at_

theorem PcInv.entry {op : Op F A} (h : Pre tr i p op) : PcInv c tr ss i (entry op) := by
  cases op with
  | get f a => exact ⟨p, _, h, trivial, trivial⟩
  | cget a => exact ⟨p, _, h, trivial, trivial⟩
  | clear f a => cases f <;> exact ⟨p, _, h, fun h => h⟩
  | _ => exact ⟨p, _, h, fun h => h⟩

theorem PcInv.back {p k z : Nat} {op : Op F A} {o : Outcome T E} (h : St c tr ss i p op k z) (hz : z < tr.length) (hl : tr.length = ss.length) :
    PcInv c (tr ++ [.finish i o]) (ss ++ [s]) i (o.back c) := by
  have hx : Ext tr (tr ++ [Ev.finish i o]) i (· = .finish i o) := .snoc fun _ => rfl
  have hw : WB c (tr ++ [.finish i o]) (ss ++ [s]) i tr.length o o.res :=
    ⟨⟨p, op, k, z, h.ext hx .snoc (by rintro e rfl; exact fun h => h) (by rintro e rfl; exact fun h => h)
      (by rintro e rfl; exact fun h => h), hz⟩, get_new, rfl, .fresh⟩
  rcases o with ⟨v, _ | er⟩ | _
  · exact ⟨_, _, hw, rfl, .fresh⟩
  · exact ⟨_, _, hw, .fresh⟩
  · exact ⟨_, _, hw, rfl, .fresh⟩

theorem gNext_inv {f : F} {a : A} (h : InPre tr i fun p => DataFail c tr ss i p) : PcInv c tr ss i (gNext c f a) := by
  unfold gNext
  obtain ⟨p, op, h1, h2, h3⟩ := h
  split
  · next he => exact ⟨p, op, h1, h2, h3, he⟩
  · next he => exact ⟨p, op, h1, h2, h3, fun h => absurd h he⟩

theorem lNext_inv {f : F} {a : A} (h : InLk c tr ss i fun p => DataFail c tr ss i p) : PcInv c tr ss i (lNext c f a) := by
  unfold lNext
  obtain ⟨p, op, k, h1, h2, h3, h4⟩ := h
  split
  · next he => exact ⟨p, op, k, h1, h2, h3, h4, he⟩
  · next he => exact ⟨p, op, k, h1, fun _ => ⟨h3, h4, fun h => absurd h he⟩⟩

theorem rawNext_inv (h : InOther tr i) : PcInv c tr ss i (rawNext c) := by
  unfold rawNext
  split <;> exact h

theorem PcInv.own (hl : tr.length = ss.length) (h : step c s i inp = some (s', e)) (hi : PcInv c tr ss i (s.pc i)) :
    PcInv c (tr ++ [e]) (ss ++ [s']) i (s'.pc i) := by
  have hs : Sx ss (ss ++ [s']) := .snoc
  have hxt : Ext tr (tr ++ [Ev.tau i]) i (· = .tau i) := .snoc fun _ => rfl
  have hqt : Quiet (· = (Ev.tau i : Ev T E F A)) := by rintro e rfl; exact fun h => h
  have hct : ∀ e : Ev T E F A, e = .tau i → ¬ e.isClock := by rintro e rfl; exact fun h => h
  have hxc : ∀ now, Ext tr (tr ++ [Ev.clock i now]) i (· = .clock i now) := fun now => .snoc fun _ => rfl
  have hqc : ∀ now, Quiet (· = (Ev.clock i now : Ev T E F A)) := by rintro now e rfl; exact fun h => h
  have hlt : ∀ {p : Nat} {e : Ev T E F A}, tr[p]? = some e → p < ss.length := fun h => hl ▸ get_lt h
  cases hpc : s.pc i <;> cases inp <;> simp only [step, hpc, reduceCtorEq, Option.some.injEq, Prod.mk.injEq] at h
  all_goals rw [hpc] at hi
  all_goals try (obtain ⟨rfl, rfl⟩ := h)
  all_goals try (simp only [State.go, Function.update_self])
  case idle.call op => exact PcInv.entry .first
  case cGet.go => exact InPre.ext hi hxt hqt fun _ h => h
  case cRefresh.go => exact InOther.ext hi hxt hqt
  case cClear.go => split <;> exact InOther.ext hi hxt hqt
  case setRefresh.go f =>
    have hx : Ext tr (tr ++ [Ev.stored i f]) i (· = .stored i f) := .snoc fun _ => rfl
    obtain ⟨p, op, h1, h2⟩ := hi
    exact InOther.end ⟨p, op, ⟨get_keep h1.at_, h1.noCall.ext hx (by rintro e rfl; exact fun h => h),
      h1.noLock.ext hx (by rintro e rfl; exact fun h => h), h1.noStart.ext hx (by rintro e rfl; exact fun h => h)⟩, h2⟩
  case setClear.go f =>
    have hx : Ext tr (tr ++ [Ev.storedClear i f]) i (· = .storedClear i f) := .snoc fun _ => rfl
    obtain ⟨p, op, h1, h2⟩ := hi
    exact InOther.end ⟨p, op, ⟨get_keep h1.at_, h1.noCall.ext hx (by rintro e rfl; exact fun h => h),
      h1.noLock.ext hx (by rintro e rfl; exact fun h => h), h1.noStart.ext hx (by rintro e rfl; exact fun h => h)⟩, h2⟩
  case gLast.go =>
    obtain ⟨p, op, h1, h2, _⟩ := hi
    exact ⟨p, op, h1.ext hxt hqt, h2, .new (hlt h1.at_) rfl⟩
  case gChk.go =>
    split at h
    · next hm =>
      simp only [Option.some.injEq, Prod.mk.injEq] at h; obtain ⟨rfl, rfl⟩ := h
      simp only [State.go, Function.update_self]
      exact InPre.ext hi hxt hqt fun p h => ⟨_, h.ext .snoc, .inl hm⟩
    · cases h
  case gChk.time l now =>
    split at h
    · cases h
    · next hm =>
      simp only [Option.some.injEq, Prod.mk.injEq] at h; obtain ⟨rfl, rfl⟩ := h
      simp only [State.go, Function.update_self]
      obtain ⟨p, op, h1, h2, h3⟩ := hi
      have h4 := h1.ext (hxc now) (hqc now)
      split
      · next hn => exact ⟨p, op, h4, h2, l, h3.ext .snoc, .inr (.new (get_lt h1.at_) hn)⟩
      · next hn =>
        refine gNext_inv ⟨p, op, h4, h2, ⟨l, h3.ext .snoc, .new (get_lt h1.at_) hn⟩, fun hneg => ?_⟩
        obtain ⟨q, sq, a1, a2, a3⟩ := h3
        exact ⟨q, sq, a1, get_keep a2, fun hp => hm ⟨hneg, a3 ▸ hp⟩⟩
  case gData.go =>
    obtain ⟨p, op, h1, h2, h3⟩ := hi
    have h4 := h1.ext hxt hqt
    exact ⟨p, op, h4.at_, h4.noCall, fun _ => .fastData _ h4.noLock h4.noStart (h3.data (s := s.go i _) (fun h => h))⟩
  case gErrNow.time now =>
    obtain ⟨p, op, h1, h2, h3, h4⟩ := hi
    exact ⟨p, op, h1.ext (hxc now) (hqc now), h2, h3.ext (hxc now) hs, h4, .new (get_lt h1.at_) rfl⟩
  case gErrChk.go now =>
    obtain ⟨p, op, h1, h2, h3, h4, h5⟩ := hi
    obtain ⟨q, now', b1, b2, rfl⟩ := h5
    have h5 := h1.ext hxt hqt
    split
    · next hn =>
      refine ⟨p, op, h5, h2, h3.ext hxt .snoc, h4, s.lastErr, .new (hlt h1.at_) rfl, ?_⟩
      exact ⟨q, _, b1, get_keep b2, hn⟩
    · next hn =>
      refine ⟨p, op, h5, h2, h3.ext hxt .snoc, fun _ => ⟨s.lastErr, .new (hlt h1.at_) rfl, ?_⟩⟩
      exact ⟨q, _, b1, get_keep b2, hn⟩
  case gErr.go =>
    obtain ⟨p, op, h1, h2, h3, h3'⟩ := hi
    have h4 := h1.ext hxt hqt
    exact ⟨p, op, h4.at_, h4.noCall, fun _ => .fastErr _ h4.noLock h4.noStart (h3.ext hxt .snoc)
      (h3'.err (s := s.go i _) (fun h => h))⟩
  case gLock.go =>
    split at h
    · simp only [Option.some.injEq, Prod.mk.injEq] at h; obtain ⟨rfl, rfl⟩ := h
      simp only [State.go, Function.update_self]
      obtain ⟨p, op, h1, h2, h3⟩ := hi
      have hx : Ext tr (tr ++ [Ev.locked i]) i (· = .locked i) := .snoc fun _ => rfl
      split
      · exact ⟨p, op, tr.length, h1.lock, h2, h3.ext hx .snoc, by assumption⟩
      · next hm => exact ⟨p, op, tr.length, h1.lock, h2, h3.ext hx .snoc, fun h => absurd h hm⟩
    · cases h
  case lLast.go =>
    obtain ⟨p, op, k, h1, h2, h3, hm⟩ := hi
    have h4 := h1.ext hxt hqt
    split
    · next hm' => exact ⟨p, op, k, h4, h2, h3.ext hxt .snoc, s.last, .new (hlt h1.lock) rfl, .inl ⟨hm, hm'⟩⟩
    · next hm' => exact ⟨p, op, k, h4, h2, h3.ext hxt .snoc, fun _ => .new (hlt h1.lock) hm'⟩
  case lNow.time now =>
    obtain ⟨p, op, k, h1, h2, h3, hm⟩ := hi
    exact ⟨p, op, k, h1.ext (hxc now) (hqc now), h2, h3.ext (hxc now) .snoc, fun h => (hm h).ext .snoc, .new (get_lt h1.lock) rfl⟩
  case lNow.go =>
    obtain ⟨p, op, k, h1, h2, h3, hm⟩ := hi
    exact ⟨p, op, k, h1.ext hxt hqt, h2, h3.ext hxt .snoc, fun h => (hm h).ext .snoc, .new (hlt h1.lock) rfl⟩
  case lChk.go now =>
    obtain ⟨p, op, k, h1, h2, h3, hm, h5⟩ := hi
    obtain ⟨q, now', b1, b2, rfl⟩ := h5
    have h4 := h1.ext hxt hqt
    split
    · next hn => exact ⟨p, op, k, h4, h2, h3.ext hxt .snoc, s.last, .new (hlt h1.lock) rfl, .inr ⟨q, _, b1, get_keep b2, hn⟩⟩
    · next hn =>
      exact lNext_inv ⟨p, op, k, h4, h2, h3.ext hxt .snoc, ⟨s.last, .new (hlt h1.lock) rfl, ⟨q, _, b1, get_keep b2, hn⟩⟩,
        fun h => (hm h).ext .snoc⟩
  case lCmp.time l now =>
    obtain ⟨p, op, k, h1, h2, h3, hm, h5⟩ := hi
    have h4 := h1.ext (hxc now) (hqc now)
    split
    · next hn => exact ⟨p, op, k, h4, h2, h3.ext (hxc now) .snoc, l, h5.ext .snoc, .inr (.new (get_lt h1.lock) hn)⟩
    · next hn =>
      exact lNext_inv ⟨p, op, k, h4, h2, h3.ext (hxc now) .snoc, ⟨l, h5.ext .snoc, .new (get_lt h1.lock) hn⟩,
        fun h => (hm h).ext .snoc⟩
  case lData.go =>
    obtain ⟨p, op, k, h1, h2, h3, h5⟩ := hi
    have h4 := h1.ext hxt hqt
    exact ⟨p, op, h4.at_, h4.noCall, fun _ => .lockData k _ h4.lt h4.lock h4.oneLock h4.noStart (h3.ext hxt .snoc)
      (h5.data (s := s.go i _) (fun h => h))⟩
  case lErrNow.time now =>
    obtain ⟨p, op, k, h1, h2, h3, h4, h5⟩ := hi
    exact ⟨p, op, k, h1.ext (hxc now) (hqc now), h2, h3.ext (hxc now) .snoc, h4.ext (hxc now) .snoc, h5, .new (get_lt h1.lock) rfl⟩
  case lErrChk.go now =>
    obtain ⟨p, op, k, h1, h2, h3, h4, h6, h5⟩ := hi
    obtain ⟨q, now', b1, b2, rfl⟩ := h5
    have h7 := h1.ext hxt hqt
    split
    · next hn =>
      exact ⟨p, op, k, h7, h2, h3.ext hxt .snoc, h4.ext hxt .snoc, h6, s.lastErr, .new (hlt h1.lock) rfl, ⟨q, _, b1, get_keep b2, hn⟩⟩
    · next hn =>
      exact ⟨p, op, k, h7, fun _ => ⟨h3.ext hxt .snoc, h4.ext hxt .snoc, fun _ => ⟨s.lastErr, .new (hlt h1.lock) rfl,
        ⟨q, _, b1, get_keep b2, hn⟩⟩⟩⟩
  case lErr.go =>
    obtain ⟨p, op, k, h1, h2, h3, h5, h6⟩ := hi
    have h4 := h1.ext hxt hqt
    exact ⟨p, op, h4.at_, h4.noCall, fun _ => .lockErr k _ h4.lt h4.lock h4.oneLock h4.noStart (h3.ext hxt .snoc)
      (h5.ext hxt .snoc) (h6.err (s := s.go i _) (fun h => h))⟩
  case rLock.go =>
    split at h
    · simp only [Option.some.injEq, Prod.mk.injEq] at h; obtain ⟨rfl, rfl⟩ := h
      simp only [State.go, Function.update_self]
      obtain ⟨p, op, h1, h2⟩ := hi
      exact ⟨p, op, tr.length, h1.lock, fun h => absurd h h2⟩
    · cases h
  case old.go f a =>
    obtain ⟨p, op, k, h1, h2⟩ := hi
    have hx : Ext tr (tr ++ [Ev.start i f a s.data]) i (· = .start i f a s.data) := .snoc fun _ => rfl
    refine ⟨p, op, k, tr.length, ⟨get_keep h1.at_, h1.lt, get_keep h1.lock, get_lt h1.lock, ⟨f, a, s.data, get_new⟩,
      h1.noCall.ext hx (by rintro e rfl; exact fun h => h), h1.oneLock.ext hx (by rintro e rfl; exact fun h => h),
      .fresh h1.noStart, fun ho => ⟨(h2 ho).1.ext hx .snoc, (h2 ho).2.ext hx .snoc⟩⟩, .fresh⟩
  case running.fin o =>
    obtain ⟨p, op, k, z, h1, h2⟩ := hi
    obtain ⟨f, a, old, h3⟩ := h1.start
    exact PcInv.back h1 (get_lt h3) hl
  case wData.go =>
    obtain ⟨n, o, h1, h2, h3⟩ := hi
    exact ⟨n, o, h1.ext hxt .snoc hqt, by rw [h2]; rfl, h3.ext hxt hct⟩
  case wNow.time now =>
    obtain ⟨n, o, h1, h2, h3⟩ := hi
    exact ⟨n, o, tr.length, h1.ext (hxc now) .snoc (hqc now), h2, .fresh (get_lt h1.at_) h3⟩
  case wLast.go =>
    obtain ⟨n, o, m, h1, h2, h3⟩ := hi
    exact ⟨n, o, m, _, h1.ext hxt .snoc hqt, h2, h3.ext⟩
  case wLastErr.go =>
    obtain ⟨n, o, m, t, h1, h2, h3⟩ := hi
    exact (h1.ext hxt .snoc hqt).end
  case wErr.go =>
    obtain ⟨n, v, h1, h3⟩ := hi
    exact ⟨n, v, _, h1.ext hxt .snoc hqt, h3.ext hxt hct⟩
  case wErrNow.time now =>
    obtain ⟨n, v, er, h1, h3⟩ := hi
    exact ⟨n, v, er, tr.length, h1.ext (hxc now) .snoc (hqc now), .fresh (get_lt h1.at_) h3⟩
  case wErrLast.go =>
    obtain ⟨n, v, er, m, h1, h3⟩ := hi
    exact ⟨n, v, er, m, _, h1.ext hxt .snoc hqt, h3.ext⟩
  case wErrClr.go =>
    obtain ⟨n, v, er, m, t, h1, h3⟩ := hi
    exact (h1.ext hxt .snoc hqt).end
  case unlock.go => exact InEnd.ext hi hxt .snoc hqt
  case done.go => trivial
  case kStore.go x =>
    have hx : Ext tr (tr ++ [Ev.cleared i]) i (· = .cleared i) := .snoc fun _ => rfl
    obtain ⟨p, op, h1, h2⟩ := hi
    have h4 : InOther (tr ++ [Ev.cleared i]) i := ⟨p, op, ⟨get_keep h1.at_, h1.noCall.ext hx (by rintro e rfl; exact fun h => h),
      h1.noLock.ext hx (by rintro e rfl; exact fun h => h), h1.noStart.ext hx (by rintro e rfl; exact fun h => h)⟩, h2⟩
    rcases x with _ | ⟨f, a, d⟩
    · exact h4.end
    · exact h4
  case kCall.go f a d =>
    have hx : Ext tr (tr ++ [Ev.clearStart i f a d]) i (· = .clearStart i f a d) := .snoc fun _ => rfl
    obtain ⟨p, op, h1, h2⟩ := hi
    exact ⟨p, op, ⟨get_keep h1.at_, h1.noCall.ext hx (by rintro e rfl; exact fun h => h),
      h1.noLock.ext hx (by rintro e rfl; exact fun h => h), h1.noStart.ext hx (by rintro e rfl; exact fun h => h)⟩, h2⟩
  case kRun.clearFin o =>
    have hx : Ext tr (tr ++ [Ev.clearEnd i o]) i (· = .clearEnd i o) := .snoc fun _ => rfl
    obtain ⟨p, op, h1, h2⟩ := hi
    exact InOther.end ⟨p, op, ⟨get_keep h1.at_, h1.noCall.ext hx (by rintro e rfl; exact fun h => h),
      h1.noLock.ext hx (by rintro e rfl; exact fun h => h), h1.noStart.ext hx (by rintro e rfl; exact fun h => h)⟩, h2⟩
  case kLoad.go => exact InOther.ext hi hxt hqt
  case wRaw.go => exact InOther.ext hi hxt hqt
  case wRawChk.go =>
    split at h
    · simp only [Option.some.injEq, Prod.mk.injEq] at h; obtain ⟨rfl, rfl⟩ := h
      simp only [State.go, Function.update_self]
      exact InOther.ext hi hxt hqt
    · cases h
  case wRawChk.time now =>
    split at h
    · cases h
    · simp only [Option.some.injEq, Prod.mk.injEq] at h; obtain ⟨rfl, rfl⟩ := h
      simp only [State.go, Function.update_self]
      split
      · exact InOther.ext hi (hxc now) (hqc now)
      · exact rawNext_inv (InOther.ext hi (hxc now) (hqc now))
  case wRawErrNow.time now => exact InOther.ext hi (hxc now) (hqc now)
  case wRawErrChk.go => split <;> exact InOther.ext hi hxt hqt
  case wRawBoth.go => exact InOther.ext hi hxt hqt
  all_goals exact (InOther.ext hi hxt hqt).end

/-- The invariant of all threads. -/
theorem Exec.pcs (h : Exec c rf tr ss s) : ∀ i, PcInv c tr ss i (s.pc i) := by
  induction h with
  | nil => intro i; trivial
  | snoc h1 h2 ih =>
    rename_i tr ss s i inp s' e
    intro j
    by_cases hj : j = i
    · subst hj; exact PcInv.own h1.len h2 (ih j)
    · rw [step_other h2 hj]
      have ht := step_tid h2
      exact (ih j).other (.snoc fun h => hj (by rw [← h, ht])) .snoc (fun _ _ _ h => h.ext)

end Verif.Refresh
