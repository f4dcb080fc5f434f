import Verif.Refresh.Obs
import Mathlib.Data.Nat.Find
import Mathlib.Tactic.IntervalCases
/-!
# The order of what calls return (C155)

Values that calls return one after the other come from refreshes in the order in which these ended, and so do errors; but a value returned after an error
can come from an older refresh than the error.
-/
namespace Verif.Refresh
variable {T E F A X : Type}

/-! ## Specification -/

/-- `n` is the number in the trace of the end of a refresh with an outcome for which `sel` is `x`; `none` stands for the beginning, with `zero`. -/
def Source (sel : Outcome T E → Option X) (zero : X) (tr : List (Ev T E F A)) (q : Nat) (x : X) : Option Nat → Prop
  | none => x = zero
  | some n => n < q ∧ ∃ j o, tr[n]? = some (.finish j o) ∧ sel o = some x

/-- The refresh that ended at `n` is not newer than the one that ended at `m`. -/
def NotNewer : Option Nat → Option Nat → Prop
  | none, _ => True
  | some _, none => False
  | some n, some m => n ≤ m

/-- A call of `Get`, `Refresh` or `Raw` by `i` from `p` to `q`, which returns `v` and no error. -/
structure ReadsVal (c : Cfg T) (tr : List (Ev T E F A)) (i p q : Nat) (op : Op F A) (v : T) : Prop where
  call : CallAt tr i p op q
  kind : op.isGet ∨ op.isRefresh ∨ op = .raw
  ret : tr[q]? = some (.ret i (.val v none))
  clock : ∀ x now, p < x → x < q → tr[x]? = some (.clock i now) → c.errAge ≤ now

/-- A call of `Get`, `Refresh` or `Raw` by `i` from `p` to `q`, which returns an error. -/
structure ReadsErr (tr : List (Ev T E F A)) (i p q : Nat) (op : Op F A) (e : E) : Prop where
  call : CallAt tr i p op q
  kind : op.isGet ∨ op.isRefresh ∨ op = .raw
  ret : ∃ v, tr[q]? = some (.ret i (.val v (some e)))

/-! ## The two registers -/

/-- A field that a refresh writes in the first step after its function has ended. -/
structure Reg (T E F A X : Type) (c : Cfg T) where
  sel : Outcome T E → Option X
  fld : State T E F A → X
  pend : PC T E F A → Option X
  zero : X
  start : ∀ rf, fld (init c rf) = zero
  idle : pend .idle = none
  back : ∀ o : Outcome T E, pend (o.back c) = sel o
  crit : ∀ {pc x}, pend pc = some x → pc.crit
  same : ∀ {s s' i inp e}, step c s i inp = some (s', e) → pend (s.pc i) = none → fld s' = fld s
  write : ∀ {s s' i inp e x}, step c s i inp = some (s', e) → pend (s.pc i) = some x → fld s' = x
  only : ∀ {s s' i inp e x}, step c s i inp = some (s', e) → pend (s'.pc i) = some x → ∃ o, e = .finish i o ∧ sel o = some x

/-- No event of `j` after `n`. -/
def Fresh (tr : List (Ev T E F A)) (n j : Nat) : Prop := ∀ x e, n < x → tr[x]? = some e → e.tid ≠ j

/-- The refresh that ended at `n` in thread `j` has written until `y`. -/
def Done (tr : List (Ev T E F A)) (n j y : Nat) : Prop := ∃ x e, n < x ∧ x ≤ y ∧ tr[x]? = some e ∧ e.tid = j

variable {c : Cfg T} {rf : F} {tr : List (Ev T E F A)} {ss : List (State T E F A)} {s : State T E F A} {i j n p q y : Nat} {x : X} {e : Ev T E F A}

theorem Fresh.prev (h : Fresh (tr ++ [e]) n j) : Fresh tr n j := fun x e' h1 h2 => h x e' h1 (get_keep h2)

theorem Exec.pend (R : Reg T E F A X c) (h : Exec c rf tr ss s) :
    (∀ j x, R.pend (s.pc j) = some x → ∃ n o, tr[n]? = some (.finish j o) ∧ R.sel o = some x ∧ Fresh tr n j) ∧
    (∀ n j o, tr[n]? = some (.finish j o) → Fresh tr n j → R.pend (s.pc j) = R.sel o) := by
  induction h with
  | nil => exact ⟨fun j x h => absurd (h.symm.trans R.idle) (by simp), fun n j o h => by simp at h⟩
  | snoc h1 h2 ih =>
    rename_i tr ss s i inp s' e
    obtain ⟨ih1, ih2⟩ := ih
    refine ⟨fun j x hj => ?_, fun n j o hn hf => ?_⟩
    · by_cases hji : j = i
      · subst hji
        obtain ⟨o, rfl, ho⟩ := R.only h2 hj
        exact ⟨tr.length, o, get_new, ho, fun x e h3 h4 => by have := get_lt h4; simp at this; omega⟩
      · rw [step_other h2 hji] at hj
        obtain ⟨n, o, a1, a2, a3⟩ := ih1 j x hj
        refine ⟨n, o, get_keep a1, a2, fun y e' b1 b2 => ?_⟩
        rcases get_snoc.1 b2 with b3 | ⟨rfl, rfl⟩
        · exact a3 y e' b1 b3
        · rw [step_tid h2]; exact fun h => hji h.symm
    · rcases get_snoc.1 hn with h3 | ⟨rfl, rfl⟩
      · have hji : j ≠ i := by
          have := hf tr.length e (get_lt h3) get_new
          rw [step_tid h2] at this
          exact fun h => this h.symm
        rw [step_other h2 hji]
        exact ih2 n j o h3 hf.prev
      · obtain ⟨rfl, h3, rfl⟩ := step_finish h2
        simp only [State.go, Function.update_self]
        exact R.back o

/-- Between the end of a refresh and its first step no refresh ends. -/
theorem fresh_newest (R : Reg T E F A X c) (h : Exec c rf tr ss s) {o : Outcome T E} (hn : tr[n]? = some (.finish j o)) (hs : R.sel o = some x)
    {n' j' : Nat} {o' : Outcome T E} (hn' : tr[n']? = some (.finish j' o')) (hlt : n < n') (hf : Fresh (tr.take n') n j) : j' = j := by
  obtain ⟨s0, inp, s1, h1, h2, h3⟩ := h.at hn'
  obtain ⟨-, h4, -⟩ := step_finish h2
  have h5 := (h1.pend R).2 n j o (get_take.2 ⟨hlt, hn⟩) hf
  rw [hs] at h5
  exact crit_unique h1 (by rw [show Ev.tid (Ev.finish j' o' : Ev T E F A) = j' from rfl] at h4; rw [h4]; trivial) (R.crit h5)

/-- What the field is, and from which refresh. -/
def Held (R : Reg T E F A X c) (tr : List (Ev T E F A)) (y : Nat) (x : X) : Option Nat → Prop
  | none => x = R.zero ∧ ∀ n j o, tr[n]? = some (.finish j o) → (R.sel o).isSome → ¬ Done tr n j y
  | some n => (∃ j o, tr[n]? = some (.finish j o) ∧ R.sel o = some x ∧ Done tr n j y) ∧
      ∀ n' j' o', n < n' → tr[n']? = some (.finish j' o') → (R.sel o').isSome → ¬ Done tr n' j' y

theorem Done.mono {y' : Nat} (h : Done tr n j y) (hy : y ≤ y') : Done tr n j y' := by
  obtain ⟨x, e, h1, h2, h3⟩ := h
  exact ⟨x, e, h1, by omega, h3⟩

theorem Held.mono {R : Reg T E F A X c} {y' : Nat} {x' : X} {a a' : Option Nat} (h : Held R tr y x a) (h' : Held R tr y' x' a') (hy : y ≤ y') : NotNewer a a' := by
  cases a with
  | none => trivial
  | some n =>
    obtain ⟨⟨j, o, h1, h2, h3⟩, -⟩ := h
    cases a' with
    | none => exact h'.2 n j o h1 (by simp [h2]) (h3.mono hy)
    | some n' =>
      show n ≤ n'
      by_contra hc
      exact h'.2 n j o (by omega) h1 (by simp [h2]) (h3.mono hy)

theorem Held.done {R : Reg T E F A X c} {a : Option Nat} {o : Outcome T E} (h : Held R tr y x a) (hn : tr[n]? = some (.finish j o))
    (ho : (R.sel o).isSome) (hd : Done tr n j y) : NotNewer (some n) a := by
  cases a with
  | none => exact h.2 n j o hn ho hd
  | some n' =>
    show n ≤ n'
    by_contra hc
    exact h.2 n j o (by omega) hn ho hd

theorem not_fresh_done (hl : tr.length ≤ y + 1) (h : ¬ Fresh tr n j) : Done tr n j y := by
  simp only [Fresh, not_forall, not_not] at h
  obtain ⟨x, e, h1, h2, h3⟩ := h
  exact ⟨x, e, h1, by have := get_lt h2; omega, h2, h3⟩

theorem Done.not_fresh (h : Done tr n j y) : ¬ Fresh tr n j := by
  obtain ⟨x, e, h1, _, h2, h3⟩ := h
  exact fun hf => hf x e h1 h2 h3

/-- `Held` at the end of the trace. -/
theorem Exec.held (R : Reg T E F A X c) (h : Exec c rf tr ss s) : ∃ a, Held R tr (tr.length - 1) (R.fld s) a := by
  induction h with
  | nil => exact ⟨none, R.start rf, fun n j o h => by simp at h⟩
  | snoc h1 h2 ih =>
    rename_i tr ss s i inp s' e
    have hlen : (tr ++ [e]).length - 1 = tr.length := by simp
    rw [hlen]
    -- refreshes that have not written do not write unless they make this step
    have keep : ∀ (n j : Nat) (o : Outcome T E), (tr ++ [e])[n]? = some (.finish j o) → (R.sel o).isSome →
        (tr[n]? = some (.finish j o) → ¬ Done tr n j (tr.length - 1)) → R.pend (s.pc i) = none → ¬ Done (tr ++ [e]) n j tr.length := by
      rintro n j o hn ho hnd hp ⟨y, e', a1, a2, a3, a4⟩
      rcases get_snoc.1 hn with hn' | ⟨rfl, -⟩
      · have hf : Fresh tr n j := by
          by_contra hf
          exact hnd hn' (not_fresh_done (by omega) hf)
        rcases get_snoc.1 a3 with a5 | ⟨rfl, rfl⟩
        · exact hf y e' a1 a5 a4
        · have := (h1.pend R).2 n j o hn' hf
          rw [step_tid h2] at a4
          subst a4
          rw [← this, hp] at ho
          cases ho
      · omega
    cases hp : R.pend (s.pc i) with
    | none =>
      rw [R.same h2 hp]
      obtain ⟨a, ih⟩ := ih
      refine ⟨a, ?_⟩
      cases a with
      | none => exact ⟨ih.1, fun n j o hn ho => keep n j o hn ho (fun h => ih.2 n j o h ho) hp⟩
      | some n =>
        obtain ⟨⟨j, o, b1, b2, b3⟩, b4⟩ := ih
        refine ⟨⟨j, o, get_keep b1, b2, ?_⟩, fun n' j' o' c1 c2 c3 => keep n' j' o' c2 c3 (fun h => b4 n' j' o' c1 h c3) hp⟩
        obtain ⟨y, e', c1, c2, c3, c4⟩ := b3
        exact ⟨y, e', c1, by omega, get_keep c3, c4⟩
    | some x =>
      rw [R.write h2 hp]
      obtain ⟨n, o, a1, a2, a3⟩ := (h1.pend R).1 i x hp
      refine ⟨some n, ⟨i, o, get_keep a1, a2, tr.length, e, get_lt a1, Nat.le_refl _, get_new, step_tid h2⟩, ?_⟩
      intro n' j' o' c1 c2 c3 c4
      rcases get_snoc.1 c2 with c5 | ⟨rfl, -⟩
      · have := fresh_newest R h1 a1 a2 c5 c1 (fun y e' d1 d2 => a3 y e' d1 (get_take.1 d2).2)
        exact a3 n' _ c1 c5 this
      · obtain ⟨y, e', d1, d2, d3⟩ := c4; omega

theorem Held.of_take {R : Reg T E F A X c} {a : Option Nat} (h : Held R (tr.take (y + 1)) y x a) (_hy : y < tr.length) : Held R tr y x a := by
  have hd : ∀ {n j}, Done (tr.take (y + 1)) n j y ↔ Done tr n j y := by
    intro n j
    constructor
    · rintro ⟨z, e, h1, h2, h3, h4⟩; exact ⟨z, e, h1, h2, (get_take.1 h3).2, h4⟩
    · rintro ⟨z, e, h1, h2, h3, h4⟩; exact ⟨z, e, h1, h2, get_take.2 ⟨by omega, h3⟩, h4⟩
  have hb : ∀ {n j}, Done tr n j y → n < y + 1 := by rintro n j ⟨z, e, h1, h2, h3, h4⟩; omega
  cases a with
  | none => exact ⟨h.1, fun n j o h1 h2 h3 => h.2 n j o (get_take.2 ⟨hb h3, h1⟩) h2 (hd.2 h3)⟩
  | some n =>
    obtain ⟨⟨j, o, h1, h2, h3⟩, h4⟩ := h
    exact ⟨⟨j, o, (get_take.1 h1).2, h2, hd.1 h3⟩, fun n' j' o' b1 b2 b3 b4 => h4 n' j' o' b1 (get_take.2 ⟨hb b4, b2⟩) b3 (hd.2 b4)⟩

/-- What a field is at some moment. -/
theorem Exec.held_at (R : Reg T E F A X c) (h : Exec c rf tr ss s) {s1 : State T E F A} (hs : ss[y]? = some s1) : ∃ a, Held R tr y (R.fld s1) a := by
  have hl := h.len
  have hy := get_lt hs
  obtain ⟨a, ha⟩ := (h.state hs).held R
  have : (tr.take (y + 1)).length - 1 = y := by simp; omega
  rw [this] at ha
  exact ⟨a, ha.of_take (by omega)⟩

/-- What the field is right after a refresh has written. -/
theorem Exec.held_own (R : Reg T E F A X c) (h : Exec c rf tr ss s) {o : Outcome T E} (hn : tr[n]? = some (.finish i o)) (hs : R.sel o = some x)
    (hd : ¬ Fresh tr n i) : ∃ y, n < y ∧ (∀ z e', n < z → z < y → tr[z]? = some e' → e'.tid ≠ i) ∧ Held R tr y x (some n) := by
  classical
  simp only [Fresh, not_forall, not_not] at hd
  have hex : ∃ z, ∃ e, n < z ∧ tr[z]? = some e ∧ e.tid = i := by
    obtain ⟨z, e, h1, h2, h3⟩ := hd; exact ⟨z, e, h1, h2, h3⟩
  obtain ⟨e, h1, h2, h3⟩ := Nat.find_spec hex
  have hmin : ∀ z e', n < z → z < Nat.find hex → tr[z]? = some e' → e'.tid ≠ i := fun z e' a1 a2 a3 a4 => Nat.find_min hex a2 ⟨e', a1, a3, a4⟩
  refine ⟨Nat.find hex, h1, hmin, ⟨i, o, hn, hs, _, e, h1, Nat.le_refl _, h2, h3⟩, ?_⟩
  intro n' j' o' b1 b2 b3 ⟨z, e', b4, b5, b6, b7⟩
  have hlt : n' < Nat.find hex := by omega
  have := fresh_newest R h hn hs b2 b1 fun z e' d1 d2 => hmin z e' d1 (by have := (get_take.1 d2).1; omega) (get_take.1 d2).2
  exact hmin n' _ b1 hlt b2 this

/-! ## The value and the error -/

/-- About to write. -/
def PC.wr : PC T E F A → Prop
  | .wData _ _ | .wErr _ _ => True
  | _ => False

theorem entry_wr (op : Op F A) : ¬ (entry op : PC T E F A).wr := by
  cases op with
  | clear f a => cases f <;> exact fun h => h
  | _ => exact fun h => h
theorem gNext_wr {f : F} {a : A} : ¬ (gNext c f a : PC T E F A).wr := by
  unfold gNext; split <;> exact fun h => h
theorem lNext_wr {f : F} {a : A} : ¬ (lNext c f a : PC T E F A).wr := by
  unfold lNext; split <;> exact fun h => h
theorem rawNext_wr : ¬ (rawNext c : PC T E F A).wr := by
  unfold rawNext; split <;> exact fun h => h

theorem step_wr {s' : State T E F A} {inp : In T E F A} (h2 : step c s j inp = some (s', e)) (hj : (s'.pc j).wr) :
    ∃ o, e = .finish j o ∧ s'.pc j = o.back c := by
  cases hpc : s.pc j <;> cases inp <;> simp only [step, hpc, reduceCtorEq, Option.some.injEq, Prod.mk.injEq] at h2
  case running.fin o => obtain ⟨rfl, rfl⟩ := h2; exact ⟨o, rfl, by simp [State.go]⟩
  all_goals exfalso
  all_goals first
    | (obtain ⟨rfl, rfl⟩ := h2)
    | (split at h2 <;> first | (cases h2; done) | (simp only [Option.some.injEq, Prod.mk.injEq] at h2; obtain ⟨rfl, rfl⟩ := h2))
  all_goals simp only [State.go, Function.update_self] at hj
  all_goals first
    | exact hj
    | exact entry_wr _ hj
    | (split at hj <;> first | exact hj | exact gNext_wr hj | exact lNext_wr hj | exact rawNext_wr hj)

/-- The value. -/
def dataReg (c : Cfg T) : Reg T E F A T c where
  sel := Outcome.yield c.zero
  fld := (·.data)
  pend | .wData v _ => some v
       | _ => none
  zero := c.zero
  start _ := rfl
  idle := rfl
  back o := by rcases o with ⟨v, _ | er⟩ | _ <;> rfl
  crit {pc x} h := by cases pc <;> trivial
  same h hp := by
    rcases step_data h with h1 | ⟨v, r, h1, -⟩
    · exact h1
    · rw [h1] at hp; cases hp
  write {s s' i inp e x} h hp := by
    cases hpc : s.pc i <;> rw [hpc] at hp <;> first | (cases hp; done) | skip
    cases inp <;> simp only [step, hpc, reduceCtorEq, Option.some.injEq, Prod.mk.injEq] at h
    injection hp with hp
    obtain ⟨rfl, rfl⟩ := h
    exact hp
  only {s s' i inp e x} h hp := by
    obtain ⟨o, h1, h2⟩ := step_wr h (by cases hpc : s'.pc i <;> rw [hpc] at hp <;> trivial)
    rw [h2] at hp
    exact ⟨o, h1, by rcases o with ⟨v, _ | er⟩ | _ <;> exact hp⟩

/-- The error. -/
def errReg (c : Cfg T) : Reg T E F A (Option E) c where
  sel o := o.error.map some
  fld := (·.err)
  pend | .wErr e _ => some (some e)
       | _ => none
  zero := none
  start _ := rfl
  idle := rfl
  back o := by rcases o with ⟨v, _ | er⟩ | _ <;> rfl
  crit {pc x} h := by cases pc <;> trivial
  same h hp := by
    rcases step_err h with h1 | ⟨v, r, h1, -⟩
    · exact h1
    · rw [h1] at hp; cases hp
  write {s s' i inp e x} h hp := by
    cases hpc : s.pc i <;> rw [hpc] at hp <;> first | (cases hp; done) | skip
    cases inp <;> simp only [step, hpc, reduceCtorEq, Option.some.injEq, Prod.mk.injEq] at h
    injection hp with hp
    obtain ⟨rfl, rfl⟩ := h
    exact hp
  only {s s' i inp e x} h hp := by
    obtain ⟨o, h1, h2⟩ := step_wr h (by cases hpc : s'.pc i <;> rw [hpc] at hp <;> trivial)
    rw [h2] at hp
    exact ⟨o, h1, by rcases o with ⟨v, _ | er⟩ | _ <;> exact hp⟩

/-! ## Reads -/

theorem own_refresh (R : Reg T E F A X c) (h : Exec c rf tr ss s) {r : Res T E} (hq : tr[q]? = some (.ret i r)) {o : Outcome T E}
    (hn : tr[n]? = some (.finish i o)) (hp : p < n) (hnq : n < q) (ho : R.sel o = some x) : ∃ a y, p < y ∧ y ≤ q ∧ Held R tr y x a := by
  obtain ⟨y, h1, h2, h3⟩ := h.held_own R hn ho fun hf => hf q _ hnq hq rfl
  refine ⟨some n, y, by omega, ?_, h3⟩
  by_contra hc'
  exact h2 q _ hnq (by omega) hq rfl

theorem ReadsVal.held {op : Op F A} {v : T} (h : Exec c rf tr ss s) (hr : ReadsVal c tr i p q op v) : ∃ a y, p < y ∧ y ≤ q ∧ Held (dataReg c) tr y v a := by
  obtain ⟨hc, hk, hq, hclk⟩ := hr
  have hclk' : ∀ (x : Nat) (now : Int), p < x → (tr.take q)[x]? = some (.clock i now) → c.errAge ≤ now :=
    fun x now h1 h2 => hclk x now h1 (get_take.1 h2).1 (get_take.1 h2).2
  have saw : ∀ {k}, p ≤ k → Saw (ss.take q) k (·.data = v) → ∃ a y, p < y ∧ y ≤ q ∧ Held (dataReg c) tr y v a := by
    rintro k hk ⟨y, s1, h1, h2, h3⟩
    have h2 := get_take.1 h2
    obtain ⟨a, ha⟩ := h.held_at (dataReg c) h2.2
    exact ⟨a, y, by omega, by omega, h3 ▸ ha⟩
  have hit : ∀ {k}, p ≤ k → DataHit c (tr.take q) (ss.take q) i k v → ∃ a y, p < y ∧ y ≤ q ∧ Held (dataReg c) tr y v a := by
    rintro k hk ⟨l, y, h1, -, -, h2⟩
    exact saw (by omega) h2
  rcases hk with hk | hk | rfl
  · obtain ⟨s0, h1, h2⟩ := h.get_out hq hc hk
    generalize hrr : (Res.val v none : Res T E) = r at h2
    cases h2 with
    | fastData d a1 a2 a3 => injection hrr with hrr; subst hrr; exact hit (Nat.le_refl _) a3
    | fastErr e a1 a2 a3 a4 => injection hrr with _ hrr; exact absurd hrr.symm (a4.some h1 hclk')
    | lockData k d a1 a2 a3 a4 a5 a6 => injection hrr with hrr; subst hrr; exact hit (by omega) a6
    | lockErr k e a1 a2 a3 a4 a5 a6 a7 => injection hrr with _ hrr; exact absurd hrr.symm ((a7.mono (by omega : p ≤ k)).some h1 hclk')
    | refreshed k z n' f a old o a1 a2 a3 a4 a5 a6 a7 a8 a9 a10 =>
      have b := get_take.1 a10
      refine own_refresh (dataReg c) h hq b.2 (by omega) b.1 ?_
      rcases o with ⟨v', _ | er⟩ | _ <;> simp only [Outcome.res, Res.val.injEq, reduceCtorEq, and_false, and_true] at hrr
      rw [hrr]; rfl
  · obtain ⟨z, n, f, a, old, o, h1, h2, h3, h4, h5, h6, -⟩ := C78 h hc hk hq
    refine own_refresh (dataReg c) h hq h5 (by omega) h3 ?_
    rcases o with ⟨v', _ | er⟩ | _ <;> simp only [Outcome.res, Res.val.injEq, reduceCtorEq, and_false, and_true] at h6
    rw [h6]; rfl
  · obtain ⟨s0, h1, h2⟩ := h.op_out hq hc
    have h2 : RawOut c (tr.take q) (ss.take q) i p (.val v none) := h2
    generalize hrr : (Res.val v none : Res T E) = r at h2
    cases h2 with
    | data d a1 => injection hrr with hrr; subst hrr; exact hit (Nat.le_refl _) a1
    | err e a1 a2 => injection hrr with _ hrr; exact absurd hrr.symm (a2.some h1 hclk')
    | both d e a1 a2 a3 => injection hrr with hrr; subst hrr; exact saw (Nat.le_refl _) a2

theorem ReadsErr.held {op : Op F A} {e : E} (h : Exec c rf tr ss s) (hr : ReadsErr tr i p q op e) : ∃ a y, p < y ∧ y ≤ q ∧ Held (errReg c) tr y (some e) a := by
  obtain ⟨hc, hk, v, hq⟩ := hr
  have saw : ∀ {k}, p ≤ k → Saw (ss.take q) k (·.err = some e) → ∃ a y, p < y ∧ y ≤ q ∧ Held (errReg c) tr y (some e) a := by
    rintro k hk ⟨y, s1, h1, h2, h3⟩
    have h2 := get_take.1 h2
    obtain ⟨a, ha⟩ := h.held_at (errReg c) h2.2
    exact ⟨a, y, by omega, by omega, h3 ▸ ha⟩
  have hit : ∀ {k}, p ≤ k → ErrHit c (tr.take q) (ss.take q) i k (some e) → ∃ a y, p < y ∧ y ≤ q ∧ Held (errReg c) tr y (some e) a := by
    rintro k hk ⟨-, l, y, h1, -, -, h2⟩
    exact saw (by omega) h2
  rcases hk with hk | hk | rfl
  · obtain ⟨s0, h1, h2⟩ := h.get_out hq hc hk
    generalize hrr : (Res.val v (some e) : Res T E) = r at h2
    cases h2 with
    | fastData d a1 a2 a3 => injection hrr with _ hrr; cases hrr
    | fastErr e a1 a2 a3 a4 => injection hrr with _ hrr; subst hrr; exact hit (Nat.le_refl _) a4
    | lockData k d a1 a2 a3 a4 a5 a6 => injection hrr with _ hrr; cases hrr
    | lockErr k e a1 a2 a3 a4 a5 a6 a7 => injection hrr with _ hrr; subst hrr; exact hit (by omega) a7
    | refreshed k z n' f a old o a1 a2 a3 a4 a5 a6 a7 a8 a9 a10 =>
      have b := get_take.1 a10
      refine own_refresh (errReg c) h hq b.2 (by omega) b.1 ?_
      rcases o with ⟨v', _ | er⟩ | _ <;> simp only [Outcome.res, Res.val.injEq, reduceCtorEq, and_false, Option.some.injEq] at hrr
      rw [hrr.2]; rfl
  · obtain ⟨z, n, f, a, old, o, h1, h2, h3, h4, h5, h6, -⟩ := C78 h hc hk hq
    refine own_refresh (errReg c) h hq h5 (by omega) h3 ?_
    rcases o with ⟨v', _ | er⟩ | _ <;> simp only [Outcome.res, Res.val.injEq, reduceCtorEq, and_false, Option.some.injEq] at h6
    rw [h6.2]; rfl
  · obtain ⟨s0, h1, h2⟩ := h.op_out hq hc
    have h2 : RawOut c (tr.take q) (ss.take q) i p (.val v (some e)) := h2
    generalize hrr : (Res.val v (some e) : Res T E) = r at h2
    cases h2 with
    | data d a1 => injection hrr with _ hrr; cases hrr
    | err e a1 a2 => injection hrr with _ hrr; subst hrr; exact hit (Nat.le_refl _) a2
    | both d e a1 a2 a3 => injection hrr with _ hrr; subst hrr; exact saw (Nat.le_refl _) a3

theorem Held.source {R : Reg T E F A X c} {a : Option Nat} (h : Held R tr y x a) (hy : y ≤ q) : Source R.sel R.zero tr q x a := by
  cases a with
  | none => exact h.1
  | some n =>
    obtain ⟨⟨j, o, h1, h2, z, e, h3, h4, h5⟩, -⟩ := h
    exact ⟨by omega, j, o, h1, h2⟩

/-- The calls of one kind, by where they return, have sources in order. -/
theorem ordered (R : Reg T E F A X c) (P : Nat → Nat → X → Prop)
    (hP : ∀ p q x, P p q x → ∃ a y, p < y ∧ y ≤ q ∧ Held R tr y x a) (hu : ∀ p p' q x x', P p q x → P p' q x' → p = p' ∧ x = x') :
    ∃ src : Nat → Option Nat, (∀ p q x, P p q x → Source R.sel R.zero tr q x (src q)) ∧
      (∀ p q x p' q' x', P p q x → P p' q' x' → q < p' → NotNewer (src q) (src q')) ∧
      ∀ n j o w r p q x, tr[n]? = some (.finish j o) → (R.sel o).isSome → tr[w]? = some (.ret j r) → n < w → w < p → P p q x →
        NotNewer (some n) (src q) := by
  have : ∀ q, ∃ a, ∀ p x, P p q x → ∃ y, p < y ∧ y ≤ q ∧ Held R tr y x a := by
    intro q
    by_cases h : ∃ p x, P p q x
    · obtain ⟨p, x, h⟩ := h
      obtain ⟨a, y, h1, h2, h3⟩ := hP p q x h
      refine ⟨a, fun p' x' h' => ?_⟩
      obtain ⟨rfl, rfl⟩ := hu _ _ _ _ _ h h'
      exact ⟨y, h1, h2, h3⟩
    · exact ⟨none, fun p x h' => absurd ⟨p, x, h'⟩ h⟩
  obtain ⟨src, hsrc⟩ := Classical.skolem.1 this
  refine ⟨src, fun p q x h => ?_, fun p q x p' q' x' h h' hlt => ?_, fun n j o w r p q x h1 h2 h3 h4 h5 h6 => ?_⟩
  · obtain ⟨y, h1, h2, h3⟩ := hsrc q p x h
    exact h3.source h2
  · obtain ⟨y, h1, h2, h3⟩ := hsrc q p x h
    obtain ⟨y', h1', h2', h3'⟩ := hsrc q' p' x' h'
    exact h3.mono h3' (by omega)
  · obtain ⟨y, a1, a2, a3⟩ := hsrc q p x h6
    exact a3.done h1 h2 ⟨w, _, h4, by omega, h3, rfl⟩

theorem CallAt.unique {p' : Nat} {op op' : Op F A} (h : CallAt tr i p op q) (h' : CallAt tr i p' op' q) : p = p' ∧ op = op' := by
  have : p = p' := by
    rcases Nat.lt_trichotomy p p' with h1 | h1 | h1
    · exact absurd h'.at_ (h.only p' op' h1 h'.lt)
    · exact h1
    · exact absurd h.at_ (h'.only p op h1 h.lt)
  subst this
  have := h.at_
  rw [h'.at_] at this
  injection this with this
  injection this with _ this
  exact ⟨rfl, this.symm⟩

/-- **C155**: values never go back: each value that a `Get`, `Refresh` or `Raw` returns without an error can be ascribed to the end of a refresh (one that
panicked counts with the zero value) or to the beginning (the zero value), so that a call that starts after another one has returned has the same or a newer
one, and not an older one than any refresh whose call returned before. (Clocks read `errAge` or more.) -/
theorem C155_values (h : Exec c rf tr ss s) : ∃ src : Nat → Option Nat,
    (∀ i p q op v, ReadsVal c tr i p q op v → Source (Outcome.yield c.zero) c.zero tr q v (src q)) ∧
    (∀ i p q op v i' p' q' op' v', ReadsVal c tr i p q op v → ReadsVal c tr i' p' q' op' v' → q < p' → NotNewer (src q) (src q')) ∧
    ∀ n j o w r i p q op v, tr[n]? = some (.finish j o) → (o.yield c.zero).isSome → tr[w]? = some (.ret j r) → n < w → w < p → ReadsVal c tr i p q op v →
      NotNewer (some n) (src q) := by
  obtain ⟨src, h1, h2, h3⟩ := ordered (dataReg c) (tr := tr) (fun p q v => ∃ i op, ReadsVal c tr i p q op v)
    (fun p q v ⟨i, op, hr⟩ => hr.held h) (fun p p' q v v' ⟨i, op, hr⟩ ⟨i', op', hr'⟩ => by
      have := hr.ret
      rw [hr'.ret] at this
      injection this with this
      injection this with this1 this2
      injection this2 with this2
      subst this1
      exact ⟨(hr.call.unique hr'.call).1, this2.symm⟩)
  exact ⟨src, fun i p q op v hr => h1 p q v ⟨i, op, hr⟩, fun i p q op v i' p' q' op' v' hr hr' => h2 p q v p' q' v' ⟨i, op, hr⟩ ⟨i', op', hr'⟩,
    fun n j o w r i p q op v a1 a2 a3 a4 a5 a6 => h3 n j o w r p q v a1 a2 a3 a4 a5 ⟨i, op, a6⟩⟩

/-- **C155**: and errors never go back. -/
theorem C155_errors (h : Exec c rf tr ss s) : ∃ src : Nat → Option Nat,
    (∀ i p q op e, ReadsErr tr i p q op e → Source (fun o => o.error.map some) none tr q (some e) (src q)) ∧
    (∀ i p q op e i' p' q' op' e', ReadsErr tr i p q op e → ReadsErr tr i' p' q' op' e' → q < p' → NotNewer (src q) (src q')) ∧
    ∀ n j v e' w r i p q op e, tr[n]? = some (.finish j (.ret v (some e'))) → tr[w]? = some (.ret j r) → n < w → w < p → ReadsErr tr i p q op e →
      NotNewer (some n) (src q) := by
  obtain ⟨src, h1, h2, h3⟩ := ordered (errReg c) (tr := tr) (fun p q x => ∃ i op e, x = some e ∧ ReadsErr tr i p q op e)
    (fun p q x ⟨i, op, e, hx, hr⟩ => hx ▸ hr.held h) (fun p p' q x x' ⟨i, op, e, hx, hr⟩ ⟨i', op', e', hx', hr'⟩ => by
      obtain ⟨v, this⟩ := hr.ret
      obtain ⟨v', this'⟩ := hr'.ret
      rw [this'] at this
      injection this with this
      injection this with this1 this2
      injection this2 with _ this2
      subst this1
      exact ⟨(hr.call.unique hr'.call).1, by rw [hx, hx', this2]⟩)
  exact ⟨src, fun i p q op e hr => h1 p q (some e) ⟨i, op, e, rfl, hr⟩,
    fun i p q op e i' p' q' op' e' hr hr' => h2 p q _ p' q' _ ⟨i, op, e, rfl, hr⟩ ⟨i', op', e', rfl, hr'⟩,
    fun n j v e' w r i p q op e a1 a2 a3 a4 a5 => h3 n j _ w r p q _ a1 rfl a2 a3 a4 ⟨i, op, e, rfl, a5⟩⟩

/-- Two refreshes, 7 at 100 and an error at 101. `Get` of thread 1 looks at the time of the first before that one has ended, and returns the error before the
second has taken back the time of the first. `Get` of thread 2, called after that, still returns 7. -/
def exBack : List (Nat × In Nat Nat Nat Nat) :=
  [(1, .call (.get 0 0)), (1, .go)] ++ refreshBy 0 (.ret 7 none) 100 ++
  [(0, .call (.refresh 0 0)), (0, .go), (0, .go), (0, .fin (.ret 0 (some 3))), (0, .go), (0, .time 101), (0, .go)] ++
  [(1, .time 102), (1, .time 102), (1, .go), (1, .go), (1, .go)] ++ getBy 2 103

def exBackTrace : List (Ev Nat Nat Nat Nat) :=
  [.call 1 (.get 0 0), .tau 1, .call 0 (.refresh 0 0), .locked 0, .start 0 0 0 0, .finish 0 (.ret 7 none), .tau 0, .clock 0 100, .tau 0, .tau 0, .tau 0,
      .ret 0 (.val 7 none), .call 0 (.refresh 0 0), .locked 0, .start 0 0 0 7, .finish 0 (.ret 0 (some 3)), .tau 0, .clock 0 101, .tau 0,
      .clock 1 102, .clock 1 102, .tau 1, .tau 1, .ret 1 (.val 0 (some 3)), .call 2 (.get 0 0), .tau 2, .clock 2 103, .tau 2, .ret 2 (.val 7 none)]

theorem exBack_trace : trace ⟨0, 5, 5⟩ exBack = some exBackTrace := by rfl

/-- **C155**: but a `Get` that is called after another one has returned an error can return a value that is older than the error. -/
theorem C155_mixed_false : ¬ ∀ (c : Cfg Nat) (rf : Nat) (tr : List (Ev Nat Nat Nat Nat)) (ss : List (State Nat Nat Nat Nat)) (s : State Nat Nat Nat Nat)
    (i p q i' p' q' e v : Nat) (op op' : Op Nat Nat), Exec c rf tr ss s → ReadsErr tr i p q op e → ReadsVal c tr i' p' q' op' v → q < p' →
    ∃ a a', Source (fun o => o.error.map some) none tr q (some e) a ∧ Source (Outcome.yield c.zero) c.zero tr q' v a' ∧ NotNewer a a' := by
  intro hall
  obtain ⟨ss, s, h⟩ := play_trace exBack_trace
  have A : ReadsErr exBackTrace 1 0 23 (.get 0 0) 3 := by
    refine ⟨⟨by omega, rfl, fun k op' h1 h2 => ?_⟩, .inl trivial, 0, rfl⟩
    interval_cases k <;> nofun
  have B : ReadsVal ⟨0, 5, 5⟩ exBackTrace 2 24 28 (.get 0 0) 7 := by
    refine ⟨⟨by omega, rfl, fun k op' h1 h2 => ?_⟩, .inl trivial, rfl, fun k now h1 h2 h3 => ?_⟩
    · interval_cases k <;> nofun
    · interval_cases k <;> first | (cases h3; done) | (cases h3; decide)
  obtain ⟨a, a', h1, h2, h3⟩ := hall _ _ _ _ _ 1 0 23 2 24 28 3 7 _ _ h A B (by omega)
  cases a with
  | none => cases h1
  | some n =>
    obtain ⟨hn, j, o, h1, ho⟩ := h1
    have hn : n = 15 := by
      interval_cases n <;> first | rfl | (cases h1; done) | (cases h1; cases ho)
    cases a' with
    | none => exact h3
    | some n' =>
      obtain ⟨hn', j', o', h2, ho'⟩ := h2
      have h3 : n ≤ n' := h3
      subst hn
      interval_cases n' <;> first | (cases h2; done) | (cases h2; cases ho')

/-- `Get`, `Refresh` and `Raw`: 7, then 8 twice. -/
example : (trace ⟨0, 5, 5⟩ (refreshBy 0 (.ret 7 none) 100 ++ getBy 1 101 ++ refreshBy 0 (.ret 8 none) 102 ++ getBy 1 103 ++
      [(2, .call .raw), (2, .go), (2, .time 104), (2, .go), (2, .go)])).map (fun l => [l[14]?, l[29]?, l[34]?]) =
    some [some (.ret 1 (.val 7 none)), some (.ret 1 (.val 8 none)), some (.ret 2 (.val 8 none))] := by rfl

end Verif.Refresh
