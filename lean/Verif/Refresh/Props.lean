import Verif.Refresh.Hist
/-!
# Properties of `refreshcache` (C14-C21)

All statements are about traces of executions: `Exec c rf tr ss s`, for any settings `c`, any readings of
the clock, any functions of the user, any number of threads and any schedule.
-/
namespace Verif.Refresh
variable {T E F A : Type}
variable {c : Cfg T} {rf : F} {tr : List (Ev T E F A)} {ss : List (State T E F A)} {i j n m p q z : Nat}
  {s : State T E F A} {op : Op F A} {o : Outcome T E} {r : Res T E} {v : T} {er : E} {t : Int}

/-! ## Running schedules -/

theorem play_exec : ∀ (l : List (Nat × In T E F A)) (tr : List (Ev T E F A)) (ss : List (State T E F A)) (s : State T E F A) (tr' ss' s'),
    Exec c rf tr ss s → play c l tr ss s = some (tr', ss', s') → Exec c rf tr' ss' s'
  | [], tr, ss, s, tr', ss', s', h, hp => by
    simp only [play, Option.some.injEq, Prod.mk.injEq] at hp
    obtain ⟨rfl, rfl, rfl⟩ := hp
    exact h
  | (i, inp) :: l, tr, ss, s, tr', ss', s', h, hp => by
    rw [play] at hp
    split at hp
    · next h1 => exact play_exec l _ _ _ _ _ _ (.snoc h h1) hp
    · cases hp

/-- The trace of a schedule is the trace of an execution. -/
theorem play_trace {l : List (Nat × In T E F A)} (h : (play c l [] [] (init c rf)).map (·.1) = some tr) :
    ∃ ss s, Exec c rf tr ss s := by
  cases hp : play c l [] [] (init c rf) with
  | none => rw [hp] at h; cases h
  | some x =>
    rw [hp] at h
    injection h with h
    obtain ⟨tr', ss', s'⟩ := x
    subst h
    exact ⟨ss', s', play_exec l _ _ _ _ _ _ .nil hp⟩

/-- `n` steps of thread `i`. -/
def goes (i n : Nat) : List (Nat × In Nat Nat Nat Nat) := List.replicate n (i, .go)

/-- A whole `Refresh` by thread `i` that ends with `o` and reads the clock as `t`. -/
def refreshBy (i : Nat) (o : Outcome Nat Nat) (t : Int) : List (Nat × In Nat Nat Nat Nat) :=
  [(i, .call (.refresh 0 0)), (i, .go), (i, .go), (i, .fin o), (i, .go), (i, .time t)] ++ goes i 4

/-- A `Get` by thread `i` that is served from the cache after the first check at time `t`. -/
def getBy (i : Nat) (t : Int) : List (Nat × In Nat Nat Nat Nat) :=
  [(i, .call (.get 0 0)), (i, .go), (i, .time t)] ++ goes i 2

/-- The trace of a schedule. -/
def trace (c : Cfg Nat) (l : List (Nat × In Nat Nat Nat Nat)) : Option (List (Ev Nat Nat Nat Nat)) :=
  (play c l [] [] (init c 0)).map (·.1)

/-! ## C14 -/

/-- **C14**: between the starts of two refresh functions the first one ends. -/
theorem C14 (h : Exec c rf tr ss s) {f f' : F} {a a' : A} {old old' : T} (hp : tr[p]? = some (.start i f a old))
    (hq : tr[q]? = some (.start j f' a' old')) (hlt : p < q) : ∃ n o, p < n ∧ n < q ∧ tr[n]? = some (.finish i o) := by
  obtain ⟨s0, inp, s1, h1, h2, _⟩ := h.at hq
  obtain ⟨_, h4, _⟩ := step_start h2
  rw [show Ev.tid (Ev.start j f' a' old' : Ev T E F A) = j from rfl] at h4
  rcases h1.opened p i f a old (get_take.2 ⟨hlt, hp⟩) with ⟨n, o, h5, h6⟩ | h5
  · exact ⟨n, o, h5, get_take.1 h6⟩
  · have := crit_unique h1 (i := i) (j := j) (by rw [h5]; trivial) (by rw [h4]; trivial)
    subst this
    rw [h5] at h4
    cases h4

/-- **C14**: the end of a refresh function belongs to a start of the same thread, and no refresh function starts or
ends between. -/
theorem C14_pair (h : Exec c rf tr ss s) (hn : tr[n]? = some (.finish i o)) :
    ∃ z f a old, z < n ∧ tr[z]? = some (.start i f a old) ∧
      (∀ (x j : Nat) (f' : F) (a' : A) (old' : T), z < x → x < n → tr[x]? ≠ some (.start j f' a' old')) ∧
      (∀ (x j : Nat) (o' : Outcome T E), z < x → x < n → tr[x]? ≠ some (.finish j o')) := by
  obtain ⟨z, f, a, old, h1, h2, h3, h4, _⟩ := h.closed hn
  exact ⟨z, f, a, old, h1, h2, h3, h4⟩

/-- Two refreshes by two threads, the second waits for the lock. -/
example : trace ⟨0, 5, 0⟩ ([(0, .call (.refresh 0 0)), (1, .call (.refresh 8 9)), (0, .go), (0, .go), (0, .fin (.ret 7 none)), (0, .go), (0, .time 100)]
      ++ goes 0 3 ++ goes 1 2) =
    some [.call 0 (.refresh 0 0), .call 1 (.refresh 8 9), .locked 0, .start 0 0 0 0, .finish 0 (.ret 7 none), .tau 0, .clock 0 100,
      .tau 0, .tau 0, .tau 0, .locked 1, .start 1 8 9 7] := by rfl
/-- While the first runs the second cannot start. -/
example : trace ⟨0, 5, 0⟩ ([(0, .call (.refresh 0 0)), (1, .call (.refresh 8 9)), (0, .go), (0, .go), (1, .go)]) = none := by rfl

/-! ## C15 -/

/-- A time that is fresh for a refresh stamped `t`: `maxAge < 0`, or every reading of the clock by `i` between `p` and `q`. -/
def FreshFor (c : Cfg T) (tr : List (Ev T E F A)) (i p q : Nat) (t : Int) : Prop :=
  (c.maxAge < 0 ∧ 0 < t) ∨ ∀ (x : Nat) (now : Int), p < x → x < q → tr[x]? = some (.clock i now) → now - t < c.maxAge

theorem DataFail.not_fresh (h : DataFail c tr ss i p) (hs : ∀ (q : Nat) (s : State T E F A), ss[q]? = some s → p < q → s.last = t)
    (hf : FreshFor c tr i p tr.length t) : False := by
  obtain ⟨⟨l, ⟨q1, s1, h1, h2, h3⟩, ⟨q2, now, h4, h5, h6⟩⟩, h7⟩ := h
  rcases hf with ⟨h8, h9⟩ | h8
  · obtain ⟨q3, s3, h10, h11, h12⟩ := h7 h8
    exact h12 (by rw [hs q3 s3 h11 h10]; exact h9)
  · have := hs q1 s1 h2 h1
    have h9 := h8 q2 now h4 (get_lt h5) h5
    omega

theorem FreshFor.take {y : Nat} (h : FreshFor c tr i p q t) (hy : y ≤ q) : FreshFor c (tr.take y) i p (tr.take y).length t := by
  rcases h with h | h
  · exact .inl h
  · refine .inr fun x now h1 h2 h3 => h x now h1 ?_ (get_take.1 h3).2
    have := (get_take.1 h3).1
    omega

/-- No refresh ends after `n` and before `q`, except in the call of `i` from `p`. -/
def NoOtherEnd (tr : List (Ev T E F A)) (n i p q : Nat) : Prop :=
  ∀ (x j : Nat) (o : Outcome T E), n < x → x < q → tr[x]? = some (.finish j o) → j = i ∧ p < x
/-- No `Clear` takes effect after `m` and before `q`. -/
def NoClear (tr : List (Ev T E F A)) (m q : Nat) : Prop :=
  ∀ (x j : Nat), m < x → x < q → tr[x]? ≠ some (.cleared j)
/-- Thread `i` starts no refresh between `p` and `q`. -/
def NoStart (tr : List (Ev T E F A)) (i p q : Nat) : Prop :=
  ∀ (x : Nat) (f : F) (a : A) (old : T), p < x → x < q → tr[x]? ≠ some (.start i f a old)
/-- Thread `i` does not acquire the lock between `p` and `q`. -/
def NoLock (tr : List (Ev T E F A)) (i p q : Nat) : Prop :=
  ∀ x : Nat, p < x → x < q → tr[x]? ≠ some (.locked i)

theorem NoLock.of_never (h : Never (tr.take q) i p Ev.isLocked) : NoLock tr i p q :=
  fun x h1 h2 h3 => h x _ h1 (get_take.2 ⟨h2, h3⟩) rfl trivial

theorem NoStart.of_never (h : Never (tr.take q) i p Ev.isStart) : NoStart tr i p q :=
  fun x f a old h1 h2 h3 => h x _ h1 (get_take.2 ⟨h2, h3⟩) rfl trivial

theorem NoStart.never (h : NoStart tr i p q) : Never (tr.take q) i p Ev.isStart := by
  intro x e h1 h2 h3 h4
  have := get_take.1 h2
  cases e with
  | start i' f a old => subst h3; exact h x f a old h1 this.1 this.2
  | _ => exact h4

theorem stamp_take (h : Stamp tr j n m t) (hm : m < q) : Stamp (tr.take q) j n m t :=
  ⟨h.lt, get_take.2 ⟨hm, h.at_⟩, fun k t' a b d => h.first k t' a b (get_take.1 d).2⟩

/-- The stamp is taken before the call returns. -/
theorem stamp_before_ret (h : Exec c rf tr ss s) (hn : tr[n]? = some (.finish j o)) (hst : Stamp tr j n m t) {w : Nat} {r' : Res T E}
    (hw : tr[w]? = some (.ret j r')) (hnw : n < w) : m < w := by
  -- otherwise the write-back is still in the way when the call returns
  rcases Nat.lt_trichotomy m w with h1 | h1 | h1
  · exact h1
  · subst h1; rw [hst.at_] at hw; cases hw
  · exfalso
    obtain ⟨s0, inp, s1, e0, e1, _⟩ := h.at hw
    obtain ⟨_, h4⟩ := step_ret e1
    rw [show Ev.tid (Ev.ret j r' : Ev T E F A) = j from rfl] at h4
    -- at the newest end of `j` before `w` a stamp exists
    have key : ∀ {tr : List (Ev T E F A)} {ss s}, Exec c rf tr ss s → ∀ n o, tr[n]? = some (.finish j o) →
        (∃ m t, Stamp tr j n m t) ∨ (Never tr j n Ev.isLoud ∧ ((s.pc j).pendOk ∨ (s.pc j).pendErr)) := by
      clear hst hn hw h e0 e1 h4 hnw h1
      intro tr ss s h
      induction h with
      | nil => intro n o h; simp at h
      | snoc h1 h2 ih =>
        rename_i tr ss s i inp s' e
        intro n o hn
        have hp := h1.pcs i
        rcases get_snoc.1 hn with hn' | ⟨rfl, rfl⟩
        · rcases ih n o hn' with ⟨m, t, h3⟩ | ⟨h3, h4⟩
          · exact .inl ⟨m, t, h3.ext⟩
          · by_cases hj : j = i
            · subst hj
              have quiet : ∀ {e' : Ev T E F A}, ¬ e'.isLoud → Never (tr ++ [e']) j n Ev.isLoud := fun he =>
                h3.ext (P := fun e => ¬ e.isLoud) (Ext.snoc fun _ => he) (fun _ h => h)
              have same : ∀ {n' o' r}, WB c tr ss j n' o' r → n' = n := by
                intro n' o' r hw
                rcases Nat.lt_trichotomy n' n with h | h | h
                · exact absurd trivial (hw.quiet n _ h hn' rfl)
                · exact h
                · exact absurd trivial (h3 n' _ h hw.at_ rfl)
              cases hpc : s.pc j <;> rw [hpc] at h4 hp <;> (try exact (h4.elim (fun h => h) (fun h => h)).elim) <;>
                cases inp <;> simp only [step, hpc, reduceCtorEq, Option.some.injEq, Prod.mk.injEq] at h2 <;> obtain ⟨rfl, rfl⟩ := h2
              · exact .inr ⟨quiet fun h => h, .inl (by simp only [State.go, Function.update_self]; trivial)⟩
              · obtain ⟨n', o', w1, w2, w3⟩ := hp
                obtain rfl := same w1
                exact .inl ⟨_, _, Stamp.fresh (get_lt hn') w3⟩
              · obtain ⟨n', o', m', w1, w2, w3⟩ := hp
                obtain rfl := same w1
                exact .inl ⟨_, _, w3.ext⟩
              · exact .inr ⟨quiet fun h => h, .inr (by simp only [State.go, Function.update_self]; trivial)⟩
              · obtain ⟨n', v', e', w1, w3⟩ := hp
                obtain rfl := same w1
                exact .inl ⟨_, _, Stamp.fresh (get_lt hn') w3⟩
              · obtain ⟨n', v', e', m', w1, w3⟩ := hp
                obtain rfl := same w1
                exact .inl ⟨_, _, w3.ext⟩
            · refine .inr ⟨h3.ext (P := fun _ => False) (Ext.snoc fun h => hj (by rw [← h, step_tid h2])) (fun _ h => h.elim), ?_⟩
              rw [step_other h2 hj]; exact h4
        · obtain ⟨rfl, _, rfl⟩ := step_finish h2
          refine .inr ⟨Never.fresh, ?_⟩
          simp only [State.go, Function.update_self]
          rcases o with ⟨w, _ | er⟩ | _
          · exact .inl trivial
          · exact .inr trivial
          · exact .inl trivial
    rcases key e0 n o (get_take.2 ⟨hnw, hn⟩) with ⟨m', t', h5⟩ | ⟨_, h5⟩
    · obtain ⟨rfl, _⟩ := h5.of_take.unique hst
      have := (get_take.1 h5.at_).1
      omega
    · rw [h4] at h5
      exact h5.elim (fun h => h) (fun h => h)

/-- **C15**: a refresh ends at `n` with `v` and takes the stamp `t` at `m`; its call returns (at `w`) before a `Get`
is called at `p`; no other refresh ends and no `Clear` takes effect until that `Get` returns (at `q`); all its readings
of the clock are fresh. Then the `Get` starts no refresh, does not take the lock, and returns `v` and no error. -/
theorem C15 (h : Exec c rf tr ss s) {w : Nat} {r' : Res T E} (hn : tr[n]? = some (.finish j (.ret v none))) (hst : Stamp tr j n m t)
    (hw : tr[w]? = some (.ret j r')) (hnw : n < w) (hwp : w < p) (hc : CallAt tr i p op q) (hg : op.isGet) (hq : tr[q]? = some (.ret i r))
    (he : NoOtherEnd tr n i p q) (hcl : NoClear tr m q) (hf : FreshFor c tr i p q t) :
    NoStart tr i p q ∧ NoLock tr i p q ∧ r = .val v none := by
  have hm := stamp_before_ret h hn hst hw hnw
  have ho : Over tr n j p := .inl ⟨w, r', hnw, by omega, hw⟩
  have hpq := hc.lt
  -- in an initial part without a start by `i`, all states after `p` have the fields of that refresh
  have key : ∀ {y s0}, p < y → y ≤ q → Exec c rf (tr.take y) (ss.take y) s0 → Never (tr.take y) i p Ev.isStart →
      ∀ (q' : Nat) (s' : State T E F A), (ss.take y)[q']? = some s' → p < q' → s'.last = t ∧ s'.data = v := by
    intro y s0 hy hyq h0 hns q' s' hs' hpq'
    have hn' : (tr.take y)[n]? = some (.finish j (.ret v none)) := get_take.2 ⟨by omega, hn⟩
    have hfin := no_finish h0 hn' (get_take.2 ⟨hy, hc.at_⟩) hns
      (fun x j' o' hx hx' => he x j' o' hx (by have := (get_take.1 hx').1; omega) (get_take.1 hx').2)
    obtain ⟨a1, a2, a3⟩ := states_ok (m := m) (t := t) h0 hn' rfl (ho.take hy) hfin hs' hpq'
    refine ⟨a3 (stamp_take hst (by omega)) ?_, a1⟩
    intro x j' hx hx' hx''
    have := get_take.1 hx''
    exact hcl x j' hx (by omega) this.2
  have hns : NoStart tr i p q := by
    intro z f a old hz hzq hzs
    obtain ⟨s0, k, h1, _, h3, h4, _⟩ := h.start_miss hzs ⟨hz, hc.at_, fun k op' a b => hc.only k op' a (by omega)⟩ hg
    exact h4.1.not_fresh (fun q' s' a b => (key hz (by omega) h1 h3.noStart q' s' a b).1) (hf.take (by omega))
  refine ⟨hns, ?_⟩
  obtain ⟨s0, h1, h2⟩ := h.get_out hq hc hg
  have hk := key hpq (Nat.le_refl _) h1 hns.never
  cases h2 with
  | fastData d a1 a2 a3 =>
    obtain ⟨l, q1, _, _, _, q2, s2, b1, b2, b3⟩ := a3
    exact ⟨.of_never a1, by rw [← b3, (hk q2 s2 b2 (by omega)).2]⟩
  | fastErr e a1 a2 a3 a4 => exact (a3.not_fresh (fun q' s' a b => (hk q' s' a b).1) (hf.take (Nat.le_refl _))).elim
  | lockData k d a1 a2 a3 a4 a5 a6 =>
    exact (a5.1.not_fresh (fun q' s' a b => (hk q' s' a b).1) (hf.take (Nat.le_refl _))).elim
  | lockErr k e a1 a2 a3 a4 a5 a6 a7 =>
    exact (a5.1.not_fresh (fun q' s' a b => (hk q' s' a b).1) (hf.take (Nat.le_refl _))).elim
  | refreshed k z n' f a old o a1 a2 a3 a4 a5 a6 a7 a8 a9 a10 =>
    have := get_take.1 a5
    exact absurd this.2 (hns z f a old (by omega) this.1)

/-- A refresh at time 100 and a `Get` at 104; the maximal age is 5. -/
example : trace ⟨0, 5, 0⟩ (refreshBy 0 (.ret 7 none) 100 ++ getBy 1 104) =
    some [.call 0 (.refresh 0 0), .locked 0, .start 0 0 0 0, .finish 0 (.ret 7 none), .tau 0, .clock 0 100, .tau 0, .tau 0, .tau 0,
      .ret 0 (.val 7 none), .call 1 (.get 0 0), .tau 1, .clock 1 104, .tau 1, .ret 1 (.val 7 none)] := by rfl
/-- At 105 it is not fresh, and there is a second refresh. -/
example : (trace ⟨0, 5, 0⟩ (refreshBy 0 (.ret 7 none) 100 ++
      [(1, .call (.get 3 4)), (1, .go), (1, .time 105), (1, .go), (1, .time 105), (1, .go), (1, .go)])).map (·.drop 10) =
    some [.call 1 (.get 3 4), .tau 1, .clock 1 105, .locked 1, .clock 1 105, .tau 1, .start 1 3 4 7] := by rfl

/-! ## C16 -/

/-- `v` is the value of a successful refresh, which is the same or newer than one that is fresh at the time of a check
of the call of `i` from `p` to `q`. -/
def Served (c : Cfg T) (tr : List (Ev T E F A)) (i p q : Nat) (v : T) : Prop :=
  ∃ n j v0 m t n' j', tr[n]? = some (.finish j (.ret v0 none)) ∧ Stamp tr j n m t ∧ m < q ∧
    (c.maxAge < 0 ∨ ∃ x now, p < x ∧ x < q ∧ tr[x]? = some (.clock i now) ∧ now - t < c.maxAge) ∧
    n ≤ n' ∧ n' < q ∧ tr[n']? = some (.finish j' (.ret v none))

/-- Every reading of the clock by `i` between `p` and `q` is at least `d`. -/
def ClockFrom (tr : List (Ev T E F A)) (i p q : Nat) (d : Int) : Prop :=
  ∀ (x : Nat) (now : Int), p < x → x < q → tr[x]? = some (.clock i now) → d ≤ now

theorem ClockFrom.take {d : Int} (h : ClockFrom tr i p q d) :
    ∀ (x : Nat) (now : Int), p < x → (tr.take q)[x]? = some (.clock i now) → d ≤ now :=
  fun x now h1 h2 => h x now h1 (get_take.1 h2).1 (get_take.1 h2).2

/-- A `Get` that returns a value and no error, and starts no refresh, found it in the cache. -/
theorem get_hit (h : Exec c rf tr ss s) (hc : CallAt tr i p op q) (hg : op.isGet) (hq : tr[q]? = some (.ret i (.val v none)))
    (hns : NoStart tr i p q) (he : ClockFrom tr i p q c.errAge) :
    ∃ s0, Exec c rf (tr.take q) (ss.take q) s0 ∧ DataHit c (tr.take q) (ss.take q) i p v := by
  obtain ⟨s0, h1, h2⟩ := h.get_out hq hc hg
  refine ⟨s0, h1, ?_⟩
  generalize hr : (Res.val v none : Res T E) = r at h2
  cases h2 with
  | fastData d a1 a2 a3 => injection hr with hr; subst hr; exact a3
  | fastErr e a1 a2 a3 a4 => injection hr with _ hr; exact absurd hr.symm (a4.some h1 he.take)
  | lockData k d a1 a2 a3 a4 a5 a6 => injection hr with hr; subst hr; exact a6.mono (by omega)
  | lockErr k e a1 a2 a3 a4 a5 a6 a7 =>
    injection hr with _ hr
    exact absurd hr.symm ((a7.mono (by omega : p ≤ k)).some h1 he.take)
  | refreshed k z n' f a old o a1 a2 a3 a4 a5 a6 a7 a8 a9 a10 =>
    have := get_take.1 a5
    exact absurd this.2 (hns z f a old (by omega) this.1)

/-- **C16** does not hold: if `maxAge` is larger than the clock (in nanoseconds since 1970: more than 56 years, say the
largest `time.Duration`), the time 0 of a new cache counts as fresh, and `Get` serves the zero value and never refreshes. -/
theorem C16_false : ¬ ∀ (c : Cfg Nat) (rf : Nat) (tr : List (Ev Nat Nat Nat Nat)) (ss : List (State Nat Nat Nat Nat)) (s : State Nat Nat Nat Nat)
    (i p q v : Nat) (op : Op Nat Nat), Exec c rf tr ss s → CallAt tr i p op q → op.isGet → tr[q]? = some (.ret i (.val v none)) →
    NoStart tr i p q → Served c tr i p q v := by
  intro hall
  have ht : trace ⟨0, 9223372036854775807, 0⟩ (getBy 1 1790000000000000000) =
    some [.call 1 (.get 0 0), .tau 1, .clock 1 1790000000000000000, .tau 1, .ret 1 (.val 0 none)] := by rfl
  obtain ⟨ss, s, h⟩ := play_trace ht
  refine absurd (hall _ _ _ _ _ 1 0 4 0 (.get 0 0) h ⟨by omega, rfl, ?_⟩ trivial rfl ?_) ?_
  · intro k op' h1 h2
    rcases k with _ | _ | _ | _ | k <;> first | omega | nofun
  · intro k f a old h1 h2
    rcases k with _ | _ | _ | _ | k <;> first | omega | nofun
  · rintro ⟨n, j, v0, m, t, n', j', h1, _⟩
    have := List.mem_of_getElem? h1
    simp at this

/-- **C16**, except for functions that panic and for clocks that read less than `maxAge` or `errAge`. The full statement
is that of `C16_false`. -/
theorem C16_partial (h : Exec c rf tr ss s) (hc : CallAt tr i p op q) (hg : op.isGet) (hq : tr[q]? = some (.ret i (.val v none)))
    (hns : NoStart tr i p q) (hclk : ClockFrom tr i p q c.maxAge) (hclk' : ClockFrom tr i p q c.errAge)
    (hp : ∀ x j : Nat, x < q → tr[x]? ≠ some (.finish j .panic)) : Served c tr i p q v := by
  obtain ⟨s0, h1, h2⟩ := get_hit h hc hg hq hns hclk'
  obtain ⟨n, j, o, m, t, w, n', j', o', a1, a2, a3, a4, a5, a6, a7, a8, a9, a10⟩ := h2.src h1 hclk.take
  have b1 := get_take.1 a1
  have b3 := get_take.1 a3.at_
  have b6 := get_take.1 a6
  have ho : ∃ v0, o = .ret v0 none := by
    rcases o with ⟨v0, _ | er⟩ | _
    · exact ⟨v0, rfl⟩
    · cases a2
    · exact absurd b1.2 (hp n j b1.1)
  have ho' : o' = .ret v none := by
    rcases o' with ⟨v0, _ | er⟩ | _
    · injection a7 with a7; rw [a7]
    · cases a7
    · exact absurd b6.2 (hp n' j' b6.1)
  obtain ⟨v0, rfl⟩ := ho
  subst ho'
  refine ⟨n, j, v0, m, t, n', j', b1.2, a3.of_take, b3.1, ?_, a5, b6.1, b6.2⟩
  rcases a4 with a4 | ⟨x, now, c1, c2, c3⟩
  · exact .inl a4
  · exact .inr ⟨x, now, c1, (get_take.1 c2).1, (get_take.1 c2).2, c3⟩

/-- A `Get` checks the age of a value of time 100 at 104; before it loads the data there is a newer value. -/
example : (trace ⟨0, 5, 0⟩ (refreshBy 0 (.ret 7 none) 100 ++ [(1, .call (.get 0 0)), (1, .go), (1, .time 104)] ++
      refreshBy 0 (.ret 8 none) 200 ++ goes 1 2)).map (·.drop 22) =
    some [.ret 0 (.val 8 none), .tau 1, .ret 1 (.val 8 none)] := by rfl

/-! ## C17 -/

/-- **C17**: a refresh ends at `n` with `v`, stamped `t`. Until `q` no `Clear` takes effect, all refreshes are those of
`Get`s, and every reading of the clock by a thread that acquired the lock after `n` is fresh. Then no refresh is started
between `n` and `q`, and every `Get` that acquires the lock and returns until `q` returns `v` and no error. -/
theorem C17 (h : Exec c rf tr ss s) (hn : tr[n]? = some (.finish j (.ret v none))) (hst : Stamp tr j n m t)
    (hcl : NoClear tr m q)
    (hget : ∀ (x i : Nat) (f : F) (a : A) (old : T), n < x → x < q → tr[x]? = some (.start i f a old) → ∃ p op, CallAt tr i p op x ∧ op.isGet)
    (hf : (c.maxAge < 0 ∧ 0 < t) ∨ ∀ (x i k : Nat) (now : Int), x < q → tr[x]? = some (.clock i now) → n < k → k < x →
      tr[k]? = some (.locked i) → now - t < c.maxAge) :
    (∀ i, NoStart tr i n q) ∧
    ∀ (i p k q' : Nat) (op : Op F A) (r : Res T E), CallAt tr i p op q' → op.isGet → p < k → n < k → k < q' → q' ≤ q →
      tr[k]? = some (.locked i) → tr[q']? = some (.ret i r) → r = .val v none := by
  -- initial parts without a start after `n`
  have nofin : ∀ y, (∀ x i f a old, n < x → x < y → tr[x]? ≠ some (.start i f a old)) →
      ∀ (x j' : Nat) (o' : Outcome T E), n < x → (tr.take y)[x]? ≠ some (.finish j' o') := by
    intro y hy x j' o' hx h1
    have h1' := get_take.1 h1
    obtain ⟨z, f, a, old, h2, h3, h4, h5, h6⟩ := h.closed h1'.2
    rcases Nat.lt_trichotomy z n with h7 | h7 | h7
    · exact h5 n j _ h7 hx hn
    · subst h7; rw [hn] at h3; cases h3
    · exact hy z _ _ _ _ h7 (by omega) h3
  have key : ∀ {y s0 k i}, n < k → k < y → y ≤ q → tr[k]? = some (.locked i) → Exec c rf (tr.take y) (ss.take y) s0 →
      (∀ x i f a old, n < x → x < y → tr[x]? ≠ some (.start i f a old)) →
      ∀ (q' : Nat) (s' : State T E F A), (ss.take y)[q']? = some s' → k < q' → s'.data = v ∧ (m < y → s'.last = t) := by
    intro y s0 k i hk hy hyq hl h0 hns q' s' hs' hpq'
    have ho : Over tr n j k := .inr ⟨k, i, hk, by omega, hl⟩
    have hn' : (tr.take y)[n]? = some (.finish j (.ret v none)) := get_take.2 ⟨by omega, hn⟩
    obtain ⟨a1, a2, a3⟩ := states_ok (m := m) (t := t) h0 hn' rfl (ho.take (by omega)) (nofin y hns) hs' hpq'
    refine ⟨a1, fun hm => a3 (stamp_take hst hm) ?_⟩
    intro x j' hx hx' hx''
    have := get_take.1 hx''
    exact hcl x j' hx (by omega) this.2
  -- the stamp is taken before the lock is acquired again
  have hmk : ∀ {k i}, n < k → tr[k]? = some (.locked i) → (∀ x i f a old, n < x → x < k → tr[x]? ≠ some (.start i f a old)) → m < k := by
    intro k i hk hl hns
    have hlen : k < ss.length := by rw [← h.len]; exact get_lt hl
    obtain ⟨s1, hs1⟩ : ∃ s1, ss[k]? = some s1 := ⟨_, List.getElem?_eq_getElem hlen⟩
    have h0 := h.state hs1
    have hnf : ∀ (x j' : Nat) (o' : Outcome T E), n < x → (tr.take (k + 1))[x]? ≠ some (.finish j' o') := by
      apply nofin
      intro x i' f a old hx hxk hx2
      rcases Nat.lt_or_ge x k with h' | h'
      · exact hns x i' f a old hx h' hx2
      · have : x = k := by omega
        subst this; rw [hl] at hx2; cases hx2
    obtain ⟨_, _, m', t', h1, _⟩ := settled_ok h0 (v := v) (o := .ret v none) (n := n) (j := j) (p := k)
      ⟨get_take.2 ⟨by omega, hn⟩, fun x j' o' a b => hnf x j' o' a b⟩ rfl (.inr ⟨k, i, hk, by omega, get_take.2 ⟨by omega, hl⟩⟩)
    obtain ⟨rfl, _⟩ := h1.of_take.unique hst
    have := (get_take.1 h1.at_)
    have h3 : m' ≠ k := by rintro rfl; rw [hl] at this; cases this.2
    omega
  have fresh : ∀ {y k i}, n < k → k < y → y ≤ q → tr[k]? = some (.locked i) → FreshFor c (tr.take y) i k (tr.take y).length t := by
    intro y k i hk hky hyq hl
    rcases hf with hf | hf
    · exact .inl hf
    · refine .inr fun x now h1 h2 h3 => ?_
      have := get_take.1 h3
      exact hf x i k now (by omega) this.2 hk h1 hl
  have hns : ∀ y ≤ q, ∀ x i f a old, n < x → x < y → tr[x]? ≠ some (.start i f a old) := by
    intro y
    induction y with
    | zero => intro _ x i f a old _ h; omega
    | succ y ih =>
      intro hy x i f a old hx hxy hz
      rcases Nat.lt_or_ge x y with h' | h'
      · exact ih (by omega) x i f a old hx h' hz
      · have : x = y := by omega
        subst this
        have ih := ih (by omega)
        obtain ⟨p, op, hc, hg⟩ := hget x i f a old hx (by omega) hz
        obtain ⟨s0, k, h1, h2, h3, h4, h5⟩ := h.start_miss hz hc hg
        have hkl := get_take.1 h3.lock
        have hpk := h3.lt
        have hnk : n < k := by
          rcases Nat.lt_trichotomy n k with h' | h' | h'
          · exact h'
          · subst h'; rw [hn] at hkl; cases hkl.2
          · exfalso
            obtain ⟨k', h6, h7⟩ := h1.lock.excl i ((h1.lock.crit i).2 h2)
            have : k' = k := h3.oneLock k' _ (by
              rcases Nat.lt_or_ge p k' with h | h
              · exact h
              · exact absurd trivial (h7 k _ (by omega) h3.lock).1) h6 rfl trivial
            subst this
            have hji := (h7 n _ h' (get_take.2 ⟨hx, hn⟩)).2 (.inr trivial)
            replace hji : j = i := hji
            subst hji
            obtain ⟨z, f', a', old', g1, g2, g3, g4, g5⟩ := h.closed hn
            rcases Nat.lt_trichotomy z p with h8 | h8 | h8
            · exact g5 p _ h8 (by omega) hc.at_ rfl trivial
            · subst h8; rw [hc.at_] at g2; cases g2
            · exact h3.noStart z _ h8 (get_take.2 ⟨by omega, g2⟩) rfl trivial
        have hm := hmk hnk hkl.2 (fun x' i' f' a' o' b1 b2 => ih x' i' f' a' o' b1 (by omega))
        exact h5.1.not_fresh (fun q' s' b1 b2 => (key hnk hkl.1 (by omega) hkl.2 h1 ih q' s' b1 b2).2 (by omega))
          (fresh hnk hkl.1 (by omega) hkl.2)
  refine ⟨fun i x f a old h1 h2 => hns q (Nat.le_refl _) x i f a old h1 h2, ?_⟩
  intro i p k q' op r hc hg hpk hnk hkq hq' hl hr
  obtain ⟨s0, h1, h2⟩ := h.get_out hr hc hg
  have hns' := hns q' hq'
  have hm := hmk hnk hl (fun x' i' f' a' o' b1 b2 => hns' x' i' f' a' o' b1 (by omega))
  have hk := key hnk hkq hq' hl h1 hns'
  have hl' : (tr.take q')[k]? = some (.locked i) := get_take.2 ⟨hkq, hl⟩
  cases h2 with
  | fastData d a1 a2 a3 => exact absurd trivial (a1 k _ hpk hl' rfl)
  | fastErr e a1 a2 a3 a4 => exact absurd trivial (a1 k _ hpk hl' rfl)
  | lockData k2 d a1 a2 a3 a4 a5 a6 =>
    obtain rfl := a3 k _ hpk hl' rfl trivial
    obtain ⟨l, q1, _, _, _, q2, s2, b1, b2, b3⟩ := a6
    rw [← b3, (hk q2 s2 b2 (by omega)).1]
  | lockErr k2 e a1 a2 a3 a4 a5 a6 a7 =>
    obtain rfl := a3 k _ hpk hl' rfl trivial
    exact (a6.not_fresh (fun q' s' a b => (hk q' s' a b).2 (by omega)) (fresh hnk hkq hq' hl)).elim
  | refreshed k2 z n' f a old o a1 a2 a3 a4 a5 a6 a7 a8 a9 a10 =>
    obtain rfl := a3 k _ hpk hl' rfl trivial
    have := get_take.1 a5
    exact absurd this.2 (hns' z i f a old (by omega) this.1)

/-- Two `Get`s find the cache empty, the first refreshes, the second waits for the lock and shares the result. -/
example : (trace ⟨0, 5, 0⟩ ([(0, .call (.get 0 0)), (1, .call (.get 0 0)), (0, .go), (0, .time 100), (1, .go), (1, .time 100), (0, .go),
      (0, .time 100), (0, .go), (0, .go), (0, .fin (.ret 7 none)), (0, .go), (0, .time 101)] ++ goes 0 4 ++
      [(1, .go), (1, .time 102), (1, .go)] ++ goes 1 3)).map (·.drop 9) =
    some [.start 0 0 0 0, .finish 0 (.ret 7 none), .tau 0, .clock 0 101, .tau 0, .tau 0, .tau 0, .ret 0 (.val 7 none), .locked 1, .clock 1 102,
      .tau 1, .tau 1, .tau 1, .ret 1 (.val 7 none)] := by rfl

/-! ## C18 -/

/-- A refresh that ended at `n` in `j` with an error, stamped `t`, is the last before the `Get` of `i` from `p` to `q`. -/
structure ErrBefore (tr : List (Ev T E F A)) (n j : Nat) (er : E) (m : Nat) (t : Int) (i p q : Nat) : Prop where
  at_ : ∃ v, tr[n]? = some (.finish j (.ret v (some er)))
  stamp : Stamp tr j n m t
  over : ∃ w r, n < w ∧ w < p ∧ tr[w]? = some (.ret j r)
  other : NoOtherEnd tr n i p q

/-- The states of a `Get` after an error. -/
theorem ErrBefore.states (hb : ErrBefore tr n j er m t i p q) (h : Exec c rf tr ss s) (hc : CallAt tr i p op q) {y : Nat} {s0 : State T E F A}
    (hy : p < y) (hyq : y ≤ q) (h0 : Exec c rf (tr.take y) (ss.take y) s0) (hns : Never (tr.take y) i p Ev.isStart)
    {q' : Nat} {s' : State T E F A} (hs : (ss.take y)[q']? = some s') (hpq : p < q') : s'.err = some er ∧ s'.last = 0 ∧ s'.lastErr = t := by
  obtain ⟨v, hn⟩ := hb.at_
  obtain ⟨w, r, h1, h2, h3⟩ := hb.over
  have hn' : (tr.take y)[n]? = some (.finish j (.ret v (some er))) := get_take.2 ⟨by omega, hn⟩
  have hfin := no_finish h0 hn' (get_take.2 ⟨hy, hc.at_⟩) hns
    (fun x j' o' hx hx' => hb.other x j' o' hx (by have := (get_take.1 hx').1; omega) (get_take.1 hx').2)
  have ho : Over tr n j p := .inl ⟨w, r, h1, by omega, h3⟩
  obtain ⟨a1, a2, a3⟩ := states_err (m := m) (t := t) h0 hn' (ho.take hy) hfin hs hpq
  exact ⟨a1, a2, a3 (stamp_take hb.stamp (by have := stamp_before_ret h hn hb.stamp h3 h1; omega))⟩

/-- **C18** does not hold for `maxAge` larger than the clock: the error is not served, but the old data. -/
theorem C18_false : ¬ ∀ (c : Cfg Nat) (rf : Nat) (tr : List (Ev Nat Nat Nat Nat)) (ss : List (State Nat Nat Nat Nat)) (s : State Nat Nat Nat Nat)
    (n j er m : Nat) (t : Int) (i p q : Nat) (op : Op Nat Nat) (r : Res Nat Nat), Exec c rf tr ss s → CallAt tr i p op q → op.isGet →
    tr[q]? = some (.ret i r) → ErrBefore tr n j er m t i p q → 0 < c.errAge →
    (∀ x now, p < x → x < q → tr[x]? = some (.clock i now) → now - t < c.errAge) → NoStart tr i p q ∧ r = .val c.zero (some er) := by
  intro hall
  have ht : trace ⟨0, 9223372036854775807, 1000⟩ (refreshBy 0 (.ret 7 (some 3)) 1790000000000000000 ++ getBy 1 1790000000000000005) =
    some [.call 0 (.refresh 0 0), .locked 0, .start 0 0 0 0, .finish 0 (.ret 7 (some 3)), .tau 0, .clock 0 1790000000000000000, .tau 0, .tau 0,
      .tau 0, .ret 0 (.val 7 (some 3)), .call 1 (.get 0 0), .tau 1, .clock 1 1790000000000000005, .tau 1, .ret 1 (.val 0 none)] := by rfl
  obtain ⟨ss, s, h⟩ := play_trace ht
  refine absurd (hall _ _ _ _ _ 3 0 3 5 1790000000000000000 1 10 14 (.get 0 0) _ h ⟨by omega, rfl, ?_⟩ trivial rfl
    ⟨⟨7, rfl⟩, ⟨by omega, rfl, ?_⟩, ⟨9, _, by omega, by omega, rfl⟩, ?_⟩ (by decide) ?_).2 nofun
  · intro k op' h1 h2
    rcases (by omega : k = 11 ∨ k = 12 ∨ k = 13) with rfl | rfl | rfl <;> nofun
  · intro k t' h1 h2
    rcases (by omega : k = 4) with rfl
    nofun
  · intro k j o h1 h2 h3
    rcases (by omega : k = 4 ∨ k = 5 ∨ k = 6 ∨ k = 7 ∨ k = 8 ∨ k = 9 ∨ k = 10 ∨ k = 11 ∨ k = 12 ∨ k = 13) with
      rfl | rfl | rfl | rfl | rfl | rfl | rfl | rfl | rfl | rfl <;> cases h3
  · intro k now h1 h2 h3
    rcases (by omega : k = 11 ∨ k = 12 ∨ k = 13) with rfl | rfl | rfl <;> injection h3 with h3 <;> injection h3
    subst_vars
    decide

/-- **C18**, except for clocks that read less than `maxAge`. The full statement is that of `C18_false`. -/
theorem C18_partial (h : Exec c rf tr ss s) (hc : CallAt tr i p op q) (hg : op.isGet) (hq : tr[q]? = some (.ret i r))
    (hb : ErrBefore tr n j er m t i p q) (hage : 0 < c.errAge)
    (hf : ∀ x now, p < x → x < q → tr[x]? = some (.clock i now) → now - t < c.errAge) (hclk : ClockFrom tr i p q c.maxAge) :
    NoStart tr i p q ∧ NoLock tr i p q ∧ r = .val c.zero (some er) := by
  have hpq := hc.lt
  have hns : NoStart tr i p q := by
    intro z f a old hz hzq hzs
    obtain ⟨s0, k, h1, _, h3, ⟨_, h4⟩, _⟩ := h.start_miss hzs ⟨hz, hc.at_, fun k op' a b => hc.only k op' a (by omega)⟩ hg
    obtain ⟨l, ⟨q1, s1, a1, a2, a3⟩, ⟨q2, now, b1, b2, b3⟩⟩ := h4 hage
    have := (hb.states h hc hz (by omega) h1 h3.noStart a2 a1).2.2
    have b2' := get_take.1 b2
    have := hf q2 now b1 (by omega) b2'.2
    omega
  refine ⟨hns, ?_⟩
  obtain ⟨s0, h1, h2⟩ := h.get_out hq hc hg
  have hk : ∀ {q' : Nat} {s' : State T E F A}, (ss.take q)[q']? = some s' → p < q' → s'.err = some er ∧ s'.last = 0 ∧ s'.lastErr = t :=
    fun a b => hb.states h hc hpq (Nat.le_refl _) h1 hns.never a b
  have nodata : ∀ {k : Nat} {d : T}, p ≤ k → ¬ DataHit c (tr.take q) (ss.take q) i k d := by
    rintro k d hpk ⟨l, q1, a1, ⟨s1, a2, a3⟩, a4, _⟩
    have := (hk a2 (by omega)).2.1
    rcases a4 with a4 | ⟨q2, now, b1, b2, b3⟩
    · omega
    · have b2' := get_take.1 b2
      have := hclk q2 now (by omega) b2'.1 b2'.2
      omega
  have err : ∀ {k : Nat} {e : Option E}, p ≤ k → ErrHit c (tr.take q) (ss.take q) i k e → e = some er := by
    rintro k d hpk ⟨_, l, q1, a1, ⟨s1, a2, a3⟩, _, ⟨q2, s2, b1, b2, b3⟩⟩
    rw [← b3, (hk b2 (by omega)).1]
  cases h2 with
  | fastData d a1 a2 a3 => exact absurd a3 (nodata (Nat.le_refl _))
  | fastErr e a1 a2 a3 a4 => exact ⟨.of_never a1, by rw [err (Nat.le_refl _) a4]⟩
  | lockData k d a1 a2 a3 a4 a5 a6 => exact absurd a6 (nodata (by omega))
  | lockErr k e a1 a2 a3 a4 a5 a6 a7 =>
    obtain ⟨l, ⟨q1, s1, b1, b2, b3⟩, ⟨q2, now, d1, d2, d3⟩⟩ := a5.2 hage
    have := (hk b2 b1).2.2
    have d2' := get_take.1 d2
    have := hf q2 now d1 d2'.1 d2'.2
    omega
  | refreshed k z n' f a old o a1 a2 a3 a4 a5 a6 a7 a8 a9 a10 =>
    have := get_take.1 a5
    exact absurd this.2 (hns z f a old (by omega) this.1)

/-- **C18**: with `errAge <= 0` no error is cached: a `Get` that returns an error ran a refresh function that returned it. -/
theorem C18_never (h : Exec c rf tr ss s) (hc : CallAt tr i p op q) (hg : op.isGet) (hq : tr[q]? = some (.ret i (.val v (some er))))
    (hage : c.errAge ≤ 0) : ∃ z n f a old, p < z ∧ z < n ∧ n < q ∧ tr[z]? = some (.start i f a old) ∧
      tr[n]? = some (.finish i (.ret v (some er))) := by
  obtain ⟨s0, h1, h2⟩ := h.get_out hq hc hg
  generalize hr : (Res.val v (some er) : Res T E) = r at h2
  cases h2 with
  | fastData d a1 a2 a3 => cases hr
  | fastErr e a1 a2 a3 a4 => have := a4.1; omega
  | lockData k d a1 a2 a3 a4 a5 a6 => cases hr
  | lockErr k e a1 a2 a3 a4 a5 a6 a7 => have := a7.1; omega
  | refreshed k z n' f a old o a1 a2 a3 a4 a5 a6 a7 a8 a9 a10 =>
    have b5 := get_take.1 a5
    have b10 := get_take.1 a10
    refine ⟨z, n', f, a, old, by omega, a9, b10.1, b5.2, ?_⟩
    rcases o with ⟨v', e'⟩ | _
    · injection hr with hr1 hr2; subst hr1; subst hr2; exact b10.2
    · cases hr

/-- An error at 100 is served at 105, with `errAge` 10 and `maxAge` 5; not with `errAge` 0. -/
example : (trace ⟨0, 5, 10⟩ (refreshBy 0 (.ret 7 (some 3)) 100 ++ [(1, .call (.get 0 0)), (1, .go), (1, .time 104), (1, .time 105)] ++
      goes 1 3)).map (·.drop 10) =
    some [.call 1 (.get 0 0), .tau 1, .clock 1 104, .clock 1 105, .tau 1, .tau 1, .ret 1 (.val 0 (some 3))] := by rfl
example : (trace ⟨0, 5, 0⟩ (refreshBy 0 (.ret 7 (some 3)) 100 ++ [(1, .call (.get 0 0)), (1, .go), (1, .time 104), (1, .go), (1, .time 105)] ++
      goes 1 2)).map (·.drop 10) =
    some [.call 1 (.get 0 0), .tau 1, .clock 1 104, .locked 1, .clock 1 105, .tau 1, .start 1 0 0 0] := by rfl

/-! ## C19 -/

/-- **C19** does not hold: a refresh that runs during the `Clear` writes its value back after it. -/
theorem C19_false : ¬ ∀ (c : Cfg Nat) (rf : Nat) (tr : List (Ev Nat Nat Nat Nat)) (ss : List (State Nat Nat Nat Nat)) (s : State Nat Nat Nat Nat)
    (x k y i p q : Nat) (op : Op Nat Nat) (r r' : Res Nat Nat), Exec c rf tr ss s → tr[x]? = some (.cleared k) → tr[y]? = some (.ret k r') →
    x < y → y < p → CallAt tr i p op q → op.isGet → tr[q]? = some (.ret i r) → c.errAge ≤ 0 → ClockFrom tr i p q c.maxAge →
    (∀ z j f a old, x < z → z < q → tr[z]? = some (.start j f a old) → j = i ∧ p < z) → ¬ NoStart tr i p q := by
  intro hall
  have ht : trace ⟨0, 5, 0⟩ ([(0, .call (.refresh 0 0)), (0, .go), (0, .go), (2, .call (.clear none 0)), (2, .go), (2, .go),
      (0, .fin (.ret 7 none)), (0, .go), (0, .time 100)] ++ goes 0 4 ++ getBy 1 104) =
    some [.call 0 (.refresh 0 0), .locked 0, .start 0 0 0 0, .call 2 (.clear none 0), .cleared 2, .ret 2 (.err none), .finish 0 (.ret 7 none),
      .tau 0, .clock 0 100, .tau 0, .tau 0, .tau 0, .ret 0 (.val 7 none), .call 1 (.get 0 0), .tau 1, .clock 1 104, .tau 1,
      .ret 1 (.val 7 none)] := by rfl
  obtain ⟨ss, s, h⟩ := play_trace ht
  refine hall _ _ _ _ _ 4 2 5 1 13 17 (.get 0 0) _ _ h rfl rfl (by omega) (by omega) ⟨by omega, rfl, ?_⟩ trivial rfl (by decide) ?_ ?_ ?_
  · intro k op' h1 h2
    rcases (by omega : k = 14 ∨ k = 15 ∨ k = 16) with rfl | rfl | rfl <;> nofun
  · intro k now h1 h2 h3
    rcases (by omega : k = 14 ∨ k = 15 ∨ k = 16) with rfl | rfl | rfl <;> injection h3 with h3 <;> injection h3
    subst_vars
    decide
  · intro k j f a old h1 h2 h3
    rcases (by omega : k = 5 ∨ k = 6 ∨ k = 7 ∨ k = 8 ∨ k = 9 ∨ k = 10 ∨ k = 11 ∨ k = 12 ∨ k = 13 ∨ k = 14 ∨ k = 15 ∨ k = 16) with
      rfl | rfl | rfl | rfl | rfl | rfl | rfl | rfl | rfl | rfl | rfl | rfl <;> cases h3
  · intro k f a old h1 h2
    rcases (by omega : k = 14 ∨ k = 15 ∨ k = 16) with rfl | rfl | rfl <;> nofun

/-- **C19**: a value that a `Get` serves after a `Clear` (at `x`), without a refresh of its own, is that of a refresh no older
than one whose call had not returned at the `Clear`. For clocks not less than `maxAge` and `errAge`. -/
theorem C19_source (h : Exec c rf tr ss s) {x k : Nat} (hx : tr[x]? = some (.cleared k)) (hxp : x < p) (hc : CallAt tr i p op q)
    (hg : op.isGet) (hq : tr[q]? = some (.ret i (.val v none))) (hns : NoStart tr i p q) (hclk : ClockFrom tr i p q c.maxAge)
    (hclk' : ClockFrom tr i p q c.errAge) :
    ∃ n j o n' j' o', tr[n]? = some (.finish j o) ∧ (∀ y r, n < y → y < x → tr[y]? ≠ some (.ret j r)) ∧
      n ≤ n' ∧ n' < q ∧ tr[n']? = some (.finish j' o') ∧ (o' = .ret v none ∨ (o' = .panic ∧ v = c.zero)) := by
  obtain ⟨s0, h1, h2⟩ := get_hit h hc hg hq hns hclk'
  obtain ⟨n, j, o, m, t, w, n', j', o', a1, a2, a3, a4, a5, a6, a7, a8, a9, a10⟩ := h2.src h1 hclk.take
  have hpq := hc.lt
  have hxw := a9 x k (by omega) (get_take.2 ⟨by omega, hx⟩)
  refine ⟨n, j, o, n', j', o', (get_take.1 a1).2, ?_, a5, (get_take.1 a6).1, (get_take.1 a6).2, ?_⟩
  · intro y r hy hyx hr
    exact a8 y r hy (by omega) (get_take.2 ⟨by omega, hr⟩)
  · rcases o' with ⟨v', _ | e'⟩ | _
    · injection a7 with a7; subst a7; exact .inl rfl
    · cases a7
    · injection a7 with a7; exact .inr ⟨rfl, a7.symm⟩

/-- **C19**, if no refresh runs during the `Clear`, and for clocks not less than `maxAge` and `errAge`: every refresh started
before the `Clear` (at `x`) has returned by then, and no other refresh starts; then the next `Get` starts a refresh, or
returns a cached error. The full statement is that of `C19_false`. -/
theorem C19_partial (h : Exec c rf tr ss s) {x k : Nat} (hx : tr[x]? = some (.cleared k)) (hxp : x < p) (hc : CallAt tr i p op q)
    (hg : op.isGet) (hq : tr[q]? = some (.ret i r)) (hclk : ClockFrom tr i p q c.maxAge) (hclk' : ClockFrom tr i p q c.errAge)
    (hold : ∀ z j f a old, z < x → tr[z]? = some (.start j f a old) → ∃ y r, z < y ∧ y < x ∧ tr[y]? = some (.ret j r))
    (hnew : ∀ z j f a old, x < z → z < q → tr[z]? = some (.start j f a old) → j = i ∧ p < z) :
    ¬ NoStart tr i p q ∨ (0 < c.errAge ∧ ∃ e, r = .val c.zero (some e)) := by
  by_cases hns : NoStart tr i p q
  · right
    obtain ⟨s0, h1, h2⟩ := h.get_out hq hc hg
    have nohit : ∀ {k d}, p ≤ k → ¬ DataHit c (tr.take q) (ss.take q) i k d := by
      intro k' d hpk hd
      obtain ⟨n, j, o, m, t, w, n', j', o', a1, a2, a3, a4, a5, a6, a7, a8, a9, a10⟩ := (hd.mono hpk).src h1 hclk.take
      have hpq := hc.lt
      have hxw := a9 x k (by omega) (get_take.2 ⟨by omega, hx⟩)
      have b1 := get_take.1 a1
      obtain ⟨z, f, a, old, g1, g2, g3, g4, g5⟩ := h.closed b1.2
      rcases Nat.lt_trichotomy z x with h' | h' | h'
      · obtain ⟨y, r', h3, h4, h5⟩ := hold z j f a old h' g2
        rcases Nat.lt_trichotomy y n with h6 | h6 | h6
        · exact g5 y _ h3 h6 h5 rfl trivial
        · subst h6; rw [b1.2] at h5; cases h5
        · exact a8 y r' h6 (by omega) (get_take.2 ⟨by omega, h5⟩)
      · subst h'; rw [hx] at g2; cases g2
      · obtain ⟨rfl, h3⟩ := hnew z j f a old h' (by omega) g2
        exact hns z f a old h3 (by omega) g2
    cases h2 with
    | fastData d a1 a2 a3 => exact absurd a3 (nohit (Nat.le_refl _))
    | fastErr e a1 a2 a3 a4 =>
      refine ⟨a4.1, ?_⟩
      cases e with
      | none => exact absurd rfl (a4.some h1 hclk'.take)
      | some e => exact ⟨e, rfl⟩
    | lockData k d a1 a2 a3 a4 a5 a6 => exact absurd a6 (nohit (by omega))
    | lockErr k e a1 a2 a3 a4 a5 a6 a7 =>
      refine ⟨a7.1, ?_⟩
      cases e with
      | none => exact absurd rfl ((a7.mono (by omega : p ≤ k)).some h1 hclk'.take)
      | some e => exact ⟨e, rfl⟩
    | refreshed k z n' f a old o a1 a2 a3 a4 a5 a6 a7 a8 a9 a10 =>
      have := get_take.1 a5
      exact absurd this.2 (hns z f a old (by omega) this.1)
  · exact .inl hns

/-- A refresh, a `Clear`, and a `Get` that must refresh though the value of 100 would be fresh at 104. -/
example : (trace ⟨0, 5, 0⟩ (refreshBy 0 (.ret 7 none) 100 ++ [(2, .call (.clear none 0)), (2, .go), (2, .go),
      (1, .call (.get 0 0)), (1, .go), (1, .time 104), (1, .go), (1, .time 104), (1, .go), (1, .go)])).map (·.drop 10) =
    some [.call 2 (.clear none 0), .cleared 2, .ret 2 (.err none), .call 1 (.get 0 0), .tau 1, .clock 1 104, .locked 1, .clock 1 104, .tau 1,
      .start 1 0 0 7] := by rfl

/-! ## C20 -/

/-- `v` is the value of the most recent refresh that ended before `z` with an outcome for which `val` is defined, or
`zero` if there is none. -/
def MostRecent (val : Outcome T E → Option T) (zero : T) (tr : List (Ev T E F A)) (z : Nat) (v : T) : Prop :=
  (∃ n j o, n < z ∧ tr[n]? = some (.finish j o) ∧ val o = some v ∧ ∀ n' j' o', n < n' → n' < z → tr[n']? = some (.finish j' o') → val o' = none) ∨
  (v = zero ∧ ∀ n j o, n < z → tr[n]? = some (.finish j o) → val o = none)

/-- The value of a success. -/
def Outcome.success : Outcome T E → Option T
  | .ret v none => some v
  | _ => none

theorem newest_exists {tr : List (Ev T E F A)} (val : Outcome T E → Option T) (z : Nat) :
    (∃ n j o v, n < z ∧ tr[n]? = some (.finish j o) ∧ val o = some v ∧ ∀ n' j' o', n < n' → n' < z → tr[n']? = some (.finish j' o') → val o' = none) ∨
    (∀ n j o, n < z → tr[n]? = some (.finish j o) → val o = none) := by
  induction z with
  | zero => exact .inr fun n j o h => by omega
  | succ z ih =>
    by_cases h : ∃ j o v, tr[z]? = some (.finish j o) ∧ val o = some v
    · obtain ⟨j, o, v, h1, h2⟩ := h
      exact .inl ⟨z, j, o, v, by omega, h1, h2, fun n' j' o' a b => by omega⟩
    · have hz : ∀ j o, tr[z]? = some (.finish j o) → val o = none := by
        intro j o h1
        cases h2 : val o with
        | none => rfl
        | some v => exact absurd ⟨j, o, v, h1, h2⟩ h
      rcases ih with ⟨n, j, o, v, h1, h2, h3, h4⟩ | h1
      · refine .inl ⟨n, j, o, v, by omega, h2, h3, ?_⟩
        intro n' j' o' h5 h6 h7
        rcases Nat.lt_or_ge n' z with h8 | h8
        · exact h4 n' j' o' h5 h8 h7
        · have : n' = z := by omega
          subst this; exact hz j' o' h7
      · refine .inr fun n j o h2 h3 => ?_
        rcases Nat.lt_or_ge n z with h8 | h8
        · exact h1 n j o h8 h3
        · have : n = z := by omega
          subst this; exact hz j o h3

/-- **C20**: the function gets the value of the most recent refresh that ended without an error, the zero value if there was none;
a panic counts as the zero value without an error. -/
theorem C20_exact (h : Exec c rf tr ss s) {f : F} {a : A} {old : T} (hz : tr[z]? = some (.start i f a old)) :
    MostRecent (Outcome.yield c.zero) c.zero tr z old := by
  obtain ⟨s0, inp, s1, h1, h2, _⟩ := h.at hz
  obtain ⟨_, h4, h5, _⟩ := step_start h2
  rw [show Ev.tid (Ev.start i f a old : Ev T E F A) = i from rfl] at h4
  subst h5
  rcases newest_exists (tr := tr) (Outcome.yield c.zero) z with ⟨n, j, o, v, a1, a2, a3, a4⟩ | a1
  · have hn : NewestOk c (tr.take z) n j o v := ⟨get_take.2 ⟨a1, a2⟩, a3, fun n' j' o' b1 b2 => a4 n' j' o' b1 (get_take.1 b2).1 (get_take.1 b2).2⟩
    rcases h1.data.1 n j o v hn with ⟨r, h6⟩ | h6
    · have := crit_unique h1 (i := i) (j := j) (by rw [h4]; trivial) (by rw [h6]; trivial)
      subst this
      rw [h6] at h4
      cases h4
    · exact .inl ⟨n, j, o, a1, a2, by rw [a3, h6], a4⟩
  · exact .inr ⟨h1.data.2 fun n j o b => a1 n j o (get_take.1 b).1 (get_take.1 b).2, a1⟩

/-- **C20** does not hold: a refresh function that panics overwrites the value by the zero value. -/
theorem C20_false : ¬ ∀ (c : Cfg Nat) (rf : Nat) (tr : List (Ev Nat Nat Nat Nat)) (ss : List (State Nat Nat Nat Nat)) (s : State Nat Nat Nat Nat)
    (z i f a old : Nat), Exec c rf tr ss s → tr[z]? = some (.start i f a old) → MostRecent Outcome.success c.zero tr z old := by
  intro hall
  have ht : trace ⟨0, 5, 0⟩ (refreshBy 0 (.ret 7 none) 100 ++ refreshBy 1 .panic 200 ++ [(2, .call (.refresh 0 0)), (2, .go), (2, .go)]) =
    some [.call 0 (.refresh 0 0), .locked 0, .start 0 0 0 0, .finish 0 (.ret 7 none), .tau 0, .clock 0 100, .tau 0, .tau 0, .tau 0,
      .ret 0 (.val 7 none), .call 1 (.refresh 0 0), .locked 1, .start 1 0 0 7, .finish 1 .panic, .tau 1, .clock 1 200, .tau 1, .tau 1, .tau 1,
      .ret 1 .panicked, .call 2 (.refresh 0 0), .locked 2, .start 2 0 0 0] := by rfl
  obtain ⟨ss, s, h⟩ := play_trace ht
  rcases hall _ _ _ _ _ 22 2 0 0 0 h rfl with ⟨n, j, o, h1, h2, h3, h4⟩ | ⟨_, h1⟩
  · rcases (by omega : n ≤ 3 ∨ 3 < n) with h5 | h5
    · rcases (by omega : n = 0 ∨ n = 1 ∨ n = 2 ∨ n = 3) with rfl | rfl | rfl | rfl <;> first | (cases h2; done) | skip
      injection h2 with h2
      injection h2 with _ h2
      subst h2
      cases h3
    · have := List.mem_of_getElem? h2
      rcases (by omega : n = 13 ∨ n < 13 ∨ 13 < n) with rfl | h6 | h6
      · injection h2 with h2
        injection h2 with _ h2
        subst h2
        cases h3
      · rcases (by omega : n = 4 ∨ n = 5 ∨ n = 6 ∨ n = 7 ∨ n = 8 ∨ n = 9 ∨ n = 10 ∨ n = 11 ∨ n = 12) with
          rfl | rfl | rfl | rfl | rfl | rfl | rfl | rfl | rfl <;> cases h2
      · rcases (by omega : n = 14 ∨ n = 15 ∨ n = 16 ∨ n = 17 ∨ n = 18 ∨ n = 19 ∨ n = 20 ∨ n = 21) with
          rfl | rfl | rfl | rfl | rfl | rfl | rfl | rfl <;> cases h2
  · have := h1 3 0 (.ret 7 none) (by omega) rfl
    cases this

/-- **C20** for functions that do not panic. The full statement is that of `C20_false`. -/
theorem C20_partial (h : Exec c rf tr ss s) {f : F} {a : A} {old : T} (hz : tr[z]? = some (.start i f a old))
    (hp : ∀ x j : Nat, x < z → tr[x]? ≠ some (.finish j .panic)) : MostRecent Outcome.success c.zero tr z old := by
  have key : ∀ n j o, n < z → tr[n]? = some (.finish j o) → o.yield c.zero = o.success := by
    intro n j o h1 h2
    rcases o with ⟨v, _ | e⟩ | _
    · rfl
    · rfl
    · exact absurd h2 (hp n j h1)
  rcases C20_exact h hz with ⟨n, j, o, h1, h2, h3, h4⟩ | ⟨h1, h2⟩
  · exact .inl ⟨n, j, o, h1, h2, by rw [← key n j o h1 h2, h3], fun n' j' o' b1 b2 b3 => by rw [← key n' j' o' b2 b3, h4 n' j' o' b1 b2 b3]⟩
  · exact .inr ⟨h1, fun n j o b1 b2 => by rw [← key n j o b1 b2, h2 n j o b1 b2]⟩

/-- A success, a failure, and the third refresh sees the value of the first. -/
example : (trace ⟨0, 5, 0⟩ (refreshBy 0 (.ret 7 none) 100 ++ refreshBy 1 (.ret 9 (some 3)) 200 ++ [(2, .call (.refresh 0 0)), (2, .go), (2, .go)])).map
    (·.drop 21) = some [.locked 2, .start 2 0 0 7] := by rfl

/-! ## C21 -/

/-- **C21** does not hold: after a refresh function panics, the zero value is served as a success. -/
theorem C21_false : ¬ ∀ (c : Cfg Nat) (rf : Nat) (tr : List (Ev Nat Nat Nat Nat)) (ss : List (State Nat Nat Nat Nat)) (s : State Nat Nat Nat Nat)
    (n j i p q w v : Nat) (op : Op Nat Nat) (o : Outcome Nat Nat) (r' : Res Nat Nat), Exec c rf tr ss s → CallAt tr i p op q → op.isGet →
    tr[q]? = some (.ret i (.val v none)) → tr[n]? = some (.finish j o) → o.success = none → tr[w]? = some (.ret j r') → n < w → w < p →
    NoOtherEnd tr n i p q → ClockFrom tr i p q c.maxAge → ¬ NoStart tr i p q := by
  intro hall
  have ht : trace ⟨0, 5, 0⟩ (refreshBy 0 .panic 100 ++ getBy 1 104) =
    some [.call 0 (.refresh 0 0), .locked 0, .start 0 0 0 0, .finish 0 .panic, .tau 0, .clock 0 100, .tau 0, .tau 0, .tau 0,
      .ret 0 .panicked, .call 1 (.get 0 0), .tau 1, .clock 1 104, .tau 1, .ret 1 (.val 0 none)] := by rfl
  obtain ⟨ss, s, h⟩ := play_trace ht
  refine hall _ _ _ _ _ 3 0 1 10 14 9 0 (.get 0 0) _ _ h ⟨by omega, rfl, ?_⟩ trivial rfl rfl rfl rfl (by omega) (by omega) ?_ ?_ ?_
  · intro k op' h1 h2
    rcases (by omega : k = 11 ∨ k = 12 ∨ k = 13) with rfl | rfl | rfl <;> nofun
  · intro k j o h1 h2 h3
    rcases (by omega : k = 4 ∨ k = 5 ∨ k = 6 ∨ k = 7 ∨ k = 8 ∨ k = 9 ∨ k = 10 ∨ k = 11 ∨ k = 12 ∨ k = 13) with
      rfl | rfl | rfl | rfl | rfl | rfl | rfl | rfl | rfl | rfl <;> cases h3
  · intro k now h1 h2 h3
    rcases (by omega : k = 11 ∨ k = 12 ∨ k = 13) with rfl | rfl | rfl <;> injection h3 with h3 <;> injection h3
    subst_vars
    decide
  · intro k f a old h1 h2
    rcases (by omega : k = 11 ∨ k = 12 ∨ k = 13) with rfl | rfl | rfl <;> nofun

/-- **C21** for errors: if the last refresh before a `Get` returned an error, the `Get` does not succeed without a refresh of its
own. Not for panics; for clocks not less than `maxAge`. The full statement is that of `C21_false`. -/
theorem C21_partial (h : Exec c rf tr ss s) (hc : CallAt tr i p op q) (hg : op.isGet) (hq : tr[q]? = some (.ret i (.val v none)))
    (hb : ErrBefore tr n j er m t i p q) (hclk : ClockFrom tr i p q c.maxAge) : ¬ NoStart tr i p q := by
  intro hns
  have hpq := hc.lt
  obtain ⟨s0, h1, h2⟩ := h.get_out hq hc hg
  have hk : ∀ {q' : Nat} {s' : State T E F A}, (ss.take q)[q']? = some s' → p < q' → s'.err = some er ∧ s'.last = 0 ∧ s'.lastErr = t :=
    fun a b => hb.states h hc hpq (Nat.le_refl _) h1 hns.never a b
  have nodata : ∀ {k : Nat} {d : T}, p ≤ k → ¬ DataHit c (tr.take q) (ss.take q) i k d := by
    rintro k d hpk ⟨l, q1, a1, ⟨s1, a2, a3⟩, a4, _⟩
    have := (hk a2 (by omega)).2.1
    rcases a4 with a4 | ⟨q2, now, b1, b2, b3⟩
    · omega
    · have b2' := get_take.1 b2
      have := hclk q2 now (by omega) b2'.1 b2'.2
      omega
  have err : ∀ {k : Nat} {e : Option E}, p ≤ k → ErrHit c (tr.take q) (ss.take q) i k e → e = some er := by
    rintro k d hpk ⟨_, l, q1, a1, ⟨s1, a2, a3⟩, _, ⟨q2, s2, b1, b2, b3⟩⟩
    rw [← b3, (hk b2 (by omega)).1]
  generalize hr : (Res.val v none : Res T E) = r at h2
  cases h2 with
  | fastData d a1 a2 a3 => exact absurd a3 (nodata (Nat.le_refl _))
  | fastErr e a1 a2 a3 a4 => rw [err (Nat.le_refl _) a4] at hr; cases hr
  | lockData k d a1 a2 a3 a4 a5 a6 => exact absurd a6 (nodata (by omega))
  | lockErr k e a1 a2 a3 a4 a5 a6 a7 => rw [err (by omega) a7] at hr; cases hr
  | refreshed k z n' f a old o a1 a2 a3 a4 a5 a6 a7 a8 a9 a10 =>
    have := get_take.1 a5
    exact absurd this.2 (hns z f a old (by omega) this.1)

/-- A success at 100, a failure at 101, and a `Get` at 102 refreshes though the value of 100 is not older than 5. -/
example : (trace ⟨0, 5, 0⟩ (refreshBy 0 (.ret 7 none) 100 ++ refreshBy 0 (.ret 9 (some 3)) 101 ++
      [(1, .call (.get 0 0)), (1, .go), (1, .time 102), (1, .go), (1, .time 102), (1, .go), (1, .go)])).map (·.drop 20) =
    some [.call 1 (.get 0 0), .tau 1, .clock 1 102, .locked 1, .clock 1 102, .tau 1, .start 1 0 0 7] := by rfl

end Verif.Refresh
