import Verif.Refresh.Glob
/-!
# From the invariants to histories
-/
namespace Verif.Refresh
variable {T E F A : Type}
variable {c : Cfg T} {rf : F} {tr : List (Ev T E F A)} {ss : List (State T E F A)} {i j n m p q z : Nat}
  {s s' : State T E F A} {e : Ev T E F A} {inp : In T E F A} {op : Op F A} {o : Outcome T E} {r : Res T E} {v : T} {er : E} {t : Int}

theorem step_ret {r : Res T E} (h : step c s i inp = some (s', .ret j r)) : j = i ∧ s.pc i = .done r := by
  cases hpc : s.pc i <;> cases inp <;> simp only [step, hpc, reduceCtorEq, Option.some.injEq, Prod.mk.injEq] at h
  case done.go o' =>
    obtain ⟨_, h⟩ := h
    injection h with h1 h2
    subst h1; subst h2
    exact ⟨rfl, rfl⟩
  all_goals first
    | (obtain ⟨_, h⟩ := h; cases h; done)
    | (split at h <;> first | (cases h; done) | (simp only [Option.some.injEq, Prod.mk.injEq] at h; obtain ⟨_, h⟩ := h; cases h; done))

theorem step_start {f : F} {a : A} {old : T} (h : step c s i inp = some (s', .start j f a old)) :
    j = i ∧ s.pc i = .old f a ∧ old = s.data ∧ s'.pc i = .running := by
  cases hpc : s.pc i <;> cases inp <;> simp only [step, hpc, reduceCtorEq, Option.some.injEq, Prod.mk.injEq] at h
  case old.go o' =>
    obtain ⟨rfl, h⟩ := h
    injection h with h1 h2 h3 h4
    subst h1; subst h2; subst h3; subst h4
    exact ⟨rfl, rfl, rfl, by simp only [State.go, Function.update_self]⟩
  all_goals first
    | (obtain ⟨_, h⟩ := h; cases h; done)
    | (split at h <;> first | (cases h; done) | (simp only [Option.some.injEq, Prod.mk.injEq] at h; obtain ⟨_, h⟩ := h; cases h; done))

/-! ## Starts and ends match -/

/-- A refresh that started has ended or runs. -/
theorem Exec.opened (h : Exec c rf tr ss s) : ∀ (z i : Nat) (f : F) (a : A) (old : T), tr[z]? = some (.start i f a old) →
    (∃ n o, z < n ∧ tr[n]? = some (.finish i o)) ∨ s.pc i = .running := by
  induction h with
  | nil => intro z i f a old h; simp at h
  | snoc h1 h2 ih =>
    rename_i tr ss s i inp s' e
    intro z j f a old hz
    rcases get_snoc.1 hz with hz' | ⟨rfl, rfl⟩
    · rcases ih z j f a old hz' with ⟨n, o, h3, h4⟩ | h3
      · exact .inl ⟨n, o, h3, get_keep h4⟩
      · by_cases hj : j = i
        · subst hj
          cases inp <;> simp only [step, h3, reduceCtorEq, Option.some.injEq, Prod.mk.injEq] at h2
          obtain ⟨rfl, rfl⟩ := h2
          exact .inl ⟨tr.length, _, get_lt hz', get_new⟩
        · exact .inr (by rw [step_other h2 hj, h3])
    · obtain ⟨rfl, _, _, h4⟩ := step_start h2
      exact .inr h4

/-- The start of a refresh that ended, and what is not between. -/
theorem Exec.closed (h : Exec c rf tr ss s) (hn : tr[n]? = some (.finish i o)) :
    ∃ z f a old, z < n ∧ tr[z]? = some (.start i f a old) ∧
      (∀ (x j : Nat) (f' : F) (a' : A) (old' : T), z < x → x < n → tr[x]? ≠ some (.start j f' a' old')) ∧
      (∀ (x j : Nat) (o' : Outcome T E), z < x → x < n → tr[x]? ≠ some (.finish j o')) ∧
      (∀ (x : Nat) (e : Ev T E F A), z < x → x < n → tr[x]? = some e → e.tid = i → ¬ e.isLoud) := by
  obtain ⟨s0, inp, s1, h1, h2, _⟩ := h.at hn
  obtain ⟨_, h4, _⟩ := step_finish h2
  have h3 := h1.pcs i
  rw [show Ev.tid (Ev.finish i o : Ev T E F A) = i from rfl] at h4
  rw [h4] at h3
  obtain ⟨p, op, k, z, h5, h6⟩ := h3
  obtain ⟨f, a, old, h7⟩ := h5.start
  obtain ⟨k', h8, h9⟩ := h1.lock.excl i ((h1.lock.crit i).2 (by rw [h4]; trivial))
  have hk : k' = k := h5.oneLock k' _ (by
    rcases Nat.lt_or_ge p k' with h | h
    · exact h
    · have := h5.lt; exact absurd trivial (h9 k _ (by omega) h5.lock).1) h8 rfl trivial
  subst hk
  have hz := get_take.1 h7
  refine ⟨z, f, a, old, hz.1, hz.2, ?_, ?_, ?_⟩
  · intro x j f' a' old' hx hxn hs
    have hs' : (tr.take n)[x]? = some (.start j f' a' old') := get_take.2 ⟨hxn, hs⟩
    have := (h9 x _ (by have := h5.lt'; omega) hs').2 (.inl trivial)
    exact h6 x _ hx hs' this trivial
  · intro x j o' hx hxn hs
    have hs' : (tr.take n)[x]? = some (.finish j o') := get_take.2 ⟨hxn, hs⟩
    have := (h9 x _ (by have := h5.lt'; omega) hs').2 (.inr trivial)
    exact h6 x _ hx hs' this trivial
  · intro x e hx hxn he hi
    exact h6 x e hx (get_take.2 ⟨hxn, he⟩) hi

/-! ## The call -/

theorem CallAt.take {y : Nat} (h : CallAt tr i p op q) (hy : p < y) (hyq : y ≤ q) : CallAt (tr.take y) i p op y := by
  refine ⟨hy, get_take.2 ⟨hy, h.at_⟩, ?_⟩
  intro k op' h1 h2 h3
  exact h.only k op' h1 (by omega) (get_take.1 h3).2

/-- A call of `i` that is the last so far is the given one. -/
theorem CallAt.same {p' : Nat} {op' : Op F A} (h : CallAt tr i p op q) (h1 : tr[p']? = some (.call i op')) (h2 : p' < q)
    (h3 : Never tr i p' Ev.isCall) : p' = p ∧ op' = op := by
  have : p' = p := by
    rcases Nat.lt_trichotomy p' p with h4 | h4 | h4
    · exact absurd trivial (h3 p _ h4 h.at_ rfl)
    · exact h4
    · exact absurd h1 (h.only p' op' h4 h2)
  subst this
  have := h.at_
  rw [h1] at this
  injection this with this
  injection this with _ this
  exact ⟨rfl, this⟩

/-- How a `Get` comes to its result. -/
theorem Exec.get_out (h : Exec c rf tr ss s) (hq : tr[q]? = some (.ret i r)) (hc : CallAt tr i p op q) (hg : op.isGet) :
    ∃ s0, Exec c rf (tr.take q) (ss.take q) s0 ∧ GetOut c (tr.take q) (ss.take q) i p r := by
  obtain ⟨s0, inp, s1, h1, h2, _⟩ := h.at hq
  obtain ⟨_, h4⟩ := step_ret h2
  have h3 := h1.pcs i
  rw [show Ev.tid (Ev.ret i r : Ev T E F A) = i from rfl] at h4
  rw [h4] at h3
  obtain ⟨p', op', h5, h6, h7⟩ := h3
  obtain ⟨rfl, rfl⟩ := (hc.take hc.lt (Nat.le_refl _)).same h5 (get_take.1 h5).1 h6
  exact ⟨s0, h1, h7 hg⟩

/-- What a `Get` knows when it starts a refresh. -/
theorem Exec.start_miss (h : Exec c rf tr ss s) {f : F} {a : A} {old : T} (hz : tr[z]? = some (.start i f a old))
    (hc : CallAt tr i p op z) (hg : op.isGet) :
    ∃ s0 k, Exec c rf (tr.take z) (ss.take z) s0 ∧ (s0.pc i).crit ∧ Lk (tr.take z) i p op k ∧
      Missed c (tr.take z) (ss.take z) i p ∧ Missed c (tr.take z) (ss.take z) i k := by
  obtain ⟨s0, inp, s1, h1, h2, _⟩ := h.at hz
  obtain ⟨_, h4, _⟩ := step_start h2
  have h3 := h1.pcs i
  rw [show Ev.tid (Ev.start i f a old : Ev T E F A) = i from rfl] at h4
  rw [h4] at h3
  obtain ⟨p', op', k, h5, h6⟩ := h3
  obtain ⟨rfl, rfl⟩ := (hc.take hc.lt (Nat.le_refl _)).same h5.at_ (get_take.1 h5.at_).1 h5.noCall
  exact ⟨s0, k, h1, by rw [h4]; trivial, h5, h6 hg⟩

/-! ## After a refresh is written back -/

/-- The refresh that ended at `n` in thread `j` is written back by `p`. -/
def Over (tr : List (Ev T E F A)) (n j p : Nat) : Prop :=
  (∃ w r, n < w ∧ w ≤ p ∧ tr[w]? = some (.ret j r)) ∨ (∃ k i', n < k ∧ k ≤ p ∧ tr[k]? = some (.locked i'))

theorem Over.lt (h : Over tr n j p) : n < p := by
  rcases h with ⟨w, r, h1, h2, _⟩ | ⟨w, r, h1, h2, _⟩ <;> omega

theorem Over.not_wb (h : Exec c rf tr ss s) (hn : Newest tr n j o) (ho : Over tr n j p) {n' : Nat} {o' : Outcome T E} {r : Res T E}
    (hc : (s.pc j).crit) : ¬ WB c tr ss j n' o' r := by
  intro hw
  have h1 := newest_of_wb h hc hw hn.at_
  have h2 : n' = n := by
    rcases Nat.lt_or_ge n n' with h | h
    · exact absurd hw.at_ (hn.last _ _ _ h)
    · omega
  subst h2
  rcases ho with ⟨w, r, h3, _, h4⟩ | ⟨k, i', h3, _, h4⟩
  · exact hw.quiet w _ h3 h4 rfl trivial
  · obtain ⟨p, op, k0, z, h5, h6⟩ := hw.st
    obtain ⟨k', h7, h8⟩ := h.lock.excl j ((h.lock.crit j).2 hc)
    have h9 : ¬ k' < k0 := fun hlt => (h8 k0 _ hlt h5.lock).1 trivial
    have hk : k' = k0 := h5.oneLock k' _ (by have := h5.lt; omega) h7 rfl trivial
    subst hk
    exact (h8 k _ (by have := h5.lt'; omega) h4).1 trivial

theorem Newest.ok (h : Newest tr n j o) (hv : o.yield c.zero = some v) : NewestOk c tr n j o v :=
  ⟨h.at_, hv, fun n' j' o' h1 h2 => absurd h2 (h.last n' j' o' h1)⟩

theorem Newest.err (h : Newest tr n j (.ret v (some er))) : NewestErr tr n j v er :=
  ⟨h.at_, fun n' j' v' er' h1 h2 => absurd h2 (h.last n' j' _ h1)⟩

theorem settled_ok (h : Exec c rf tr ss s) (hn : Newest tr n j o) (hv : o.yield c.zero = some v) (ho : Over tr n j p) :
    s.data = v ∧ s.lastErr = 0 ∧ ∃ m t, Stamp tr j n m t ∧ (s.last = t ∨ ∃ x j', m < x ∧ tr[x]? = some (.cleared j')) := by
  have hp := h.pcs j
  refine ⟨?_, ?_, ?_⟩
  · rcases h.data.1 n j o v (hn.ok hv) with ⟨r, h1⟩ | h1
    · rw [h1] at hp
      obtain ⟨n', o', h2, _⟩ := hp
      exact absurd h2 (ho.not_wb h hn (by rw [h1]; trivial))
    · exact h1
  · rcases (h.ok n j o v hn hv).2 with h1 | h1
    · cases hpc : s.pc j <;> rw [hpc] at h1 hp <;> try exact h1.elim
      · obtain ⟨n', o', h2, _⟩ := hp
        exact absurd h2 (ho.not_wb h hn (by rw [hpc]; trivial))
      · obtain ⟨n', o', h2, _⟩ := hp
        exact absurd h2 (ho.not_wb h hn (by rw [hpc]; trivial))
      · obtain ⟨n', o', m', h2, _⟩ := hp
        exact absurd h2 (ho.not_wb h hn (by rw [hpc]; trivial))
      · obtain ⟨n', o', m', t', h2, _⟩ := hp
        exact absurd h2 (ho.not_wb h hn (by rw [hpc]; trivial))
    · exact h1
  · rcases (h.ok n j o v hn hv).1 with h1 | h1
    · cases hpc : s.pc j <;> rw [hpc] at h1 hp <;> try exact h1.elim
      · obtain ⟨n', o', h2, _⟩ := hp
        exact absurd h2 (ho.not_wb h hn (by rw [hpc]; trivial))
      · obtain ⟨n', o', h2, _⟩ := hp
        exact absurd h2 (ho.not_wb h hn (by rw [hpc]; trivial))
      · obtain ⟨n', o', m', h2, _⟩ := hp
        exact absurd h2 (ho.not_wb h hn (by rw [hpc]; trivial))
    · exact h1

theorem settled_err (h : Exec c rf tr ss s) (hn : Newest tr n j (.ret v (some er))) (ho : Over tr n j p) :
    s.err = some er ∧ s.last = 0 ∧ ∃ m, Stamp tr j n m s.lastErr := by
  have hp := h.pcs j
  refine ⟨?_, ?_⟩
  · rcases h.err.1 n j v er hn.err with ⟨r, h1⟩ | h1
    · rw [h1] at hp
      obtain ⟨n', o', h2, _⟩ := hp
      exact absurd h2 (ho.not_wb h hn (by rw [h1]; trivial))
    · exact h1
  · rcases h.fail n j v er hn with h1 | ⟨m, t, h1, h2, h3⟩
    · cases hpc : s.pc j <;> rw [hpc] at h1 hp <;> try exact h1.elim
      · obtain ⟨n', o', h2, _⟩ := hp
        exact absurd h2 (ho.not_wb h hn (by rw [hpc]; trivial))
      · obtain ⟨n', o', e', h2, _⟩ := hp
        exact absurd h2 (ho.not_wb h hn (by rw [hpc]; trivial))
      · obtain ⟨n', o', e', m', h2, _⟩ := hp
        exact absurd h2 (ho.not_wb h hn (by rw [hpc]; trivial))
    · refine ⟨?_, m, h2 ▸ h1⟩
      rcases h3 with ⟨r, h3⟩ | h3
      · rw [h3] at hp
        obtain ⟨n', o', e', m', t', h4, _⟩ := hp
        exact absurd h4 (ho.not_wb h hn (by rw [h3]; trivial))
      · exact h3

theorem Stamp.of_take (h : Stamp (tr.take q) i n m t) : Stamp tr i n m t := by
  have h1 := get_take.1 h.at_
  exact ⟨h.lt, h1.2, fun k t' a b d => h.first k t' a b (get_take.2 ⟨by omega, d⟩)⟩

theorem Over.take (h : Over tr n j p) (hq : p < q) : Over (tr.take q) n j p := by
  rcases h with ⟨w, r, h1, h2, h3⟩ | ⟨w, r, h1, h2, h3⟩
  · exact .inl ⟨w, r, h1, h2, get_take.2 ⟨by omega, h3⟩⟩
  · exact .inr ⟨w, r, h1, h2, get_take.2 ⟨by omega, h3⟩⟩

theorem newest_take (hn : tr[n]? = some (.finish j o)) (hf : ∀ (x j' : Nat) (o' : Outcome T E), n < x → tr[x]? ≠ some (.finish j' o'))
    (hq : n < q) : Newest (tr.take q) n j o :=
  ⟨get_take.2 ⟨hq, hn⟩, fun x j' o' h1 h2 => hf x j' o' h1 (get_take.1 h2).2⟩

/-- All states after `p`, if a success is written back by `p` and nothing happens since. -/
theorem states_ok (h : Exec c rf tr ss s) (hn : tr[n]? = some (.finish j o)) (hv : o.yield c.zero = some v) (ho : Over tr n j p)
    (hf : ∀ (x j' : Nat) (o' : Outcome T E), n < x → tr[x]? ≠ some (.finish j' o')) {s' : State T E F A} (hs : ss[q]? = some s') (hq : p < q) :
    s'.data = v ∧ s'.lastErr = 0 ∧ (Stamp tr j n m t → (∀ x j' : Nat, m < x → x < tr.length → tr[x]? ≠ some (.cleared j')) → s'.last = t) := by
  have hlt := ho.lt
  obtain ⟨h1, h2, m', t', h3, h4⟩ := settled_ok (h.state hs) (newest_take hn hf (by omega)) hv (ho.take (by omega))
  refine ⟨h1, h2, fun hst hcl => ?_⟩
  obtain ⟨rfl, rfl⟩ := h3.of_take.unique hst
  rcases h4 with h4 | ⟨x, j', h4, h5⟩
  · exact h4
  · exact absurd (get_take.1 h5).2 (hcl x j' h4 (get_lt (get_take.1 h5).2))

/-- All states after `p`, if an error is written back by `p` and no refresh ends since. -/
theorem states_err (h : Exec c rf tr ss s) (hn : tr[n]? = some (.finish j (.ret v (some er)))) (ho : Over tr n j p)
    (hf : ∀ (x j' : Nat) (o' : Outcome T E), n < x → tr[x]? ≠ some (.finish j' o')) {s' : State T E F A} (hs : ss[q]? = some s') (hq : p < q) :
    s'.err = some er ∧ s'.last = 0 ∧ (Stamp tr j n m t → s'.lastErr = t) := by
  have hlt := ho.lt
  obtain ⟨h1, h2, m', h3⟩ := settled_err (h.state hs) (newest_take hn hf (by omega)) (ho.take (by omega))
  exact ⟨h1, h2, fun hst => (h3.of_take.unique hst).2⟩

/-- If a `Get` called at `p` starts no refresh, it ends none. -/
theorem no_finish (h : Exec c rf tr ss s) (hn : tr[n]? = some (.finish j o)) (hp : tr[p]? = some (.call i op))
    (hs : Never tr i p Ev.isStart)
    (hf : ∀ (x j' : Nat) (o' : Outcome T E), n < x → tr[x]? = some (.finish j' o') → j' = i ∧ p < x) :
    ∀ (x j' : Nat) (o' : Outcome T E), n < x → tr[x]? ≠ some (.finish j' o') := by
  intro x j' o' hx h1
  obtain ⟨rfl, hpx⟩ := hf x j' o' hx h1
  obtain ⟨z, f, a, old, h2, h3, h4, h5, h6⟩ := h.closed h1
  rcases Nat.lt_trichotomy z p with h7 | h7 | h7
  · exact h6 p _ h7 hpx hp rfl trivial
  · subst h7; rw [hp] at h3; cases h3
  · exact hs z _ h7 h3 rfl trivial

/-! ## Where the served data comes from -/

/-- The data in the cache comes from a success, no older than any that wrote its data. -/
theorem Exec.dataSrc (h : Exec c rf tr ss s) : ∀ (n j : Nat) (o : Outcome T E), tr[n]? = some (.finish j o) → (o.yield c.zero).isSome →
    ((∃ v r, s.pc j = .wData v r) ∧ Never tr j n Ev.isLoud) ∨
    ∃ n' j' o', n ≤ n' ∧ tr[n']? = some (.finish j' o') ∧ o'.yield c.zero = some s.data := by
  induction h with
  | nil => intro n j o h; simp at h
  | snoc h1 h2 ih =>
    rename_i tr ss s i inp s' e
    intro n j o hn ho
    have hpi := h1.pcs i
    rcases get_snoc.1 hn with hn' | ⟨rfl, rfl⟩
    · rcases ih n j o hn' ho with ⟨⟨v, r, h3⟩, h4⟩ | ⟨n', j', o', h3, h4, h5⟩
      · by_cases hj : j = i
        · subst hj
          rw [h3] at hpi
          obtain ⟨n', o', w1, w2, w3⟩ := hpi
          cases inp <;> simp only [step, h3, reduceCtorEq, Option.some.injEq, Prod.mk.injEq] at h2
          obtain ⟨rfl, rfl⟩ := h2
          exact .inr ⟨n', j, o', newest_of_wb h1 (by rw [h3]; trivial) w1 hn', get_keep w1.at_, w2⟩
        · refine .inl ⟨⟨v, r, by rw [step_other h2 hj, h3]⟩, ?_⟩
          exact h4.ext (P := fun _ => False) (Ext.snoc fun h => hj (by rw [← h, step_tid h2])) (fun _ h => h.elim)
      · rcases step_data h2 with h6 | ⟨v, r, h6, h7⟩
        · exact .inr ⟨n', j', o', h3, get_keep h4, by rw [h6, h5]⟩
        · rw [h6] at hpi
          obtain ⟨n', o', w1, w2, w3⟩ := hpi
          exact .inr ⟨n', i, o', newest_of_wb h1 (by rw [h6]; trivial) w1 hn', get_keep w1.at_, by rw [h7, w2]⟩
    · obtain ⟨rfl, _, rfl⟩ := step_finish h2
      refine .inl ⟨?_, Never.fresh⟩
      simp only [State.go, Function.update_self]
      rcases o with ⟨w, _ | er⟩ | _
      · exact ⟨_, _, rfl⟩
      · cases ho
      · exact ⟨_, _, rfl⟩

theorem DataHit.mono {k : Nat} {d : T} (h : DataHit c tr ss i k d) (hk : p ≤ k) : DataHit c tr ss i p d := by
  obtain ⟨l, q, h1, h2, h3, h4⟩ := h
  refine ⟨l, q, by omega, h2, ?_, h4⟩
  rcases h3 with h3 | ⟨x, now, h5, h6⟩
  · exact .inl h3
  · exact .inr ⟨x, now, by omega, h6⟩

theorem ErrHit.mono {k : Nat} {d : Option E} (h : ErrHit c tr ss i k d) (hk : p ≤ k) : ErrHit c tr ss i p d := by
  obtain ⟨h0, l, q, h1, h2, ⟨x, now, h5, h6⟩, h4⟩ := h
  exact ⟨h0, l, q, by omega, h2, ⟨x, now, by omega, h6⟩, h4⟩

/-- Where the data of a successful check comes from. -/
theorem DataHit.src {d : T} (h : Exec c rf tr ss s) (hd : DataHit c tr ss i p d)
    (hclk : ∀ (x : Nat) (now : Int), p < x → tr[x]? = some (.clock i now) → c.maxAge ≤ now) :
    ∃ n j o m t w n' j' o', tr[n]? = some (.finish j o) ∧ (o.yield c.zero).isSome ∧ Stamp tr j n m t ∧
      (c.maxAge < 0 ∨ ∃ x now, p < x ∧ tr[x]? = some (.clock i now) ∧ now - t < c.maxAge) ∧
      n ≤ n' ∧ tr[n']? = some (.finish j' o') ∧ o'.yield c.zero = some d ∧
      (∀ x r, n < x → x ≤ w → tr[x]? ≠ some (.ret j r)) ∧ (∀ x j', x ≤ p → tr[x]? = some (.cleared j') → x ≤ w) ∧ w < tr.length := by
  obtain ⟨l, q1, h1, ⟨s1, h2, h3⟩, h4, q2, s2, h5, h6, h7⟩ := hd
  have hl : l ≠ 0 := by
    rcases h4 with h4 | ⟨x, now, h8, h9, h10⟩
    · omega
    · have := hclk x now h8 h9; omega
  have e1 := h.state h2
  have e2 := h.state h6
  obtain ⟨n, m, w, j, o, a1, a2, a3, a4, a5, a6, a7⟩ := e1.lastSrc (by rw [h3]; exact hl)
  rw [h3] at a3
  have b1 := get_take.1 a1
  have b3 := get_take.1 a3.at_
  have hlen : w < tr.length ∧ w < q1 + 1 := by
    rw [List.length_take] at a5; omega
  have hnm := a3.lt
  rcases e2.dataSrc n j o (get_take.2 ⟨by omega, b1.2⟩) a2 with ⟨⟨v, r, g1⟩, g2⟩ | ⟨n', j', o', g1, g2, g3⟩
  · have hp := e2.pcs j
    rw [g1] at hp
    obtain ⟨n0, o0, w1, w2, w3⟩ := hp
    have := newest_of_wb e2 (by rw [g1]; trivial) w1 (get_take.2 ⟨by omega, b1.2⟩ : (tr.take (q2 + 1))[n]? = _)
    have hn0 : n0 = n := by
      rcases Nat.lt_or_ge n n0 with h | h
      · exact absurd trivial (g2 n0 _ h w1.at_ rfl)
      · omega
    subst hn0
    exact absurd trivial (w3 m _ hnm (get_take.2 ⟨by omega, b3.2⟩) rfl)
  · refine ⟨n, j, o, m, l, w, n', j', o', b1.2, a2, a3.of_take, ?_, g1, (get_take.1 g2).2, by rw [g3, h7], ?_, ?_, hlen.1⟩
    · rcases h4 with h4 | ⟨x, now, h8, h9, h10⟩
      · exact .inl h4.1
      · exact .inr ⟨x, now, h8, h9, h10⟩
    · intro x r hx hxw hr
      exact a7 x r hx hxw (get_take.2 ⟨by omega, hr⟩)
    · intro x j' hx hr
      rcases Nat.lt_or_ge w x with h | h
      · exact absurd (get_take.2 ⟨by omega, hr⟩) (a6 x j' h)
      · exact h

/-! ## A cached error is an error -/

/-- In the write-back of an error, after the store to `err`. -/
def PC.mid : PC T E F A → Prop
  | .wErrNow _ | .wErrLast _ _ => True
  | _ => False

theorem entry_mid (op : Op F A) : ¬ (entry op : PC T E F A).mid := by
  cases op with
  | clear f a => cases f <;> exact fun h => h
  | _ => exact fun h => h
theorem gNext_mid {f : F} {a : A} : ¬ (gNext c f a : PC T E F A).mid := by
  unfold gNext; split <;> exact fun h => h
theorem lNext_mid {f : F} {a : A} : ¬ (lNext c f a : PC T E F A).mid := by
  unfold lNext; split <;> exact fun h => h
theorem rawNext_mid : ¬ (rawNext c : PC T E F A).mid := by
  unfold rawNext; split <;> exact fun h => h
theorem back_mid {o : Outcome T E} : ¬ (o.back c : PC T E F A).mid := by
  rcases o with ⟨v, _ | e⟩ | _ <;> exact fun h => h

theorem Exec.errSome (h : Exec c rf tr ss s) :
    (s.lastErr ≠ 0 → s.err ≠ none) ∧ ∀ i, (s.pc i).mid → s.err ≠ none := by
  induction h with
  | nil => exact ⟨fun h => absurd rfl h, fun i h => h.elim⟩
  | snoc h1 h2 ih =>
    rename_i tr ss s i inp s' e
    obtain ⟨ih1, ih2⟩ := ih
    have keep : s.err ≠ none → s'.err ≠ none := by
      intro h
      rcases step_err h2 with h3 | ⟨er, r, _, h3⟩
      · rw [h3]; exact h
      · rw [h3]; nofun
    refine ⟨?_, ?_⟩
    · intro h
      rcases step_lastErr h2 with h3 | ⟨r, h3, h4, _⟩ | ⟨t, r, h3, h4, _⟩
      · exact keep (ih1 (by rw [← h3]; exact h))
      · exact absurd h4 h
      · exact keep (ih2 i (by rw [h3]; trivial))
    · intro j hj
      by_cases hji : j = i
      · subst hji
        rcases step_err h2 with h3 | ⟨er, r, _, h3⟩
        · rw [h3]
          cases hpc : s.pc j <;> cases inp <;> simp only [step, hpc, reduceCtorEq, Option.some.injEq, Prod.mk.injEq] at h2
          case wErr.go => obtain ⟨rfl, rfl⟩ := h2; rw [← h3]; nofun
          case wErrNow.time => exact ih2 j (by rw [hpc]; trivial)
          all_goals exfalso
          all_goals first
            | (obtain ⟨rfl, rfl⟩ := h2)
            | (split at h2 <;> first | (cases h2; done) | (simp only [Option.some.injEq, Prod.mk.injEq] at h2; obtain ⟨rfl, rfl⟩ := h2))
          all_goals simp only [State.go, Function.update_self] at hj
          all_goals first
            | exact hj
            | exact entry_mid _ hj
            | exact back_mid hj
            | (split at hj <;> first | exact hj | exact gNext_mid hj | exact lNext_mid hj | exact rawNext_mid hj)
        · rw [h3]; nofun
      · rw [step_other h2 hji] at hj
        exact keep (ih2 j hj)

theorem Exec.err_mono (h : Exec c rf tr ss s) : ∀ (q : Nat) (s1 : State T E F A), ss[q]? = some s1 → s1.err ≠ none → s.err ≠ none := by
  induction h with
  | nil => intro q s1 h; simp at h
  | snoc h1 h2 ih =>
    rename_i tr ss s i inp s' e
    intro q s1 hq hs
    rcases get_snoc.1 hq with h | ⟨_, rfl⟩
    · have := ih q s1 h hs
      rcases step_err h2 with h3 | ⟨er, r, _, h3⟩
      · rw [h3]; exact this
      · rw [h3]; nofun
    · exact hs

/-- A check of the age of the error that succeeds finds an error. -/
theorem ErrHit.some {d : Option E} (h : Exec c rf tr ss s) (hd : ErrHit c tr ss i p d)
    (hclk : ∀ (x : Nat) (now : Int), p < x → tr[x]? = some (.clock i now) → c.errAge ≤ now) : d ≠ none := by
  obtain ⟨h0, l, q1, h1, ⟨s1, h2, h3⟩, ⟨x, now, h8, h9, h10⟩, q2, s2, h5, h6, h7⟩ := hd
  have := hclk x now h8 h9
  have h11 := (h.state h2).errSome.1 (by omega)
  rw [← h7]
  exact (h.state h6).err_mono q1 s1 (get_take.2 ⟨by omega, h2⟩) h11

end Verif.Refresh
