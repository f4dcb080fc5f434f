import Verif.Refresh.Ret
/-!
# Who waits for the lock (C98), and the sharing of a failed refresh (C99)
-/
namespace Verif.Refresh
variable {T E F A : Type}
variable {c : Cfg T} {rf : F} {tr tr' : List (Ev T E F A)} {ss ss' : List (State T E F A)} {i j n m p q z : Nat}
  {s s' : State T E F A} {e : Ev T E F A} {inp : In T E F A} {op : Op F A} {f : F} {a : A} {r : Res T E} {v : T} {er : E} {t : Int}
  {P : Ev T E F A → Prop}

/-! ## C98 -/

theorem CallAt.cur {p' : Nat} {op' : Op F A} (h : CallAt tr i p op tr.length) (h' : Cur tr i p' op') : p' = p ∧ op' = op :=
  h.same h'.1 (get_lt h'.1) h'.2

/-- **C98**: `Clear`, `Raw`, `Last`, `LastErr` and the setters never wait for the lock, whoever has it. -/
theorem C98_others (h : Exec c rf tr ss s) (hc : CallAt tr i p op tr.length) (hi : s.pc i ≠ .idle) (hg : ¬ op.isGet) (hr : ¬ op.isRefresh) :
    CanStep c s i := by
  obtain ⟨p', op', h1, h2⟩ := h.kind i hi
  obtain ⟨rfl, rfl⟩ := hc.cur h1
  refine canStep hi ?_ ?_
  · intro f a hpc; rw [hpc] at h2; exact hg h2
  · intro f a hpc; rw [hpc] at h2; exact hr h2

/-- A `Get` that waits for the lock has missed. -/
theorem Exec.waits (h : Exec c rf tr ss s) (hc : CallAt tr i p op tr.length) (hi : s.pc i ≠ .idle) (hg : op.isGet) :
    CanStep c s i ∨ (Never tr i p Ev.isStart ∧ Missed c tr ss i p) := by
  obtain ⟨p', op', h1, h2⟩ := h.kind i hi
  obtain ⟨rfl, rfl⟩ := hc.cur h1
  by_cases h3 : ∃ f a, s.pc i = .gLock f a
  · obtain ⟨f, a, h3⟩ := h3
    have h4 := h.pcs i
    rw [h3] at h4
    obtain ⟨p'', op'', h5, _, h6⟩ := h4
    obtain ⟨rfl, rfl⟩ := hc.cur ⟨h5.at_, h5.noCall⟩
    exact .inr ⟨h5.noStart, h6⟩
  · refine .inl (canStep hi (fun f a h => h3 ⟨f, a, h⟩) ?_)
    intro f a hpc; rw [hpc] at h2
    cases op' <;> first | exact hg | exact h2

/-- **C98**: a `Get` that finds a fresh value does not wait, also while a refresh runs: with the hypotheses of `C15` so far, it can make a step. -/
theorem C98_fresh (h : Exec c rf tr ss s) {w : Nat} {r' : Res T E} (hn : tr[n]? = some (.finish j (.ret v none))) (hst : Stamp tr j n m t)
    (hw : tr[w]? = some (.ret j r')) (hnw : n < w) (hwp : w < p) (hc : CallAt tr i p op tr.length) (hg : op.isGet) (hi : s.pc i ≠ .idle)
    (he : NoOtherEnd tr n i p tr.length) (hcl : NoClear tr m tr.length) (hf : FreshFor c tr i p tr.length t) : CanStep c s i := by
  rcases h.waits hc hi hg with h1 | ⟨h1, h2⟩
  · exact h1
  · have hfin := no_finish h hn hc.at_ h1 (fun x j' o' hx hx' => he x j' o' hx (get_lt hx') hx')
    have ho : Over tr n j p := .inl ⟨w, r', hnw, by omega, hw⟩
    exact (h2.1.not_fresh (fun q' s' a b => (states_ok (m := m) (t := t) h hn rfl ho hfin a b).2.2 hst hcl) hf).elim

/-- **C98**: so does a `Get` that finds a fresh error. -/
theorem C98_err (h : Exec c rf tr ss s) (hb : ErrBefore tr n j er m t i p tr.length) (hc : CallAt tr i p op tr.length) (hg : op.isGet)
    (hi : s.pc i ≠ .idle) (hage : 0 < c.errAge)
    (hf : ∀ x now, p < x → tr[x]? = some (.clock i now) → now - t < c.errAge) : CanStep c s i := by
  rcases h.waits hc hi hg with h1 | ⟨h1, h2⟩
  · exact h1
  · obtain ⟨u, hn⟩ := hb.at_
    obtain ⟨w, r', hnw, hwp, hw⟩ := hb.over
    have hfin := no_finish h hn hc.at_ h1 (fun x j' o' hx hx' => hb.other x j' o' hx (get_lt hx') hx')
    have ho : Over tr n j p := .inl ⟨w, r', hnw, by omega, hw⟩
    obtain ⟨l, ⟨q1, s1, a1, a2, a3⟩, ⟨q2, now, b1, b2, b3⟩⟩ := h2.2 hage
    have := (states_err (m := m) (t := t) h hn ho hfin a2 a1).2.2 hb.stamp
    have := hf q2 now b1 b2
    omega

/-- The value of 100 is served at 104 while a refresh holds the lock; at 106 a `Get` waits for it. -/
example : (trace ⟨0, 5, 0⟩ (refreshBy 0 (.ret 7 none) 100 ++ [(2, .call (.refresh 0 0)), (2, .go), (2, .go)] ++ getBy 1 104)).map (·.drop 10) =
    some [.call 2 (.refresh 0 0), .locked 2, .start 2 0 0 7, .call 1 (.get 0 0), .tau 1, .clock 1 104, .tau 1, .ret 1 (.val 7 none)] := by rfl
example : (trace ⟨0, 5, 0⟩ (refreshBy 0 (.ret 7 none) 100 ++ [(2, .call (.refresh 0 0)), (2, .go), (2, .go)] ++
      [(1, .call (.get 0 0)), (1, .go), (1, .time 106)])).map (·.drop 10) =
    some [.call 2 (.refresh 0 0), .locked 2, .start 2 0 0 7, .call 1 (.get 0 0), .tau 1, .clock 1 106] ∧
    trace ⟨0, 5, 0⟩ (refreshBy 0 (.ret 7 none) 100 ++ [(2, .call (.refresh 0 0)), (2, .go), (2, .go)] ++
      [(1, .call (.get 0 0)), (1, .go), (1, .time 106), (1, .go)]) = none := ⟨rfl, rfl⟩
/-- During a refresh `Clear` and `Last` go through. -/
example : (trace ⟨0, 5, 0⟩ (refreshBy 0 (.ret 7 none) 100 ++ [(2, .call (.refresh 0 0)), (2, .go), (2, .go)] ++
      [(1, .call (.clear none 0)), (1, .go), (1, .go), (1, .call .last), (1, .go), (1, .go)])).map (·.drop 13) =
    some [.call 1 (.clear none 0), .cleared 1, .ret 1 (.err none), .call 1 .last, .tau 1, .ret 1 (.time 0)] := by rfl

/-! ## C99 -/

/-- **C99**: a refresh ends at `n` with the error `er`, stamped `t`. Until `q` all refreshes are those of `Get`s, and every reading of the clock by a
thread that acquired the lock after `n` is within `errAge` of `t`, and at least `maxAge`. Then no refresh is started between `n` and `q`, and every `Get`
that acquires the lock and returns until `q` returns the zero value and `er`. -/
theorem C99 (h : Exec c rf tr ss s) (hn : tr[n]? = some (.finish j (.ret v (some er)))) (hst : Stamp tr j n m t) (hage : 0 < c.errAge)
    (hget : ∀ (x i : Nat) (f : F) (a : A) (old : T), n < x → x < q → tr[x]? = some (.start i f a old) → ∃ p op, CallAt tr i p op x ∧ op.isGet)
    (hf : ∀ (x i k : Nat) (now : Int), x < q → tr[x]? = some (.clock i now) → n < k → k < x → tr[k]? = some (.locked i) →
      now - t < c.errAge ∧ c.maxAge ≤ now) :
    (∀ i, NoStart tr i n q) ∧
    ∀ (i p k q' : Nat) (op : Op F A) (r : Res T E), CallAt tr i p op q' → op.isGet → p < k → n < k → k < q' → q' ≤ q →
      tr[k]? = some (.locked i) → tr[q']? = some (.ret i r) → r = .val c.zero (some er) := by
  -- initial parts without a start after `n`
  have nofin : ∀ y, (∀ x i f a old, n < x → x < y → tr[x]? ≠ some (.start i f a old)) →
      ∀ (x j' : Nat) (o' : Outcome T E), n < x → (tr.take y)[x]? ≠ some (.finish j' o') := by
    intro y hy x j' o' hx h1
    have h1' := get_take.1 h1
    obtain ⟨z, f, a, old, h2, h3, h4, h5, h6⟩ := h.closed h1'.2
    rcases Nat.lt_trichotomy z n with h7 | h7 | h7
    · exact h5 n j _ h7 hx hn
    · subst h7; rw [hn] at h3; cases h3
    · exact hy z _ _ _ _ h7 (by omega) h3
  have key : ∀ {y s0 k i}, n < k → k < y → tr[k]? = some (.locked i) → Exec c rf (tr.take y) (ss.take y) s0 →
      (∀ x i f a old, n < x → x < y → tr[x]? ≠ some (.start i f a old)) →
      ∀ (q' : Nat) (s' : State T E F A), (ss.take y)[q']? = some s' → k < q' → s'.err = some er ∧ s'.last = 0 ∧ (m < y → s'.lastErr = t) := by
    intro y s0 k i hk hy hl h0 hns q' s' hs' hpq'
    have ho : Over tr n j k := .inr ⟨k, i, hk, by omega, hl⟩
    have hn' : (tr.take y)[n]? = some (.finish j (.ret v (some er))) := get_take.2 ⟨by omega, hn⟩
    obtain ⟨a1, a2, a3⟩ := states_err (m := m) (t := t) h0 hn' (ho.take (by omega)) (nofin y hns) hs' hpq'
    exact ⟨a1, a2, fun hm => a3 (stamp_take hst hm)⟩
  -- the stamp is taken before the lock is acquired again
  have hmk : ∀ {k i}, n < k → tr[k]? = some (.locked i) → (∀ x i f a old, n < x → x < k → tr[x]? ≠ some (.start i f a old)) → m < k := by
    intro k i hk hl hns
    have hlen : k < ss.length := by rw [← h.len]; exact get_lt hl
    obtain ⟨s1, hs1⟩ : ∃ s1, ss[k]? = some s1 := ⟨_, List.getElem?_eq_getElem hlen⟩
    have h0 := h.state hs1
    have hnf : ∀ (x j' : Nat) (o' : Outcome T E), n < x → (tr.take (k + 1))[x]? ≠ some (.finish j' o') := by
      apply nofin
      intro x i' f a old hx hxk hx2
      rcases Nat.lt_or_ge x k with h' | h'
      · exact hns x i' f a old hx h' hx2
      · have : x = k := by omega
        subst this; rw [hl] at hx2; cases hx2
    obtain ⟨_, _, m', h1⟩ := settled_err h0 (v := v) (n := n) (j := j) (p := k)
      ⟨get_take.2 ⟨by omega, hn⟩, fun x j' o' a b => hnf x j' o' a b⟩ (.inr ⟨k, i, hk, by omega, get_take.2 ⟨by omega, hl⟩⟩)
    obtain ⟨rfl, _⟩ := h1.of_take.unique hst
    have := (get_take.1 h1.at_)
    have h3 : m' ≠ k := by rintro rfl; rw [hl] at this; cases this.2
    omega
  have hns : ∀ y ≤ q, ∀ x i f a old, n < x → x < y → tr[x]? ≠ some (.start i f a old) := by
    intro y
    induction y with
    | zero => intro _ x i f a old _ h; omega
    | succ y ih =>
      intro hy x i f a old hx hxy hz
      rcases Nat.lt_or_ge x y with h' | h'
      · exact ih (by omega) x i f a old hx h' hz
      · have : x = y := by omega
        subst this
        have ih := ih (by omega)
        obtain ⟨p, op, hc, hg⟩ := hget x i f a old hx (by omega) hz
        obtain ⟨s0, k, h1, h2, h3, h4, h5⟩ := h.start_miss hz hc hg
        have hkl := get_take.1 h3.lock
        have hpk := h3.lt
        have hnk : n < k := by
          rcases Nat.lt_trichotomy n k with h' | h' | h'
          · exact h'
          · subst h'; rw [hn] at hkl; cases hkl.2
          · exfalso
            obtain ⟨k', h6, h7⟩ := h1.lock.excl i ((h1.lock.crit i).2 h2)
            have : k' = k := h3.oneLock k' _ (by
              rcases Nat.lt_or_ge p k' with h | h
              · exact h
              · exact absurd trivial (h7 k _ (by omega) h3.lock).1) h6 rfl trivial
            subst this
            have hji := (h7 n _ h' (get_take.2 ⟨hx, hn⟩)).2 (.inr trivial)
            replace hji : j = i := hji
            subst hji
            obtain ⟨z, f', a', old', g1, g2, g3, g4, g5⟩ := h.closed hn
            rcases Nat.lt_trichotomy z p with h8 | h8 | h8
            · exact g5 p _ h8 (by omega) hc.at_ rfl trivial
            · subst h8; rw [hc.at_] at g2; cases g2
            · exact h3.noStart z _ h8 (get_take.2 ⟨by omega, g2⟩) rfl trivial
        have hm := hmk hnk hkl.2 (fun x' i' f' a' o' b1 b2 => ih x' i' f' a' o' b1 (by omega))
        obtain ⟨l, ⟨q1, s1, a1, a2, a3⟩, ⟨q2, now, b1, b2, b3⟩⟩ := h5.2 hage
        have := (key hnk hkl.1 hkl.2 h1 ih q1 s1 a2 a1).2.2 (by omega)
        have b2' := get_take.1 b2
        have := (hf q2 i k now (by omega) b2'.2 hnk b1 hkl.2).1
        omega
  refine ⟨fun i x f a old h1 h2 => hns q (Nat.le_refl _) x i f a old h1 h2, ?_⟩
  intro i p k q' op r hc hg hpk hnk hkq hq' hl hr
  obtain ⟨s0, h1, h2⟩ := h.get_out hr hc hg
  have hns' := hns q' hq'
  have hk := key hnk hkq hl h1 hns'
  have hl' : (tr.take q')[k]? = some (.locked i) := get_take.2 ⟨hkq, hl⟩
  cases h2 with
  | fastData d a1 a2 a3 => exact absurd trivial (a1 k _ hpk hl' rfl)
  | fastErr e a1 a2 a3 a4 => exact absurd trivial (a1 k _ hpk hl' rfl)
  | lockData k2 d a1 a2 a3 a4 a5 a6 =>
    obtain rfl := a3 k _ hpk hl' rfl trivial
    obtain ⟨l, q1, b1, ⟨s1, b2, b3⟩, b4, _⟩ := a6
    have := (hk q1 s1 b2 b1).2.1
    rcases b4 with b4 | ⟨q2, now, d1, d2, d3⟩
    · omega
    · have d2' := get_take.1 d2
      have := (hf q2 i k now (by omega) d2'.2 hnk d1 hl).2
      omega
  | lockErr k2 e a1 a2 a3 a4 a5 a6 a7 =>
    obtain rfl := a3 k _ hpk hl' rfl trivial
    obtain ⟨_, l, q1, b1, ⟨s1, b2, b3⟩, _, ⟨q2, s2, d1, d2, d3⟩⟩ := a7
    rw [← d3, (hk q2 s2 d2 (by omega)).1]
  | refreshed k2 z n' f a old o a1 a2 a3 a4 a5 a6 a7 a8 a9 a10 =>
    obtain rfl := a3 k _ hpk hl' rfl trivial
    have := get_take.1 a5
    exact absurd this.2 (hns' z i f a old (by omega) this.1)

/-- Two `Get`s find the cache empty, the refresh of the first fails, the second waits for the lock and shares the error. -/
example : (trace ⟨0, 5, 10⟩ ([(0, .call (.get 0 0)), (1, .call (.get 0 0)), (0, .go), (0, .time 100), (0, .time 100), (0, .go), (1, .go), (1, .time 100),
      (1, .time 100), (1, .go), (0, .go), (0, .time 100), (0, .go), (0, .time 100), (0, .go), (0, .go), (0, .fin (.ret 7 (some 3))), (0, .go),
      (0, .time 101)] ++ goes 0 4 ++
      [(1, .go), (1, .time 102), (1, .go), (1, .time 102)] ++ goes 1 4)).map (·.drop 15) =
    some [.start 0 0 0 0, .finish 0 (.ret 7 (some 3)), .tau 0, .clock 0 101, .tau 0, .tau 0, .tau 0, .ret 0 (.val 7 (some 3)), .locked 1, .clock 1 102,
      .tau 1, .clock 1 102, .tau 1, .tau 1, .tau 1, .ret 1 (.val 0 (some 3))] := by rfl

end Verif.Refresh
