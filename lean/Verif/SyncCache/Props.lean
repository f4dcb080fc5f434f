import Verif.SyncCache.Count
/-!
# Properties of `synccache` (C08-C13, C82-C91)
-/
namespace Verif.SyncCache
open Verif.Refresh (get_snoc get_lt get_keep get_new)
variable {K V : Type} [DecidableEq K]
variable {c : Cfg V} {tr : List (Ev K V)} {hist : List (Map K)} {s s' : State K V} {e : Ev K V} {i j p n m q z : Nat} {op : Op K V} {k k' : K} {a b : Nat}
  {r : Res V} {v w : V} {d : Int} {loaded b' : Bool}

/-! ## Schedules for the examples -/

/-- `n` steps of `i`. -/
def goes (i n : Nat) : List (Nat × In Nat Nat) := List.replicate n (i, .go)
/-- `Store(k, v, d)` at clock `now` (milliseconds). -/
def stores (i k v : Nat) (now d : Int) : List (Nat × In Nat Nat) :=
  [(i, .call (.store k v (d * 1000000))), (i, .time (now * 1000000)), (i, .go), (i, .go)]
/-- `Load(k)` of a present key at clock `now`. -/
def loads (i k : Nat) (now : Int) : List (Nat × In Nat Nat) := [(i, .call (.load k)), (i, .go), (i, .time (now * 1000000)), (i, .go), (i, .go)]
/-- With and without a callback. -/
def cfg (cb : Bool) : Cfg Nat := ⟨cb, fun a b => some (a == b)⟩

/-! ## C08 -/

/-- **C08**, `Load`: an entry returned by `Load` was found in the map and checked not to be expired during the call. -/
theorem sync_load_live (h : Exec c tr hist s) (hc : CallAt tr i p (.load k) q) (hq : tr[q]? = some (.ret i (.entry a b'))) :
    b' = true ∧ Live (tr.take q) i p k a := by
  have := h.out hq hc
  cases b' with
  | false => exact this.elim
  | true => exact ⟨rfl, this⟩

/-- **C08**, `Range`: so was an entry passed to the function of `Range`. -/
theorem sync_range_live (h : Exec c tr hist s) (hc : CallAt tr i p op n) (hn : tr[n]? = some (.yield i k a)) :
    op = .range ∧ Live (tr.take n) i p k a :=
  ⟨(h.yield_op hn hc).1, (h.yield_op hn hc).2.1⟩

/-- Stored at 100 ms for 10 ms; loaded at 110 ms. -/
example : trace (cfg false) (stores 0 1 7 100 10 ++ loads 1 1 110) =
    some [.call 0 (.store 1 7 10000000), .mk 0 0 7 100000000 10000000, .put 0 1 0, .ret 0 .unit, .call 1 (.load 1), .tau 1, .clock 1 110000000,
      .seen 1 0, .ret 1 (.entry 0 true)] := by rfl
/-- At 111 ms it is expired. -/
example : (trace (cfg false) (stores 0 1 7 100 10 ++ loads 1 1 111 ++ goes 1 1)).map (·.drop 4) =
    some [.call 1 (.load 1), .tau 1, .clock 1 111000000, .seen 1 0, .del 1 1 0, .ret 1 .nil] := by rfl
/-- `Range` passes the one that is not expired. -/
example : (trace (cfg false) (stores 0 1 7 100 10 ++ stores 0 2 8 100 20 ++
      [(1, .call .range), (1, .snap [2, 1]), (1, .visit 9), (1, .time 111000000), (1, .go), (1, .go), (1, .fFin (some true)),
       (1, .visit 9), (1, .time 111000000), (1, .go), (1, .go), (1, .go), (1, .go)])).map (·.drop 8) =
    some [.call 1 .range, .tau 1, .tau 1, .clock 1 111000000, .seen 1 1, .yield 1 2 1, .yieldEnd 1 (some true),
      .tau 1, .clock 1 111000000, .seen 1 0, .del 1 1 0, .tau 1, .ret 1 .unit] := by rfl

/-! ## C09 -/

/-- The callback at `m` belongs to the removal at `n`: it is made by the same thread, with the value of the entry removed, and between the two
the thread neither removes another entry nor makes another callback. -/
def CbOf (tr : List (Ev K V)) (n m : Nat) : Prop :=
  ∃ i k a v, n < m ∧ tr[n]? = some (.del i k a) ∧ tr[m]? = some (.cb i v) ∧ Made tr a v ∧ NoDel tr i n m

theorem Exec.idle_at (h : Exec c tr hist s) (hq : tr[q]? = some (.ret i r)) : ∃ hist' s', Exec c (tr.take q) hist' s' ∧ s'.pc i = .done r := by
  obtain ⟨s0, inp, s1, h1, h2, -⟩ := h.at hq
  have h3 : Step c _ s0 i s1 (.ret i r) := step_Step h2
  cases h3
  exact ⟨_, _, h1, by assumption⟩

theorem Made.take (h : Made (tr.take q) a v) : Made tr a v := by
  obtain ⟨n, i, now, d, h⟩ := h
  exact ⟨n, i, now, d, (get_take.1 h).2⟩

/-- **C09**: with a callback, for each removal there is, before the call returns (or panics), exactly one callback. -/
theorem sync_cb_once (h : Exec c tr hist s) (hb : c.hasCb = true) (hn : tr[n]? = some (.del i k a)) (hq : tr[q]? = some (.ret i r)) (hlt : n < q) :
    ∃ m, m < q ∧ CbOf tr n m ∧ ∀ m', CbOf tr n m' → m' = m := by
  obtain ⟨hist', s0, h1, hpc⟩ := h.idle_at hq
  have h2 := h1.acc hb i
  rw [hpc] at h2
  rcases h2.dels n k a (get_take.2 ⟨hlt, hn⟩) with ⟨m, v, b1, b2, b3, b4⟩ | ⟨b, _⟩
  · have b2' := get_take.1 b2
    have hno : NoDel tr i n m := fun x e h1 h2 h3 => b4 x e h1 h2 (get_take.2 ⟨by omega, h3⟩)
    refine ⟨m, b2'.1, ⟨i, k, a, v, b1, hn, b2'.2, b3.take, hno⟩, ?_⟩
    rintro m' ⟨i', k', a', v', c1, c2, c3, c4, c5⟩
    rw [hn] at c2
    injection c2 with c2
    injection c2 with c2
    subst c2
    rcases Nat.lt_trichotomy m m' with h4 | h4 | h4
    · exact absurd trivial (c5 m _ b1 h4 b2'.2 rfl)
    · exact h4.symm
    · exact absurd trivial (hno m' _ c1 h4 c3 rfl)
  · cases b

/-- **C09**: each callback belongs to exactly one removal. -/
theorem sync_cb_only (h : Exec c tr hist s) (hm : tr[m]? = some (.cb i v)) : c.hasCb = true ∧ ∃ n, CbOf tr n m ∧ ∀ n', CbOf tr n' m → n' = n := by
  cases hb : c.hasCb with
  | false => exact absurd hm ((h.noCb hb).2 m i v)
  | true =>
    obtain ⟨n, k, a, h1, h2, h3, h4⟩ := (h.acc hb i).cbs m v hm
    refine ⟨rfl, n, ⟨i, k, a, v, h1, h2, hm, h3, h4⟩, ?_⟩
    rintro n' ⟨i', k', a', v', c1, c2, c3, c4, c5⟩
    rw [hm] at c3
    injection c3 with c3
    injection c3 with c3
    subst c3
    rcases Nat.lt_trichotomy n n' with h5 | h5 | h5
    · exact absurd trivial (h4 n' _ h5 c1 c2 rfl)
    · exact h5.symm
    · exact absurd trivial (c5 n _ h5 h1 h2 rfl)

/-- **C09**: an entry is removed at most once. -/
theorem sync_removed_once (h : Exec c tr hist s) (hn : tr[n]? = some (.del i k a)) (hm : tr[m]? = some (.del j k' a)) : n = m := h.del_once hn hm

/-- **C09**: an entry still there, or overwritten by another one, is not removed. -/
theorem sync_not_removed (h : Exec c tr hist s)
    (ha : content tr k = some a ∨ ∃ m i b, content (tr.take m) k = some a ∧ tr[m]? = some (.put i k b)) :
    ∀ (n j : Nat) (k' : K), tr[n]? ≠ some (.del j k' a) := by
  intro n j k' hn
  have hd := h.del_at hn
  have hd' : content (tr.take (n + 1)) k' ≠ some a := by
    rw [take_next hn, content_snoc]; simp [Ev.onKey]
  rcases ha with ha | ⟨m, i, b, ha, hm⟩
  · have : content (tr.take tr.length) k = some a := by rwa [List.take_length]
    exact h.gone hd hd' (by omega) (get_lt hn) this
  · have hb : b ≠ a := by
      rintro rfl
      obtain ⟨x, i', h1, h2⟩ := content_src ha
      have h1' := get_take.1 h1
      have := h.put_once h1'.2 hm
      omega
    have hm' : content (tr.take (m + 1)) k ≠ some a := by
      rw [take_next hm, content_snoc]; simp [Ev.onKey, hb]
    rcases Nat.lt_trichotomy n m with h1 | h1 | h1
    · exact h.gone hd hd' (by omega) (by omega) ha
    · subst h1; rw [hm] at hn; cases hn
    · exact h.gone ha hm' (by omega) (by omega) hd

/-- **C09**: with a callback, an entry leaves only by being removed or overwritten. -/
theorem sync_leaves (h : Exec c tr hist s) (hb : c.hasCb = true) {z1 z2 : Nat} (h1 : content (tr.take z1) k = some a)
    (h2 : content (tr.take z2) k ≠ some a) (hz : z1 ≤ z2) :
    ∃ n i, z1 ≤ n ∧ n < z2 ∧ (tr[n]? = some (.del i k a) ∨ ∃ b, b ≠ a ∧ tr[n]? = some (.put i k b)) := by
  obtain ⟨n, i, b1, b2, _, b4 | b4 | b4⟩ := h.left h1 h2 hz
  · exact ⟨n, i, b1, b2, .inl b4⟩
  · have := h.wipe_cb b4
    rw [this] at hb; cases hb
  · exact ⟨n, i, b1, b2, .inr b4⟩

/-- Two threads delete the same key; one callback, with 7. -/
example : (trace (cfg true) (stores 0 1 7 100 10 ++ [(0, .call (.delete 1)), (1, .call (.loadAndDelete 1)), (1, .go), (0, .go), (0, .go), (1, .time 111000000),
      (1, .go), (1, .go), (1, .cbFin true), (1, .go)])).map (·.drop 4) =
    some [.call 0 (.delete 1), .call 1 (.loadAndDelete 1), .del 1 1 0, .tau 0, .ret 0 .unit, .clock 1 111000000, .seen 1 0, .cb 1 7, .cbEnd 1 true,
      .ret 1 .nil] := by rfl

/-! ## C10 -/

/-- **C10**: an entry is removed only if it is the one in the map at that time, and only by `Delete`, `LoadAndDelete`, `CompareAndDelete` of that
entry, `Clear`, `CompareValueAndDelete` of its value, or after this very entry was found and checked to be expired during the call. -/
theorem sync_removal (h : Exec c tr hist s) (hc : CallAt tr i p op n) (hn : tr[n]? = some (.del i k a)) :
    content (tr.take n) k = some a ∧
    (op = .delete k ∨ op = .loadAndDelete k ∨ op = .compareAndDelete k a ∨ op = .clear ∨
     (∃ v w, op = .compareValueAndDelete k v ∧ Made tr a w ∧ c.eqv v w = some true) ∨ Dead (tr.take n) i p k a) := by
  refine ⟨h.del_at hn, ?_⟩
  rcases h.reason hn hc with h1 | h1 | h1 | h1 | ⟨v, w, h1, _, h3, h4⟩ | h1
  · exact .inl h1
  · exact .inr (.inl h1)
  · exact .inr (.inr (.inl h1))
  · exact .inr (.inr (.inr (.inl h1)))
  · exact .inr (.inr (.inr (.inr (.inl ⟨v, w, h1, h3.take, h4⟩))))
  · exact .inr (.inr (.inr (.inr (.inr h1))))

/-- **C10**, in particular: trimming, `Load`, `LoadOrStore` and `Range` remove only entries found expired; `Store`, `Start`, `Close` and the methods of
entries remove none. -/
theorem sync_expiry_only (h : Exec c tr hist s) (hc : CallAt tr i p op n) (hn : tr[n]? = some (.del i k a))
    (hop : op = .tick ∨ op = .range ∨ (∃ k, op = .load k) ∨ ∃ k v d, op = .loadOrStore k v d) : Dead (tr.take n) i p k a := by
  have := (sync_removal h hc hn).2
  rcases hop with rfl | rfl | ⟨k', rfl⟩ | ⟨k', v, d, rfl⟩ <;> simpa using this

/-- The trimmer finds entry 0 expired; it is replaced before it is removed; the new entry stays. -/
example : (trace (cfg true) (stores 0 1 7 100 10 ++ [(0, .call .start), (0, .go), (0, .go)] ++
      [(1, .call .tick), (1, .go), (1, .time 200000000), (1, .snap [1]), (1, .visit 10), (1, .go)] ++
      stores 0 1 8 200 10 ++ [(1, .go), (1, .go), (1, .go)])).map (fun tr => (tr.drop 12, content tr 1)) =
    some ([.seen 1 0, .call 0 (.store 1 8 10000000), .mk 0 1 8 200000000 10000000, .put 0 1 1, .ret 0 .unit, .tau 1, .tau 1, .ret 1 .unit],
      some 1) := by rfl

/-! ## C11 -/

/-- The statement of **C11**: an entry returned as loaded was checked not to be expired. -/
def LosLive (c : Cfg V) : Prop := ∀ (tr : List (Ev K V)) (hist : List (Map K)) (s : State K V) (i p q : Nat) (k : K) (v : V) (d : Int) (a : Nat),
  Exec c tr hist s → CallAt tr i p (.loadOrStore k v d) q → tr[q]? = some (.ret i (.entry a true)) → Live (tr.take q) i p k a

def losBad : List (Ev Nat Nat) :=
  [.call 0 (.store 1 7 0), .mk 0 0 7 100000000 0, .put 0 1 0, .ret 0 .unit,
   .call 1 (.loadOrStore 1 8 50000000), .mk 1 1 8 101000000 50000000, .tau 1, .clock 1 101000000, .seen 1 0,
   .call 0 (.delete 1), .del 0 1 0, .ret 0 .unit, .tau 1, .ret 1 (.entry 0 true)]

theorem losBad_trace : trace (cfg false) (stores 0 1 7 100 0 ++
    [(1, .call (.loadOrStore 1 8 50000000)), (1, .time 101000000), (1, .go), (1, .time 101000000), (1, .go),
     (0, .call (.delete 1)), (0, .go), (0, .go), (1, .go), (1, .go)]) = some losBad := by rfl

/-- **C11** is false: the entry found is expired, another thread removes it before this one can, and it is returned nevertheless. -/
theorem sync_los_live_false : ¬ LosLive (K := Nat) (cfg false) := by
  intro h
  obtain ⟨hist, s, hx⟩ := trace_exec losBad_trace
  obtain ⟨z, x, y, now, h1, h2, h3, h4, h5, h6, h7, h8⟩ := h losBad hist s 1 4 13 1 8 50000000 0 hx
    ⟨by decide, rfl, fun k op' h1 h2 h3 => by
      have hk : k ∈ List.range 14 := List.mem_range.2 (by omega)
      have h4 : ∀ k ∈ List.range 14, 4 < k → k < 13 → ∀ op', losBad[k]? ≠ some (.call 1 op') := by
        simp [List.range_succ, losBad]
      exact h4 k hk h1 h2 op' h3⟩ rfl
  have hx' := get_take.1 h6
  have hy' := get_take.1 h7
  have key : ∀ x < 13, ∀ now, losBad[x]? = some (.clock 1 now) → now = 101000000 := by
    intro x hx now hc
    have hk : x ∈ List.range 13 := List.mem_range.2 hx
    have h4 : ∀ k ∈ List.range 13, losBad[k]? = some (.clock 1 now) → now = 101000000 := by
      simp [List.range_succ, losBad, eq_comm]
    exact h4 x hk hc
  have key2 : ∀ y < 13, losBad[y]? = some (.seen 1 0) → y = 8 := by
    intro y hy hc
    have hk : y ∈ List.range 13 := List.mem_range.2 hy
    have h4 : ∀ k ∈ List.range 13, losBad[k]? = some (.seen 1 0) → k = 8 := by
      simp [List.range_succ, losBad]
    exact h4 y hk hc
  have := key x hx'.1 now hx'.2
  subst this
  have := key2 y hy'.1 hy'.2
  subst this
  revert h8
  have : expOf ((losBad.take 13).take 8) 0 = 100 := by rfl
  rw [this]
  have : ms 101000000 = 101 := by rfl
  rw [this]
  decide

/-- **C11**, what holds: the entry stored by this call while there was none; or one found and checked not to be expired; or one that was found expired, and was
removed or replaced by another thread during the call. -/
theorem sync_los (h : Exec c tr hist s) (hc : CallAt tr i p (.loadOrStore k v d) q) (hq : tr[q]? = some (.ret i (.entry a loaded))) :
    (loaded = false → ∃ m n now, p < m ∧ m < n ∧ n < q ∧ tr[m]? = some (.mk i a v now d) ∧ tr[n]? = some (.put i k a) ∧ content (tr.take n) k = none) ∧
    (loaded = true → Live (tr.take q) i p k a ∨
      (Dead (tr.take q) i p k a ∧ ∃ n e, p < n ∧ n < q ∧ tr[n]? = some e ∧ e.touches k ∧ e.tid ≠ i)) := by
  have ho := h.out hq hc
  cases loaded with
  | false =>
    refine ⟨fun _ => ?_, nofun⟩
    obtain ⟨m, n, now, b1, b2, b3, b4, b5⟩ := ho
    have b3' := get_take.1 b3
    have b4' := get_take.1 b4
    exact ⟨m, n, now, b1, b2, b4'.1, b3'.2, b4'.2, by rwa [List.take_take, Nat.min_eq_left (Nat.le_of_lt b4'.1)] at b5⟩
  | true =>
    refine ⟨nofun, fun _ => ?_⟩
    rcases ho with ho | ⟨z, x, y, w, now, b1, b2, b3, b4, b5, b6, b7, b8, b9, b10, b11, b12⟩
    · exact .inl ho
    · refine .inr ⟨⟨z, x, y, now, b1, b2, b3, b4, b7, b8, b9, b10⟩, ?_⟩
      have hw : w ≤ q := Nat.le_trans b6 (by simp)
      rw [List.take_take, Nat.min_eq_left (by omega)] at b7 b11
      have hex : ∃ n e, z ≤ n ∧ n < w ∧ tr[n]? = some e ∧ e.touches k := by
        by_contra hno
        refine b11 ?_
        rw [content_same (z := z) (by omega) fun n e h1 h2 h3 h4 => hno ⟨n, e, h1, h2, h3, h4⟩]
        exact b7
      obtain ⟨n, e, c1, c2, c3, c4⟩ := hex
      refine ⟨n, e, by omega, by omega, c3, c4, fun hi => b12 n e c1 c2 (get_take.2 ⟨by omega, c3⟩) hi ?_⟩
      cases e <;> simp_all [Ev.touches, Ev.isMap]

/-- **C11**, partial: if no other thread stores or removes the key during the call, the entry returned as loaded was checked not to be expired.
Missing: the case that another thread does. -/
theorem sync_los_live_partial (h : Exec c tr hist s) (hc : CallAt tr i p (.loadOrStore k v d) q) (hq : tr[q]? = some (.ret i (.entry a true)))
    (hno : ∀ (n : Nat) (e : Ev K V), p < n → n < q → tr[n]? = some e → e.tid ≠ i → ¬ e.touches k) : Live (tr.take q) i p k a := by
  rcases (sync_los h hc hq).2 rfl with h1 | ⟨_, n, e, h2, h3, h4, h5, h6⟩
  · exact h1
  · exact absurd h5 (hno n e h2 h3 h4 h6)

/-- Alone: the expired entry is replaced. -/
example : (trace (cfg true) (stores 0 1 7 100 0 ++
      [(1, .call (.loadOrStore 1 8 50000000)), (1, .time 101000000), (1, .go), (1, .time 101000000), (1, .go), (1, .go), (1, .go), (1, .cbFin true),
       (1, .time 102000000), (1, .go), (1, .go)])).map (·.drop 4) =
    some [.call 1 (.loadOrStore 1 8 50000000), .mk 1 1 8 101000000 50000000, .tau 1, .clock 1 101000000, .seen 1 0, .del 1 1 0, .cb 1 7, .cbEnd 1 true,
      .mk 1 2 8 102000000 50000000, .put 1 1 2, .ret 1 (.entry 2 false)] := by rfl

/-! ## C12 -/

/-- **C12**: `CompareValueAndDelete` returns true only if it removed an entry for the key, found and checked not to be expired before, whose value
compares equal. -/
theorem sync_cvd_yes (h : Exec c tr hist s) (hc : CallAt tr i p (.compareValueAndDelete k v) q) (hq : tr[q]? = some (.ret i (.bool true))) :
    ∃ n a w, p < n ∧ n < q ∧ tr[n]? = some (.del i k a) ∧ Live (tr.take n) i p k a ∧ Made tr a w ∧ c.eqv v w = some true := by
  obtain ⟨n, a, w, b1, b2, b3, b4, b5⟩ := h.out hq hc
  have b2' := get_take.1 b2
  rw [List.take_take, Nat.min_eq_left (Nat.le_of_lt b2'.1)] at b3
  exact ⟨n, a, w, b1, b2'.1, b2'.2, b3, b4.take, b5⟩

/-- **C12**: when it returns false it has removed at most expired entries. -/
theorem sync_cvd_no (h : Exec c tr hist s) (hc : CallAt tr i p (.compareValueAndDelete k v) q) (hq : tr[q]? = some (.ret i (.bool false)))
    (hn : tr[n]? = some (.del i k' a)) (h1 : p < n) (h2 : n < q) : Dead (tr.take q) i p k' a :=
  (h.out hq hc).1 n k' a h1 (get_take.2 ⟨h2, hn⟩)

example : (trace (cfg false) (stores 0 1 7 100 10 ++
      [(1, .call (.compareValueAndDelete 1 8)), (1, .go), (1, .time 101000000), (1, .go), (1, .go), (1, .go),
       (1, .call (.compareValueAndDelete 1 7)), (1, .go), (1, .time 101000000), (1, .go), (1, .go), (1, .go), (1, .go)])).map (·.drop 4) =
    some [.call 1 (.compareValueAndDelete 1 8), .tau 1, .clock 1 101000000, .seen 1 0, .tau 1, .ret 1 (.bool false),
      .call 1 (.compareValueAndDelete 1 7), .tau 1, .clock 1 101000000, .seen 1 0, .tau 1, .del 1 1 0, .ret 1 (.bool true)] := by rfl

/-! ## C13 -/

/-- **C13**, with other calls running: no entry in the cache when `Clear` was called is in the cache at any time after it returned. -/
theorem sync_clear (h : Exec c tr hist s) (hc : CallAt tr i p .clear q) (hq : tr[q]? = some (.ret i .unit)) (ha : content (tr.take (p + 1)) k = some a)
    (hz : q ≤ z) : content (tr.take z) k' ≠ some a := by
  obtain ⟨x, h1, h2, h3⟩ := h.out hq hc k a (by rw [List.take_take, Nat.min_eq_left (Nat.succ_le_of_lt hc.lt)]; exact ha)
  have hx : x ≤ q := Nat.le_trans h2 (by simp)
  rw [List.take_take, Nat.min_eq_left hx] at h3
  exact h.gone ha h3 (by omega) (by omega)

theorem CallAt.before (hc : CallAt tr i p op q) (h1 : p < n) (h2 : n ≤ q) : CallAt tr i p op n := ⟨h1, hc.at_, fun k op' a b => hc.only k op' a (by omega)⟩

/-- **C13**: if nobody else changes the map meanwhile, the cache is empty when `Clear` returns. -/
theorem sync_clear_empty (h : Exec c tr hist s) (hc : CallAt tr i p .clear q) (hq : tr[q]? = some (.ret i .unit))
    (hno : ∀ (n : Nat) (e : Ev K V), p < n → n < q → tr[n]? = some e → e.tid ≠ i → ¬ e.isMap) (k : K) : content (tr.take q) k = none := by
  cases hx : content (tr.take q) k with
  | none => rfl
  | some a =>
    exfalso
    obtain ⟨n, j, h1, h2⟩ := content_src hx
    have h1' := get_take.1 h1
    rcases Nat.lt_trichotomy n p with h3 | h3 | h3
    · refine sync_clear h hc hq (content_keep h1'.2 (by omega) fun m e h4 h5 h6 => ?_) (Nat.le_refl q) hx
      exact h2 m e h4 (get_take.2 ⟨by have := hc.lt; omega, h6⟩)
    · subst h3; have := hc.at_; rw [h1'.2] at this; cases this
    · by_cases hj : j = i
      · subst hj
        rcases h.put_op h1'.2 (hc.before h3 (Nat.le_of_lt h1'.1)) with ⟨_, _, h4, _⟩ | ⟨_, _, h4, _⟩ <;> cases h4
      · exact hno n _ h3 h1'.1 h1'.2 hj trivial

/-- **C13**: and with a callback, each entry that was in the cache has been removed by this call, with its callback. -/
theorem sync_clear_reports (h : Exec c tr hist s) (hb : c.hasCb = true) (hc : CallAt tr i p .clear q) (hq : tr[q]? = some (.ret i .unit))
    (hno : ∀ (n : Nat) (e : Ev K V), p < n → n < q → tr[n]? = some e → e.tid ≠ i → ¬ e.isMap) (ha : content (tr.take (p + 1)) k = some a) :
    ∃ n m, p < n ∧ m < q ∧ tr[n]? = some (.del i k a) ∧ CbOf tr n m ∧ ∀ m', CbOf tr n m' → m' = m := by
  have h1 : content (tr.take q) k ≠ some a := by rw [sync_clear_empty h hc hq hno k]; nofun
  obtain ⟨n, j, b1, b2, b3 | ⟨x, b3, b4⟩⟩ := sync_leaves h hb ha h1 (Nat.succ_le_of_lt hc.lt)
  · have hj : j = i := by
      by_contra hj
      exact hno n _ (by omega) b2 b3 hj trivial
    subst hj
    obtain ⟨m, c1, c2, c3⟩ := sync_cb_once h hb b3 hq b2
    exact ⟨n, m, by omega, c1, b3, c2, c3⟩
  · exfalso
    by_cases hj : j = i
    · subst hj
      rcases h.put_op b4 (hc.before (by omega) (Nat.le_of_lt b2)) with ⟨_, _, h4, _⟩ | ⟨_, _, h4, _⟩ <;> cases h4
    · exact hno n _ (by omega) b2 b4 hj trivial

example : (trace (cfg true) (stores 0 1 7 100 10 ++ stores 0 2 8 100 20 ++
      [(1, .call .clear), (1, .go), (1, .snap [2, 1, 3]), (1, .visit 10), (1, .go), (1, .go), (1, .cbFin true), (1, .visit 10), (1, .go), (1, .go), (1, .cbFin true),
       (1, .visit 10), (1, .go), (1, .go)])).map (·.drop 8) =
    some [.call 1 .clear, .tau 1, .tau 1, .tau 1, .del 1 2 1, .cb 1 8, .cbEnd 1 true, .tau 1, .del 1 1 0, .cb 1 7, .cbEnd 1 true, .tau 1, .tau 1,
      .ret 1 .unit] := by rfl
example : (trace (cfg false) (stores 0 1 7 100 10 ++ [(1, .call .clear), (1, .go), (1, .go)])).map (·.drop 4) =
    some [.call 1 .clear, .wipe 1, .ret 1 .unit] := by rfl

end Verif.SyncCache
