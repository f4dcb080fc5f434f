import Verif.SyncCache.Props
/-!
# More properties of `synccache` (C82-C91)
-/
namespace Verif.SyncCache
open Verif.Refresh (get_snoc get_lt get_keep get_new)
variable {K V : Type} [DecidableEq K]
variable {c : Cfg V} {tr : List (Ev K V)} {hist : List (Map K)} {s s' : State K V} {e : Ev K V} {i j p n m q z : Nat} {op : Op K V} {k k' : K} {a b : Nat}
  {r : Res V} {v w : V} {d now t : Int} {x : Bool}

/-! ## C82 -/

/-- **C82**: `IsExpired` compares the clock, read during the call, with the expiration of the entry, read after that. -/
theorem sync_isExpired (h : Exec c tr hist s) (hc : CallAt tr i p (.isExpired a) q) (hq : tr[q]? = some (.ret i (.bool x))) :
    ∃ n m now, p < n ∧ n < m ∧ m < q ∧ tr[n]? = some (.clock i now) ∧ tr[m]? = some (.seen i a) ∧ x = decide (ms now > expOf (tr.take m) a) := by
  have ho := h.out hq hc
  have key : ∃ n m now, p < n ∧ n < m ∧ (tr.take q)[n]? = some (.clock i now) ∧ (tr.take q)[m]? = some (.seen i a) ∧
      x = decide (ms now > expOf ((tr.take q).take m) a) := by cases x <;> exact ho
  obtain ⟨n, m, now, h1, h2, h3, h4, h5⟩ := key
  have h3' := get_take.1 h3
  have h4' := get_take.1 h4
  rw [List.take_take, Nat.min_eq_left (Nat.le_of_lt h4'.1)] at h5
  exact ⟨n, m, now, h1, h2, h4'.1, h3'.2, h4'.2, h5⟩

/-- The event sets or changes the expiration of `a`. -/
def Ev.expires (a : Nat) : Ev K V → Prop
  | .mk _ b _ _ _ | .addExp _ b _ | .setExp _ b _ => b = a
  | _ => False

theorem expOf_same (hz : z ≤ m) (hno : ∀ (n : Nat) (e : Ev K V), z ≤ n → n < m → tr[n]? = some e → ¬ e.expires a) :
    expOf (tr.take m) a = expOf (tr.take z) a := by
  induction m with
  | zero => have : z = 0 := by omega
            subst this; rfl
  | succ m ih =>
    rcases Nat.lt_or_ge m z with h1 | h1
    · have : z = m + 1 := by omega
      rw [this]
    · rw [← ih h1 (fun n e a b => hno n e a (by omega))]
      cases he : tr[m]? with
      | none =>
        have hle : tr.length ≤ m := List.getElem?_eq_none_iff.1 he
        rw [List.take_of_length_le (by omega), List.take_of_length_le hle]
      | some e =>
        rw [take_next he, expOf_snoc]
        have := hno m e h1 (by omega) he
        cases e
        case mk => exact if_neg this
        case addExp => exact if_neg this
        case setExp => exact if_neg this
        all_goals rfl

/-- **C82**: the expiration is the clock at its making plus its duration, in milliseconds rounded down; `AddExpiration` adds the milliseconds of the duration
rounded towards 0; `SetExpiration` sets it. It stays so until it is changed. -/
theorem sync_expiration (hno : ∀ (m : Nat) (e : Ev K V), n < m → m < z → tr[m]? = some e → ¬ e.expires a) (hz : n < z) :
    (tr[n]? = some (.mk i a v now d) → expOf (tr.take z) a = (now + d) / 1000000) ∧
    (tr[n]? = some (.addExp i a d) → expOf (tr.take z) a = expOf (tr.take n) a + d.tdiv 1000000) ∧
    (tr[n]? = some (.setExp i a t) → expOf (tr.take z) a = t / 1000000) := by
  have key := expOf_same (tr := tr) (a := a) (z := n + 1) (m := z) hz fun m e h1 h2 h3 => hno m e h1 h2 h3
  refine ⟨fun h => ?_, fun h => ?_, fun h => ?_⟩ <;>
  · rw [key, take_next h, expOf_snoc]; simp [Ev.onExp, ms, msd]

/-- **C82**: the expiration is written only by these calls, the ones of `AddExpiration` and `SetExpiration` exactly once each. -/
theorem sync_expiration_calls (h : Exec c tr hist s) (hc : CallAt tr i p op q) (hq : tr[q]? = some (.ret i r)) (hr : r ≠ .panicked) :
    (∀ a d, op = .addExpiration a d → r = .unit ∧ ∃ n, p < n ∧ n < q ∧ tr[n]? = some (.addExp i a d)) ∧
    (∀ a t, op = .setExpiration a t → r = .unit ∧ ∃ n, p < n ∧ n < q ∧ tr[n]? = some (.setExp i a t)) ∧
    (∀ v d, op = .newEntry v d → ∃ a n now, r = .ptr a ∧ p < n ∧ n < q ∧ tr[n]? = some (.mk i a v now d)) ∧
    ∀ a, op = .value a → ∃ v, r = .val v ∧ Made tr a v := by
  have ho := h.out hq hc
  refine ⟨?_, ?_, ?_, ?_⟩
  · rintro a d rfl
    cases r with
    | unit => obtain ⟨n, h1, h2⟩ := ho; exact ⟨rfl, n, h1, get_take.1 h2⟩
    | panicked => exact absurd rfl hr
    | entry _ b => cases b <;> exact ho.elim
    | bool b => cases b <;> exact ho.elim
    | _ => exact ho.elim
  · rintro a t rfl
    cases r with
    | unit => obtain ⟨n, h1, h2⟩ := ho; exact ⟨rfl, n, h1, get_take.1 h2⟩
    | panicked => exact absurd rfl hr
    | entry _ b => cases b <;> exact ho.elim
    | bool b => cases b <;> exact ho.elim
    | _ => exact ho.elim
  · rintro v d rfl
    cases r with
    | ptr a => obtain ⟨n, now, h1, h2⟩ := ho; exact ⟨a, n, now, rfl, h1, get_take.1 h2⟩
    | panicked => exact absurd rfl hr
    | entry _ b => cases b <;> exact ho.elim
    | bool b => cases b <;> exact ho.elim
    | _ => exact ho.elim
  · rintro a rfl
    cases r with
    | val v => exact ⟨v, rfl, Made.take ho⟩
    | panicked => exact absurd rfl hr
    | entry _ b => cases b <;> exact ho.elim
    | bool b => cases b <;> exact ho.elim
    | _ => exact ho.elim

/-- **C82**: an entry made at `now` for `d`, its expiration not changed since, is expired at `now'` if the millisecond of `now + d` is over. -/
theorem sync_fresh_entry (h : Exec c tr hist s) (hn : tr[n]? = some (.mk j a v now d)) (hc : CallAt tr i p (.isExpired a) q) (hp : n < p)
    (hq : tr[q]? = some (.ret i (.bool x))) (hno : ∀ (m : Nat) (e : Ev K V), n < m → m < q → tr[m]? = some e → ¬ e.expires a) :
    ∃ m now', p < m ∧ m < q ∧ tr[m]? = some (.clock i now') ∧ (x = true ↔ (now + d) / 1000000 < now' / 1000000) := by
  obtain ⟨y, m, now', h1, h2, h3, h4, h5, h6⟩ := sync_isExpired h hc hq
  refine ⟨y, now', h1, by omega, h4, ?_⟩
  rw [h6, (sync_expiration (t := 0) (fun x e b1 b2 b3 => hno x e b1 (by omega) b3) (by omega)).1 hn]
  simp [ms]

/-- An entry made for 1.5 ms at 100.7 ms, prolonged by 2.9 ms: expires after 102 + 2 = 104 ms. -/
example : trace (K := Nat) (cfg false) [(0, .call (.newEntry 7 1500000)), (0, .time 100700000), (0, .go), (0, .call (.addExpiration 0 2900000)), (0, .go), (0, .go),
      (0, .call (.isExpired 0)), (0, .time 104999999), (0, .go), (0, .go), (0, .call (.isExpired 0)), (0, .time 105000000), (0, .go), (0, .go)] =
    some [.call 0 (.newEntry 7 1500000), .mk 0 0 7 100700000 1500000, .ret 0 (.ptr 0), .call 0 (.addExpiration 0 2900000), .addExp 0 0 2900000, .ret 0 .unit,
      .call 0 (.isExpired 0), .clock 0 104999999, .seen 0 0, .ret 0 (.bool false), .call 0 (.isExpired 0), .clock 0 105000000, .seen 0 0,
      .ret 0 (.bool true)] := by rfl

/-! ## C83 -/

/-- **C83**: a round of the trimmer on a registered cache leaves, of the entries that were there when it began, none in the cache but those whose
expiration, read by this round, was not before the clock of this round. -/
theorem sync_trim (h : Exec c tr hist s) (hc : CallAt tr i p .tick q) (hq : tr[q]? = some (.ret i .unit)) :
    (∃ z, p < z ∧ z ≤ q ∧ regOf (tr.take z) = false) ∨
    ∃ n now, p < n ∧ n < q ∧ tr[n]? = some (.clock i now) ∧ ∀ k a, content (tr.take (p + 1)) k = some a →
      (∀ z k', q ≤ z → content (tr.take z) k' ≠ some a) ∨
      ∃ y, p < y ∧ y < q ∧ tr[y]? = some (.seen i a) ∧ ms now ≤ expOf (tr.take y) a := by
  rcases h.out hq hc with ⟨z, h1, h2, h3⟩ | ⟨n, now, h1, h2, h3⟩
  · have hz : z ≤ q := Nat.le_trans h2 (by simp)
    exact .inl ⟨z, h1, hz, by rwa [List.take_take, Nat.min_eq_left hz] at h3⟩
  · have h2' := get_take.1 h2
    refine .inr ⟨n, now, h1, h2'.1, h2'.2, fun k a ha => ?_⟩
    rcases h3 k a (by rw [List.take_take, Nat.min_eq_left (Nat.succ_le_of_lt hc.lt)]; exact ha) with ⟨z, b1, b2, b3⟩ | ⟨y, b1, b2, b3⟩
    · have hz : z ≤ q := Nat.le_trans b2 (by simp)
      rw [List.take_take, Nat.min_eq_left hz] at b3
      exact .inl fun z' k' hz' => h.gone ha b3 (by omega) (by omega)
    · have b2' := get_take.1 b2
      rw [List.take_take, Nat.min_eq_left (Nat.le_of_lt b2'.1)] at b3
      exact .inr ⟨y, b1, b2'.1, b2'.2, b3⟩

example : (trace (cfg true) (stores 0 1 7 100 10 ++ stores 0 2 8 100 20 ++ [(0, .call .start), (0, .go), (0, .go)] ++
      [(1, .call .tick), (1, .go), (1, .time 111000000), (1, .snap [1, 2]), (1, .visit 14), (1, .go), (1, .go), (1, .go), (1, .cbFin true),
       (1, .visit 14), (1, .go), (1, .go), (1, .go)])).map (fun tr => (tr.drop 11, content tr 1, content tr 2)) =
    some ([.call 1 .tick, .tau 1, .clock 1 111000000, .tau 1, .tau 1, .seen 1 0, .del 1 1 0, .cb 1 7, .cbEnd 1 true, .tau 1, .seen 1 1, .tau 1, .ret 1 .unit],
      none, some 1) := by rfl

/-! ## C84 -/

/-- **C84**: `Range` passes no key twice. -/
theorem sync_range_once (h : Exec c tr hist s) (hc : CallAt tr i p op n) (hn : tr[n]? = some (.yield i k a)) (hm : tr[m]? = some (.yield i k b))
    (h1 : p < m) (h2 : m ≤ n) : m = n := by
  rcases Nat.lt_or_eq_of_le h2 with h3 | h3
  · exact absurd hm ((h.yield_op hn hc).2.2 m b h1 h3)
  · exact h3

/-- **C84**: a `Range` whose function never returned false has passed every entry that was in the cache when it was called, except those that left the cache
before it returned, as expired ones do. -/
theorem sync_range_all (h : Exec c tr hist s) (hc : CallAt tr i p .range q) (hq : tr[q]? = some (.ret i .unit))
    (hall : ∀ n, p < n → n < q → tr[n]? ≠ some (.yieldEnd i (some false))) (ha : content (tr.take (p + 1)) k = some a)
    (hstay : content (tr.take q) k = some a) : ∃ n, p < n ∧ n < q ∧ tr[n]? = some (.yield i k a) := by
  rcases h.out hq hc with ⟨n, h1, h2⟩ | h1
  · exact absurd (get_take.1 h2).2 (hall n h1 (get_take.1 h2).1)
  · rcases h1 k a (by rw [List.take_take, Nat.min_eq_left (Nat.succ_le_of_lt hc.lt)]; exact ha) with ⟨z, b1, b2, b3⟩ | ⟨y, b1, b2⟩
    · have hz : z ≤ q := Nat.le_trans b2 (by simp)
      rw [List.take_take, Nat.min_eq_left hz] at b3
      exact absurd hstay (h.gone ha b3 (by omega) hz)
    · exact ⟨y, b1, get_take.1 b2⟩

/-- Both are passed, the second although it is replaced meanwhile. -/
example : (trace (cfg false) (stores 0 1 7 100 10 ++ stores 0 2 8 100 20 ++
      [(1, .call .range), (1, .snap [2, 1]), (1, .visit 9), (1, .time 100000000), (1, .go), (1, .go)] ++ stores 0 1 9 101 10 ++ [(1, .fFin (some true)),
       (1, .visit 9), (1, .time 101000000), (1, .go), (1, .go), (1, .fFin (some true)), (1, .go), (1, .go)])).map (·.drop 8) =
    some [.call 1 .range, .tau 1, .tau 1, .clock 1 100000000, .seen 1 1, .yield 1 2 1,
      .call 0 (.store 1 9 10000000), .mk 0 2 9 101000000 10000000, .put 0 1 2, .ret 0 .unit, .yieldEnd 1 (some true),
      .tau 1, .clock 1 101000000, .seen 1 0, .yield 1 1 0, .yieldEnd 1 (some true), .tau 1, .ret 1 .unit] := by rfl

/-! ## C85 -/

/-- **C85**: `Store` makes one entry with the given value and duration and puts it into the map. -/
theorem sync_store (h : Exec c tr hist s) (hc : CallAt tr i p (.store k v d) q) (hq : tr[q]? = some (.ret i .unit)) :
    ∃ a m n now, p < m ∧ m < n ∧ n < q ∧ tr[m]? = some (.mk i a v now d) ∧ tr[n]? = some (.put i k a) := by
  obtain ⟨a, m, n, now, h1, h2, h3, h4⟩ := h.out hq hc
  exact ⟨a, m, n, now, h1, h2, (get_take.1 h4).1, (get_take.1 h3).2, (get_take.1 h4).2⟩

/-- **C85**: `Load` of a key for which `a` was put, and which nobody else has changed since, returns `a`, checked not to be expired, or nothing, having found
`a` expired. -/
theorem sync_load_stored (h : Exec c tr hist s) (hn : tr[n]? = some (.put j k a)) (hc : CallAt tr i p (.load k) q) (hp : n < p)
    (hq : tr[q]? = some (.ret i r)) (hno : ∀ (m : Nat) (e : Ev K V), n < m → m < q → tr[m]? = some e → (m < p ∨ e.tid ≠ i) → ¬ e.touches k) :
    (r = .entry a true ∧ Live (tr.take q) i p k a) ∨ (r = .nil ∧ Dead (tr.take q) i p k a) ∨ r = .panicked := by
  have hpq := hc.lt
  have mine : ∀ (m : Nat) (e : Ev K V), n < m → m < q → tr[m]? = some e → e.touches k → p < m ∧ e.tid = i := by
    intro m e h1 h2 h3 h4
    by_contra hcon
    have hmp : m ≠ p := by
      rintro rfl
      rw [hc.at_] at h3
      cases h3
      exact h4
    exact hno m e h1 h2 h3 (by by_contra hcc; exact hcon ⟨by omega, by_contra fun hx => hcc (.inr hx)⟩) h4
  have src : ∀ {z : Nat} {b : Nat}, p < z → z ≤ q → content (tr.take z) k = some b → b = a := by
    intro z b hz1 hz2 hb
    obtain ⟨m, j', h1, h2⟩ := content_src hb
    have h1' := get_take.1 h1
    rcases Nat.lt_trichotomy m n with h3 | h3 | h3
    · exact absurd (by rfl) (h2 n _ h3 (get_take.2 ⟨by omega, hn⟩))
    · subst h3
      have := h1'.2
      rw [hn] at this
      injection this with this
      injection this with _ _ this
      exact this.symm
    · obtain ⟨b1, b2⟩ := mine m _ h3 (by omega) h1'.2 rfl
      have b2' : j' = i := b2
      subst b2'
      rcases h.put_op h1'.2 (hc.before b1 (by omega)) with ⟨_, _, h4, _⟩ | ⟨_, _, h4, _⟩ <;> cases h4
  have checked : ∀ {φ : Int → Int → Prop} {b : Nat}, Checked (tr.take q) i p k b φ → b = a := by
    rintro φ b ⟨z, x, y, now, h1, h2, h3, h4, h5, h6, h7, h8⟩
    have hz : z ≤ q := by have := (get_take.1 h7).1; omega
    rw [List.take_take, Nat.min_eq_left hz] at h5
    exact src h1 hz h5
  have ho := h.out hq hc
  cases r with
  | nil =>
    refine .inr (.inl ⟨rfl, ?_⟩)
    rcases ho with ⟨z, h1, h2, h3⟩ | ⟨b, h1, _⟩
    · have hz : z ≤ q := Nat.le_trans h2 (by simp)
      rw [List.take_take, Nat.min_eq_left hz] at h3
      have hput : content (tr.take (n + 1)) k = some a := by rw [take_next hn, content_snoc]; simp [Ev.onKey]
      obtain ⟨m, j', b1, b2, b3, b4⟩ := h.left hput (z2 := z) (by rw [h3]; nofun) (by omega)
      rcases b4 with b4 | b4 | ⟨b, _, b4⟩
      · obtain ⟨c1, c2⟩ := mine m _ (by omega) (by omega) b4 rfl
        have c2' : j' = i := c2
        subst c2'
        have h8 := sync_expiry_only h (hc.before c1 (by omega)) b4 (.inr (.inr (.inl ⟨k, rfl⟩)))
        obtain ⟨z', x, y, now, d1, d2, d3, d4, d5, d6, d7, d8⟩ := h8
        have e6 := get_take.1 d6
        have e7 := get_take.1 d7
        rw [List.take_take, Nat.min_eq_left (by omega)] at d5 d8
        refine ⟨z', x, y, now, d1, d2, d3, d4, ?_, get_take.2 ⟨by omega, e6.2⟩, get_take.2 ⟨by omega, e7.2⟩, ?_⟩
        · rw [List.take_take, Nat.min_eq_left (by omega)]; exact d5
        · rw [List.take_take, Nat.min_eq_left (by omega)]; exact d8
      · obtain ⟨c1, c2⟩ := mine m _ (by omega) (by omega) b4 trivial
        have c2' : j' = i := c2
        subst c2'
        cases (h.wipe_op b4 (hc.before c1 (by omega))).1
      · obtain ⟨c1, c2⟩ := mine m _ (by omega) (by omega) b4 rfl
        have c2' : j' = i := c2
        subst c2'
        rcases h.put_op b4 (hc.before c1 (by omega)) with ⟨_, _, h4, _⟩ | ⟨_, _, h4, _⟩ <;> cases h4
    · have := checked h1
      subst this
      exact h1
  | panicked => exact .inr (.inr rfl)
  | entry b l =>
    cases l with
    | true =>
      have := checked (φ := fun now e => now ≤ e) ho
      subst this
      exact .inl ⟨rfl, ho⟩
    | false => exact ho.elim
  | bool b => cases b <;> exact ho.elim
  | _ => exact ho.elim

/-- An entry that has left is not there. -/
theorem Exec.left_at (h : Exec c tr hist s) (hl : Left (tr.take q) p k a) : content (tr.take q) k ≠ some a := by
  obtain ⟨z, w, _, h2, h3, h4, h5⟩ := hl
  have hw : w ≤ q := Nat.le_trans h3 (by simp)
  rw [List.take_take, Nat.min_eq_left (by omega)] at h4
  rw [List.take_take, Nat.min_eq_left hw] at h5
  exact h.gone h4 h5 h2 hw

/-- **C85**: `Load` returns nothing only if at some instant of the call there was no entry for the key, or it found one expired, which is then
no longer in the cache when `Load` returns. -/
theorem sync_load_nil (h : Exec c tr hist s) (hc : CallAt tr i p (.load k) q) (hq : tr[q]? = some (.ret i .nil)) :
    (∃ z, p < z ∧ z ≤ q ∧ content (tr.take z) k = none) ∨ ∃ a, Dead (tr.take q) i p k a ∧ content (tr.take q) k ≠ some a := by
  rcases h.out hq hc with ⟨z, h1, h2, h3⟩ | ⟨a, h1, h2⟩
  · have hz : z ≤ q := Nat.le_trans h2 (by simp)
    exact .inl ⟨z, h1, hz, by rwa [List.take_take, Nat.min_eq_left hz] at h3⟩
  · exact .inr ⟨a, h1, h.left_at h2⟩

example : (trace (cfg false) (stores 0 1 7 100 10 ++ stores 0 1 8 100 20 ++ loads 1 1 105)).map (·.drop 8) =
    some [.call 1 (.load 1), .tau 1, .clock 1 105000000, .seen 1 1, .ret 1 (.entry 1 true)] := by rfl

/-! ## C86 -/

/-- **C86**: a round of the trimmer removes nothing from a cache that is not registered during the round: before `Start`, or after `Close`. -/
theorem sync_closed (h : Exec c tr hist s) (hc : CallAt tr i p .tick q) (hreg : ∀ z, p < z → z ≤ q → regOf (tr.take z) = false)
    (h1 : p < n) (h2 : n ≤ q) : tr[n]? ≠ some (.del i k a) := by
  intro hn
  obtain ⟨z, x, y, now, b1, b2, b3, b4, b5, b6, b7, b8⟩ := sync_expiry_only h (hc.before h1 h2) hn (.inl rfl)
  have b6' := get_take.1 b6
  obtain ⟨z', c1, c2, c3⟩ := h.clock_tick b6'.2 (hc.before b3 (by omega))
  rw [hreg z' c1 (by omega)] at c3
  cases c3

/-- **C86**: the cache is registered after `Start` until `Close`. -/
theorem sync_reg (h : Exec c tr hist s) (hc : CallAt tr i p op q) (hq : tr[q]? = some (.ret i .unit)) :
    (op = .start → ∃ n, p < n ∧ n < q ∧ regOf (tr.take (n + 1)) = true) ∧ (op = .close → ∃ n, p < n ∧ n < q ∧ regOf (tr.take (n + 1)) = false) := by
  have ho := h.out hq hc
  constructor
  · rintro rfl
    obtain ⟨n, h1, h2⟩ := ho
    have h2' := get_take.1 h2
    exact ⟨n, h1, h2'.1, by rw [take_next h2'.2, regOf_snoc]; rfl⟩
  · rintro rfl
    obtain ⟨n, h1, h2⟩ := ho
    have h2' := get_take.1 h2
    exact ⟨n, h1, h2'.1, by rw [take_next h2'.2, regOf_snoc]; rfl⟩

/-- After `Close` an expired entry stays. -/
example : (trace (cfg true) (stores 0 1 7 100 10 ++ [(0, .call .start), (0, .go), (0, .go), (0, .call .close), (0, .go), (0, .go)] ++
      [(1, .call .tick), (1, .go), (1, .go)])).map (fun tr => (tr.drop 10, content tr 1)) =
    some ([.call 1 .tick, .tau 1, .ret 1 .unit], some 0) := by rfl

/-! ## C87 -/

/-- **C87**: a call panics only if the deleted callback or the function of `Range` panicked in it, or the values could not be compared, or it is a method of
something not an entry. -/
theorem sync_panic (h : Exec c tr hist s) (hc : CallAt tr i p op q) (hq : tr[q]? = some (.ret i .panicked)) :
    (∃ n, p < n ∧ n < q ∧ (tr[n]? = some (.cbEnd i false) ∨ tr[n]? = some (.yieldEnd i none))) ∨
    (∃ k v a w, op = .compareValueAndDelete k v ∧ Made tr a w ∧ c.eqv v w = none) ∨
    ∃ a, (op = .value a ∨ op = .isExpired a ∨ (∃ d, op = .addExpiration a d) ∨ ∃ t, op = .setExpiration a t) ∧ ∀ v, ¬ Made (tr.take p) a v := by
  rcases h.panicked hq hc with ⟨n, h1, h2⟩ | ⟨n, h1, h2⟩ | ⟨k, v, a, w, h1, _, h3, h4⟩ | ⟨a, h1, z, h2, h3, h4⟩
  · exact .inl ⟨n, h1, (get_take.1 h2).1, .inl (get_take.1 h2).2⟩
  · exact .inl ⟨n, h1, (get_take.1 h2).1, .inr (get_take.1 h2).2⟩
  · exact .inr (.inl ⟨k, v, a, w, h1, h3.take, h4⟩)
  · refine .inr (.inr ⟨a, ?_, ?_⟩)
    · cases op <;> simp_all [Op.on]
    · rintro v ⟨n, i', now, d, hn⟩
      have hn' := get_take.1 hn
      have hz : z ≤ q := Nat.le_trans h3 (by simp)
      refine h4 v ⟨n, i', now, d, get_take.2 ⟨by omega, get_take.2 ⟨by omega, hn'.2⟩⟩⟩

/-- The callback of an expired entry panics in `Load`. -/
example : (trace (cfg true) (stores 0 1 7 100 10 ++ loads 1 1 111 ++ [(1, .go), (1, .cbFin false), (1, .go)])).map (·.drop 8) =
    some [.del 1 1 0, .cb 1 7, .cbEnd 1 false, .ret 1 .panicked] := by rfl

/-! ## C88 -/

/-- **C88**: when `LoadOrStore` is about to try once more, it has tried at most once more often than other threads have stored the key since the call began. -/
theorem sync_los_tries (h : Exec c tr hist s) (hc : CallAt tr i p (.loadOrStore k v d) n) {dd : Int} (hn : tr[n]? = some (.mk i a w now dd)) :
    count (Ev.mkBy i) (tr.take n) p ≤ count (Ev.putOther i k) (tr.take n) p + 1 := h.attempts hn hc

/-- Three tries: the entry found, and another one stored meanwhile, are both expired. -/
example : (trace (cfg false) (stores 0 1 7 100 0 ++
      [(1, .call (.loadOrStore 1 8 50000000)), (1, .time 101000000), (1, .go), (1, .time 101000000), (1, .go), (1, .go)] ++ stores 0 1 9 100 0 ++
      [(1, .time 101000000), (1, .go), (1, .time 101000000), (1, .go), (1, .go), (1, .time 101000000), (1, .go), (1, .go)])).map
      (fun tr => (tr.drop 14, count (Ev.mkBy 1) (tr.take 19) 4, count (Ev.putOther 1 1) (tr.take 19) 4)) =
    some ([.mk 1 3 8 101000000 50000000, .tau 1, .clock 1 101000000, .seen 1 2, .del 1 1 2, .mk 1 4 8 101000000 50000000, .put 1 1 4, .ret 1 (.entry 4 false)],
      2, 1) := by rfl

/-! ## C89 -/

/-- **C89**: a call never waits for another one: its thread can always take a step (when a function of the user is running, its end). -/
theorem sync_no_wait (h : Exec c tr hist s) (hi : s.pc i ≠ .idle) : ∃ inp s' e, step c hist s i inp = some (s', e) := h.go_on hi

/-- **C89**: a call whose thread runs alone comes to an end. -/
theorem sync_ends (f : Nat → State K V) (hf : ∀ n, ∃ hist inp e, step c hist (f n) i inp = some (f (n + 1), e)) : ∃ n, (f n).pc i = .idle := by
  by_contra hno
  have key : ∀ x : Nat × Nat × Nat, ∀ n, left (f n) ((f n).pc i) ≠ x := by
    intro x
    induction x using lt3_wf.induction with
    | h x ih =>
      rintro n rfl
      obtain ⟨hist, inp, e, h⟩ := hf n
      exact ih _ ((step_Step h).left fun h => hno ⟨n, h⟩) (n + 1) rfl
  exact key _ 0 rfl

/-- A `Range` over two keys. -/
example : (trace (cfg false) (stores 0 1 7 100 10 ++ [(1, .call .range), (1, .snap [5, 1]), (1, .visit 5), (1, .visit 5), (1, .time 100000000), (1, .go), (1, .go),
      (1, .fFin (some true)), (1, .go), (1, .go)])).map List.length = some 14 := by rfl

/-! ## C90 -/

/-- **C90**: `LoadAndDelete` returns an entry only if this very call removed it and found it not expired; if it returns nothing, there was no entry at some instant
of the call, or it removed one and found it expired. -/
theorem sync_lad (h : Exec c tr hist s) (hc : CallAt tr i p (.loadAndDelete k) q) (hq : tr[q]? = some (.ret i r)) (hr : r ≠ .panicked) :
    (∃ a n, r = .entry a true ∧ p < n ∧ n < q ∧ tr[n]? = some (.del i k a) ∧ Live (tr.take q) i p k a) ∨
    (r = .nil ∧ ((∃ z, p < z ∧ z ≤ q ∧ content (tr.take z) k = none) ∨
      ∃ n a, p < n ∧ n < q ∧ tr[n]? = some (.del i k a) ∧ Dead (tr.take q) i p k a)) := by
  have ho := h.out hq hc
  cases r with
  | nil =>
    refine .inr ⟨rfl, ?_⟩
    rcases ho with ⟨z, h1, h2, h3⟩ | ⟨n, a, h1, h2, h3⟩
    · have hz : z ≤ q := Nat.le_trans h2 (by simp)
      exact .inl ⟨z, h1, hz, by rwa [List.take_take, Nat.min_eq_left hz] at h3⟩
    · exact .inr ⟨n, a, h1, (get_take.1 h2).1, (get_take.1 h2).2, h3⟩
  | entry a l =>
    cases l with
    | true => obtain ⟨n, h1, h2, h3⟩ := ho; exact .inl ⟨a, n, rfl, h1, (get_take.1 h2).1, (get_take.1 h2).2, h3⟩
    | false => exact ho.elim
  | panicked => exact absurd rfl hr
  | bool b => cases b <;> exact ho.elim
  | _ => exact ho.elim

/-- **C90**: no two calls of `LoadAndDelete` return the same entry. -/
theorem sync_lad_once (h : Exec c tr hist s) {p' q' : Nat} (hc : CallAt tr i p (.loadAndDelete k) q) (hq : tr[q]? = some (.ret i (.entry a true)))
    (hc' : CallAt tr j p' (.loadAndDelete k') q') (hq' : tr[q']? = some (.ret j (.entry a true))) : p = p' := by
  rcases sync_lad h hc hq nofun with ⟨b, n, h1, h2, h3, h4, _⟩ | ⟨h1, _⟩
  · rcases sync_lad h hc' hq' nofun with ⟨b', n', h1', h2', h3', h4', _⟩ | ⟨h1', _⟩
    · cases h1; cases h1'
      have := h.del_once h4 h4'
      subst this
      rw [h4] at h4'
      injection h4' with h4'
      injection h4' with hij hk
      subst hij hk
      rcases Nat.lt_trichotomy p p' with h5 | h5 | h5
      · exact absurd hc'.at_ (hc.only p' _ h5 (by omega))
      · exact h5
      · exact absurd hc.at_ (hc'.only p _ h5 (by omega))
    · cases h1'
  · cases h1

/-- **C90**: `CompareAndDelete` returns true exactly if it removed the entry; if it returns false, the entry was not the one in the map at some instant of the call. -/
theorem sync_cad (h : Exec c tr hist s) (hc : CallAt tr i p (.compareAndDelete k a) q) (hq : tr[q]? = some (.ret i (.bool x))) :
    (x = true → ∃ n, p < n ∧ n < q ∧ tr[n]? = some (.del i k a)) ∧ (x = false → ∃ z, p < z ∧ z ≤ q ∧ content (tr.take z) k ≠ some a) := by
  have ho := h.out hq hc
  cases x with
  | true => obtain ⟨n, h1, h2⟩ := ho; exact ⟨fun _ => ⟨n, h1, (get_take.1 h2).1, (get_take.1 h2).2⟩, nofun⟩
  | false =>
    obtain ⟨z, h1, h2, h3⟩ := ho
    have hz : z ≤ q := Nat.le_trans h2 (by simp)
    exact ⟨nofun, fun _ => ⟨z, h1, hz, by rwa [List.take_take, Nat.min_eq_left hz] at h3⟩⟩

/-- **C90**: when `Delete` returns, there was no entry for the key at some instant of the call. -/
theorem sync_delete (h : Exec c tr hist s) (hc : CallAt tr i p (.delete k) q) (hq : tr[q]? = some (.ret i .unit)) :
    ∃ z, p < z ∧ z ≤ q ∧ content (tr.take z) k = none := by
  rcases h.out hq hc with ⟨z, h1, h2, h3⟩ | ⟨n, a, h1, h2⟩
  · have hz : z ≤ q := Nat.le_trans h2 (by simp)
    exact ⟨z, h1, hz, by rwa [List.take_take, Nat.min_eq_left hz] at h3⟩
  · have h2' := get_take.1 h2
    exact ⟨n + 1, by omega, by omega, by rw [take_next h2'.2, content_snoc]; simp [Ev.onKey]⟩

/-- Two threads, one entry. -/
example : (trace (cfg false) (stores 0 1 7 100 10 ++ [(0, .call (.loadAndDelete 1)), (1, .call (.loadAndDelete 1)), (1, .go), (0, .go), (0, .go), (1, .time 101000000),
      (1, .go), (1, .go)])).map (·.drop 4) =
    some [.call 0 (.loadAndDelete 1), .call 1 (.loadAndDelete 1), .del 1 1 0, .tau 0, .ret 0 .nil, .clock 1 101000000, .seen 1 0,
      .ret 1 (.entry 0 true)] := by rfl

/-! ## C91 -/

/-- **C91**: an entry is put into the cache at most once, for one key, by the thread that made it. -/
theorem sync_put_once (h : Exec c tr hist s) (hn : tr[n]? = some (.put i k a)) :
    (∃ m v now d, m < n ∧ tr[m]? = some (.mk i a v now d)) ∧ ∀ (n' j : Nat) (k' : K), tr[n']? = some (.put j k' a) → n' = n ∧ j = i ∧ k' = k := by
  obtain ⟨m, v, now, d, h1, h2, _⟩ := h.put_src hn
  refine ⟨⟨m, v, now, d, h1, h2⟩, fun n' j k' hn' => ?_⟩
  have := h.put_once hn hn'
  subst this
  rw [hn] at hn'
  injection hn' with hn'
  injection hn' with h3 h4
  exact ⟨rfl, h3.symm, h4.symm⟩

/-- **C91**: an entry that has left the cache never comes back, for any key. -/
theorem sync_no_return (h : Exec c tr hist s) {z1 z2 z3 : Nat} (h1 : content (tr.take z1) k = some a) (h2 : content (tr.take z2) k ≠ some a)
    (h12 : z1 ≤ z2) (h23 : z2 ≤ z3) : content (tr.take z3) k' ≠ some a := h.gone h1 h2 h12 h23

example : (trace (cfg false) (stores 0 1 7 100 10 ++ [(0, .call (.delete 1)), (0, .go), (0, .go)] ++ stores 0 1 7 100 10)).map
    (fun tr => (content (tr.take 3) 1, content (tr.take 6) 1, content tr 1)) = some (some 0, none, some 1) := by rfl

end Verif.SyncCache
