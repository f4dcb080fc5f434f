import Verif.SyncCache.More
/-!
# How calls end (C12, C92, C95)
-/
namespace Verif.SyncCache
open Verif.Refresh (get_snoc get_lt get_keep get_new)
variable {K V : Type} [DecidableEq K]
variable {c : Cfg V} {tr : List (Ev K V)} {hist : List (Map K)} {s s' : State K V} {e e' : Ev K V} {i j p n m q z : Nat} {op : Op K V} {k k' : K} {a b : Nat}
  {r : Res V} {v w : V}

/-- **C12**: `CompareValueAndDelete` returns false only if at some instant of the call there was no entry for the key; or it found one expired, which is
then no longer in the cache; or it found one whose value compares different; or one whose value compares equal, but which somebody else took
out of the cache, or overwrote, before it could. -/
theorem sync_cvd_why (h : Exec c tr hist s) (hc : CallAt tr i p (.compareValueAndDelete k v) q) (hq : tr[q]? = some (.ret i (.bool false))) :
    (∃ z, p < z ∧ z ≤ q ∧ content (tr.take z) k = none) ∨ ∃ a, (Dead (tr.take q) i p k a ∧ content (tr.take q) k ≠ some a) ∨
      ∃ w, Live (tr.take q) i p k a ∧ Made tr a w ∧ (c.eqv v w = some false ∨ c.eqv v w = some true ∧ content (tr.take q) k ≠ some a) := by
  rcases (h.out hq hc).2 with ⟨z, h1, h2, h3⟩ | ⟨a, ⟨h1, h2⟩ | ⟨w, h1, h2, h3⟩⟩
  · have hz : z ≤ q := Nat.le_trans h2 (by simp)
    exact .inl ⟨z, h1, hz, by rwa [List.take_take, Nat.min_eq_left hz] at h3⟩
  · exact .inr ⟨a, .inl ⟨h1, h.left_at h2⟩⟩
  · exact .inr ⟨a, .inr ⟨w, h1, h2.take, h3.imp id fun h' => ⟨h'.1, h.left_at h'.2⟩⟩⟩

/-- The value compares equal, but the entry is overwritten in between. -/
example : (trace (cfg false) (stores 0 1 7 100 10 ++ [(1, .call (.compareValueAndDelete 1 7)), (1, .go), (1, .time 101000000), (1, .go), (1, .go)] ++
      stores 0 1 7 100 10 ++ goes 1 2)).map (·.drop 4) =
    some [.call 1 (.compareValueAndDelete 1 7), .tau 1, .clock 1 101000000, .seen 1 0, .tau 1,
      .call 0 (.store 1 7 10000000), .mk 0 1 7 100000000 10000000, .put 0 1 1, .ret 0 .unit, .tau 1, .ret 1 (.bool false)] := by rfl

/-! ## C92 -/

/-- What a call returns after the event. -/
def Ev.ends : Ev K V → Option (Res V)
  | .cbEnd _ false => some .panicked
  | .yieldEnd _ none => some .panicked
  | .yieldEnd _ (some false) => some .unit
  | _ => none

theorem Step.ends (h : Step c hist s i s' e) (he : e.ends = some r) : s'.pc i = .done r := by
  cases h <;> first | (cases he; exact State.go_pc) | cases he

theorem Exec.ended (h : Exec c tr hist s) : ∀ (n : Nat) (e : Ev K V), tr[n]? = some e → e.ends = some r →
    (∀ (m : Nat) (e' : Ev K V), n < m → tr[m]? = some e' → e'.tid ≠ e.tid) → s.pc e.tid = .done r := by
  induction h with
  | nil => intro n e hn; simp at hn
  | snoc h1 h2 ih =>
    rename_i tr hist s i inp s' e0
    intro n e hn he hno
    have hst := step_Step h2
    rcases get_snoc.1 hn with hn' | ⟨_, rfl⟩
    · have h3 : e0.tid ≠ e.tid := hno tr.length e0 (get_lt hn') get_new
      rw [hst.tid] at h3
      rw [hst.other (Ne.symm h3)]
      exact ih n e hn' he fun m e' hm hc => hno m e' hm (get_keep hc)
    · rw [hst.tid]; exact hst.ends he

/-- **C92**: after a panic of the callback, or of the function passed to `Range`, the call does nothing more and panics; after the function passed to `Range` has
returned false, the call does nothing more and returns. -/
theorem sync_ends_at (h : Exec c tr hist s) (hn : tr[n]? = some e) (he : e.ends = some r) (hm : tr[m]? = some e') (ht : e'.tid = e.tid) (hlt : n < m)
    (hno : ∀ (x : Nat) (e'' : Ev K V), n < x → x < m → tr[x]? = some e'' → e''.tid ≠ e.tid) : e' = .ret e.tid r := by
  obtain ⟨s0, inp, s1, h1, h2, -⟩ := h.at hm
  have h3 := h1.ended n e (get_take.2 ⟨hlt, hn⟩) he fun x e'' hx hc => hno x e'' hx (get_take.1 hc).1 (get_take.1 hc).2
  rw [ht] at h2
  simp only [step, h3] at h2
  split at h2 <;> simp_all

/-- The callback panics on the first of two entries, the second stays. -/
example : (trace (cfg true) (stores 0 1 7 100 10 ++ stores 0 2 8 100 10 ++ [(1, .call .clear), (1, .go), (1, .snap [1, 2]), (1, .visit 10), (1, .go), (1, .go),
      (1, .cbFin false), (1, .go)] ++ loads 0 2 101)).map (·.drop 8) =
    some [.call 1 .clear, .tau 1, .tau 1, .tau 1, .del 1 1 0, .cb 1 7, .cbEnd 1 false, .ret 1 .panicked,
      .call 0 (.load 2), .tau 0, .clock 0 101000000, .seen 0 1, .ret 0 (.entry 1 true)] := by rfl
/-- `Range` stopped by its function after the first of two entries. -/
example : (trace (cfg true) (stores 0 1 7 100 10 ++ stores 0 2 8 100 10 ++ [(1, .call .range), (1, .snap [1, 2]), (1, .visit 9), (1, .time 101000000), (1, .go), (1, .go),
      (1, .fFin (some false)), (1, .go)])).map (·.drop 8) =
    some [.call 1 .range, .tau 1, .tau 1, .clock 1 101000000, .seen 1 0, .yield 1 1 0, .yieldEnd 1 (some false), .ret 1 .unit] := by rfl

/-! ## C95 -/

/-- The results a call may have when it returns. -/
def Op.may : Op K V → Res V → Prop
  | .load _, r | .loadAndDelete _, r => r = .nil ∨ ∃ a, r = .entry a true
  | .loadOrStore .., r => ∃ a b, r = .entry a b
  | .compareAndDelete .., r | .compareValueAndDelete .., r | .isExpired _, r => ∃ b, r = .bool b
  | .newEntry .., r => ∃ a, r = .ptr a
  | .value _, r => ∃ v, r = .val v
  | _, r => r = .unit

/-- **C95**: `Load` and `LoadAndDelete` return `(nil, false)` or an entry and true, `LoadOrStore` always an entry; the results of the other calls are of
their kind. -/
theorem sync_results (h : Exec c tr hist s) (hc : CallAt tr i p op q) (hq : tr[q]? = some (.ret i r)) (hr : r ≠ .panicked) : op.may r := by
  have ho := h.out hq hc
  cases op <;> cases r <;> first
    | exact absurd rfl hr
    | (simp [Op.may]; done)
    | exact ho.elim
    | (rename_i b; cases b <;> first | (simp [Op.may]; done) | exact ho.elim)

/-- Before `Store` and after it; then `LoadOrStore` finds the entry. -/
example : trace (cfg true) ([(0, .call (.load 1)), (0, .go), (0, .go)] ++ stores 0 1 7 100 10 ++ loads 0 1 101 ++
      [(1, .call (.loadOrStore 1 8 5)), (1, .time 102000000), (1, .go), (1, .time 102000000), (1, .go), (1, .go)]) =
    some [.call 0 (.load 1), .tau 0, .ret 0 .nil, .call 0 (.store 1 7 10000000), .mk 0 0 7 100000000 10000000, .put 0 1 0, .ret 0 .unit,
      .call 0 (.load 1), .tau 0, .clock 0 101000000, .seen 0 0, .ret 0 (.entry 0 true),
      .call 1 (.loadOrStore 1 8 5), .mk 1 1 8 102000000 5, .tau 1, .clock 1 102000000, .seen 1 0, .ret 1 (.entry 0 true)] := by rfl

end Verif.SyncCache
