import Verif.SyncCache.Spec
import Mathlib.Tactic.NormNum
import Mathlib.Data.List.Induction
/-!
# Expirations as 64 bit integers (C127)

`Entry.expiration` is an `int64` (item.go:10), and so are the results of `UnixMilli` and `Milliseconds`; the model has integers.
Here is when that makes no difference, and that it can.
-/
namespace Verif.SyncCache
variable {K V : Type}

/-- What is stored for `x` in an `int64`: Go drops the bits that do not fit. -/
def int64 (x : Int) : Int := Int.bmod x (2 ^ 64)

/-- An `int64`. -/
def Is64 (x : Int) : Prop := -2 ^ 63 ≤ x ∧ x < 2 ^ 63
instance (x : Int) : Decidable (Is64 x) := inferInstanceAs (Decidable (_ ∧ _))

/-- `time.Time.UnixMilli`: `t.unixSec()*1e3 + int64(t.nsec())/1e6`, for a time given in nanoseconds since 1970 (a `Time` can be later than an
`int64` of those can say: its seconds are an `int64`). -/
def unixMilli (t : Int) : Int := int64 (int64 (t / 1000000000 * 1000) + t % 1000000000 / 1000000)

/-- An entry's expiration, as an `int64`, after an event: item.go:15, 29, 33. -/
def Ev.onExp64 (a : Nat) (x : Int) : Ev K V → Int
  | .mk _ a' _ now d => if a' = a then unixMilli (now + d) else x
  | .addExp _ a' d => if a' = a then int64 (x + msd d) else x
  | .setExp _ a' t => if a' = a then unixMilli t else x
  | _ => x

/-- An entry's expiration, as an `int64`, after the events. -/
def exp64 (tr : List (Ev K V)) (a : Nat) : Int := tr.foldl (fun x e => e.onExp64 a x) 0

/-- `IsExpired` at time `now`: item.go:24-26. -/
def isExpired64 (tr : List (Ev K V)) (a : Nat) (now : Int) : Bool := decide (unixMilli now > exp64 tr a)

/-! ## Times -/

theorem int64_eq {x : Int} (h : Is64 x) : int64 x = x := by
  obtain ⟨h1, h2⟩ := h
  simp only [int64]
  rw [Int.bmod_def]
  norm_num at h1 h2 ⊢
  split <;> omega

theorem int64_is (x : Int) : Is64 (int64 x) := by
  simp only [int64, Is64]
  rw [Int.bmod_def]
  norm_num
  split <;> omega

theorem int64_add (x y : Int) : int64 (int64 x + y) = int64 (x + y) := by simp [int64]

theorem unixMilli_eq (t : Int) : unixMilli t = int64 (ms t) := by
  rw [unixMilli, int64_add]
  congr 1
  simp only [ms]; omega

/-- Times within 292 million years of 1970. -/
theorem unixMilli_ms {t : Int} (h : Is64 (ms t)) : unixMilli t = ms t := by rw [unixMilli_eq, int64_eq h]

/-! ## Entries -/

/-- How often `AddExpiration` was called on entry `a`. -/
def adds (tr : List (Ev K V)) (a : Nat) : Nat := tr.countP fun e => match e with | .addExp _ a' _ => a' == a | _ => false

/-- What can be expected of clock and arguments: the clock is between 1970 and 2262 (where `UnixNano` is defined), durations are `int64`s,
and times passed to `SetExpiration` are between 1678 and 2262. -/
def Ev.Sane : Ev K V → Prop
  | .mk _ _ _ now d => 0 ≤ now ∧ now < 2 ^ 63 ∧ Is64 d
  | .addExp _ _ d => Is64 d
  | .setExp _ _ t => Is64 t
  | _ => True

theorem exp_snoc (tr : List (Ev K V)) (e : Ev K V) (a : Nat) : expOf (tr ++ [e]) a = e.onExp a (expOf tr a) := by simp [expOf]
theorem exp64_snoc (tr : List (Ev K V)) (e : Ev K V) (a : Nat) : exp64 (tr ++ [e]) a = e.onExp64 a (exp64 tr a) := by simp [exp64]
theorem adds_snoc (tr : List (Ev K V)) (e : Ev K V) (a : Nat) :
    adds (tr ++ [e]) a = adds tr a + (match e with | .addExp _ a' _ => if a' = a then 1 else 0 | _ => 0) := by
  simp only [adds, List.countP_append, List.countP_singleton]
  cases e <;> simp

theorem msd_bound {d : Int} (h : Is64 d) : -9223372036854 ≤ msd d ∧ msd d ≤ 9223372036854 := by
  obtain ⟨h1, h2⟩ := h
  norm_num at h1 h2
  simp only [msd]
  by_cases hd : 0 ≤ d
  · rw [Int.tdiv_eq_ediv_of_nonneg hd]; omega
  · obtain ⟨e, rfl⟩ : ∃ e, d = -e := ⟨-d, by omega⟩
    rw [Int.neg_tdiv, Int.tdiv_eq_ediv_of_nonneg (by omega)]; omega

theorem exp_bound (a : Nat) : ∀ tr : List (Ev K V), (∀ e ∈ tr, e.Sane) →
    -(9223372036855 * (adds tr a + 2 : Int)) ≤ expOf tr a ∧ expOf tr a ≤ 9223372036855 * (adds tr a + 2 : Int) := by
  intro tr
  induction tr using List.reverseRecOn with
  | nil => intro _; simp [expOf, adds]
  | append_singleton tr e ih =>
    intro h
    have := ih fun e he => h e (List.mem_append_left _ he)
    have hs := h e (by simp)
    rw [exp_snoc, adds_snoc]
    cases e with
    | mk i a' v now d =>
      simp only [Ev.onExp, Nat.add_zero]
      split
      · obtain ⟨h1, h2, h3, h4⟩ := hs
        norm_num at h1 h2 h3 h4
        simp only [ms]
        constructor <;> omega
      · exact this
    | addExp i a' d =>
      simp only [Ev.onExp]
      have hb := msd_bound hs
      split
      · push_cast; omega
      · simpa using this
    | setExp i a' t =>
      simp only [Ev.onExp, Nat.add_zero]
      split
      · obtain ⟨h3, h4⟩ := hs
        norm_num at h3 h4
        simp only [ms]
        constructor <;> omega
      · exact this
    | _ => simpa only [Ev.onExp, Nat.add_zero] using this

theorem exp64_congr (a : Nat) : ∀ tr : List (Ev K V), exp64 tr a = int64 (expOf tr a) := by
  intro tr
  induction tr using List.reverseRecOn with
  | nil => rfl
  | append_singleton tr e ih =>
    rw [exp_snoc, exp64_snoc, ih]
    cases e with
    | mk i a' v now d => simp only [Ev.onExp, Ev.onExp64]; split <;> simp [unixMilli_eq]
    | addExp i a' d => simp only [Ev.onExp, Ev.onExp64]; split <;> simp [int64_add]
    | setExp i a' t => simp only [Ev.onExp, Ev.onExp64]; split <;> simp [unixMilli_eq]
    | _ => rfl

/-- C127: the expiration of an entry is the exact one, modulo 2^64, whatever was done to it. -/
theorem C127_exact (tr : List (Ev K V)) (a : Nat) (h : Is64 (expOf tr a)) : exp64 tr a = expOf tr a := by
  rw [exp64_congr, int64_eq h]

/-- C127, what holds: with the clock and the times passed to `SetExpiration` before the year 2262, an entry made by `NewEntry` with any
duration, and then changed by up to 999997 calls of `AddExpiration` with any durations and any number of calls of `SetExpiration`, has
the exact expiration, and `IsExpired` says whether it is past. -/
theorem C127_partial (tr : List (Ev K V)) (a : Nat) (hs : ∀ e ∈ tr, e.Sane) (hn : adds tr a ≤ 999997) :
    exp64 tr a = expOf tr a ∧ ∀ now, Is64 (ms now) → (isExpired64 tr a now = true ↔ expOf tr a < ms now) := by
  have hb := exp_bound a tr hs
  have h : Is64 (expOf tr a) := by
    constructor
    · norm_num; omega
    · norm_num; omega
  refine ⟨C127_exact tr a h, fun now hnow => ?_⟩
  simp only [isExpired64, decide_eq_true_eq, gt_iff_lt, unixMilli_ms hnow, C127_exact tr a h]

/-- What one would like: `SetExpiration` with a time in the future makes an entry that is not expired; `AddExpiration` with a duration
that is not negative does not make an entry expire. -/
def C127_statement : Prop :=
  ∀ (tr : List (Ev Nat Nat)) (i a : Nat) (now : Int), Is64 now →
    (∀ t, now ≤ t → Is64 (t / 1000000000) → isExpired64 (tr ++ [.setExp i a t]) a now = false) ∧
    (∀ d, 0 ≤ d → Is64 d → isExpired64 tr a now = false → isExpired64 (tr ++ [.addExp i a d]) a now = false)

/-- `time.Unix(1<<60, 0)`. -/
def far : Int := 2 ^ 60 * 1000000000

/-- C127 is false: after `SetExpiration(time.Unix(1<<60, 0))` the entry is expired. -/
theorem C127_false : ¬ C127_statement := by
  intro h
  have := (h [] 0 0 1700000000000000000 (by decide)).1 far (by decide) (by decide)
  revert this
  decide +kernel

/-- The other half is false, too: an entry that is to expire as late as can be, and a millisecond more. -/
theorem C127_false_add : ∃ (tr : List (Ev Nat Nat)) (now : Int), Is64 now ∧ isExpired64 tr 0 now = false ∧
    isExpired64 (tr ++ [.addExp 0 0 1000000]) 0 now = true :=
  ⟨[.setExp 0 0 ((2 ^ 63 - 1) * 1000000)], 1700000000000000000, by decide, by decide +kernel, by decide +kernel⟩

/-- An entry for an hour, then two hours more, minus a second. -/
def wrapTr : List (Ev Nat Nat) :=
  [.mk 0 0 7 1700000000000000000 3600000000000, .addExp 1 0 7200000000000, .addExp 0 0 (-1000000000)]
example : exp64 wrapTr 0 = 1700010799000 ∧ isExpired64 wrapTr 0 1700010799000999999 = false ∧ isExpired64 wrapTr 0 1700010799001000000 = true := by
  decide +kernel
example : ∀ e ∈ wrapTr, e.Sane := by simp [wrapTr, Ev.Sane, Is64]
end Verif.SyncCache
