import Verif.SyncCache.Hist
/-!
# Why entries are removed, passed to the user, put; what calls return
-/
namespace Verif.SyncCache
open Verif.Refresh (get_snoc get_lt get_keep get_new)
variable {K V : Type} [DecidableEq K]
variable {c : Cfg V} {tr : List (Ev K V)} {hist : List (Map K)} {s s' : State K V} {e : Ev K V} {i j p n m q z : Nat} {op : Op K V} {k k' : K} {a : Nat}
  {r : Res V} {P : Ev K V → Prop}

theorem CallAt.cur {p' : Nat} {op' : Op K V} (h : CallAt tr i p op q) (h' : Cur (tr.take q) i p' op') : p' = p ∧ op' = op := by
  have h1 := get_take.1 h'.1
  have hp : p' = p := by
    rcases Nat.lt_trichotomy p p' with h2 | h2 | h2
    · exact absurd h1.2 (h.only p' op' h2 h1.1)
    · exact h2.symm
    · exact absurd (get_take.2 ⟨h.lt, h.at_⟩) (h'.2 p op h2)
  subst hp
  have := h.at_
  rw [h1.2] at this
  injection this with this
  injection this with _ this
  exact ⟨rfl, this⟩

/-- A step inside a call. -/
theorem Exec.inside (h : Exec c tr hist s) (hn : tr[n]? = some e) (hc : CallAt tr e.tid p op n) :
    ∃ s0 s1 hist', Exec c (tr.take n) hist' s0 ∧ Step c hist' s0 e.tid s1 e ∧
      (s0.pc e.tid ≠ .idle → Know c (tr.take n) e.tid p op (s0.pc e.tid)) := by
  obtain ⟨s0, inp, s1, h1, h2, -⟩ := h.at hn
  refine ⟨s0, s1, _, h1, step_Step h2, fun hi => ?_⟩
  obtain ⟨p', op', h3, h4⟩ := h1.know _ hi
  obtain ⟨rfl, rfl⟩ := hc.cur h3
  exact h4

/-- What a call returns. -/
theorem Exec.out (h : Exec c tr hist s) (hq : tr[q]? = some (.ret i r)) (hc : CallAt tr i p op q) : OpOut c (tr.take q) i p op r := by
  obtain ⟨s0, s1, hist', h1, h2, h3⟩ := h.inside hq hc
  replace h2 : Step c hist' s0 i s1 (.ret i r) := h2
  cases h2
  case ret hpc =>
    have := h3 (by show s0.pc i ≠ _; rw [hpc]; nofun)
    rw [show s0.pc (Ev.ret i r : Ev K V).tid = _ from hpc] at this
    exact this

/-- Why thread `i` may remove `a`, the entry for `k`, in its call at `p`. -/
def Reason (c : Cfg V) (tr : List (Ev K V)) (i p : Nat) (op : Op K V) (k : K) (a : Nat) : Prop :=
  op = .delete k ∨ op = .loadAndDelete k ∨ op = .compareAndDelete k a ∨ op = .clear ∨
  (∃ v w, op = .compareValueAndDelete k v ∧ Live tr i p k a ∧ Made tr a w ∧ c.eqv v w = some true) ∨
  Dead tr i p k a

theorem Exec.reason (h : Exec c tr hist s) (hn : tr[n]? = some (.del i k a)) (hc : CallAt tr i p op n) : Reason c (tr.take n) i p op k a := by
  obtain ⟨s0, s1, hist', h1, h2, h3⟩ := h.inside hn hc
  replace h3 : s0.pc i ≠ .idle → Know c (tr.take n) i p op (s0.pc i) := h3
  replace h2 : Step c hist' s0 i s1 (.del i k a) := h2
  cases h2
  case delSome hpc _ => rw [hpc] at h3; exact .inl (h3 nofun)
  case ladSome hpc _ => rw [hpc] at h3; exact .inr (.inl (h3 nofun))
  case cadDel aft hpc _ =>
    rw [hpc] at h3
    have h4 : CadK c (tr.take n) i p op k a aft := h3 nofun
    cases aft with
    | user => exact .inr (.inr (.inl h4))
    | loadExp => exact .inr (.inr (.inr (.inr (.inr h4.2))))
    | cvdExp => exact .inr (.inr (.inr (.inr (.inr h4.2.1))))
    | cvd => obtain ⟨v, w, b1, b2, _, b4, b5⟩ := h4; exact .inr (.inr (.inr (.inr (.inl ⟨v, w, b1, b2, b4, b5⟩))))
    | los k' v d a' =>
      obtain ⟨_, _, _, z, x, y, now, b1, b2, b3, b4, b5, b6, b7, b8, _⟩ := h4
      exact .inr (.inr (.inr (.inr (.inr ⟨z, x, y, now, b1, b2, b3, b4, b5, b6, b7, b8⟩))))
    | iter it =>
      rcases h4.2 with b | b
      · have := h4.1.ok
        rw [b] at this
        exact .inr (.inr (.inr (.inl this)))
      · exact .inr (.inr (.inr (.inr (.inr b))))
    | del => exact h4.elim
    | lad _ => exact h4.elim

/-- Why an entry is put. -/
theorem Exec.put_op (h : Exec c tr hist s) (hn : tr[n]? = some (.put i k a)) (hc : CallAt tr i p op n) :
    (∃ v d, op = .store k v d ∧ Mine (tr.take n) i p a v d) ∨
    ∃ v d, op = .loadOrStore k v d ∧ Mine (tr.take n) i p a v d ∧ content (tr.take n) k = none := by
  obtain ⟨s0, s1, hist', h1, h2, h3⟩ := h.inside hn hc
  replace h3 : s0.pc i ≠ .idle → Know c (tr.take n) i p op (s0.pc i) := h3
  replace h2 : Step c hist' s0 i s1 (.put i k a) := h2
  cases h2
  case stPut hpc => rw [hpc] at h3; exact .inl (h3 nofun)
  case losPut v d hpc hm => rw [hm] at h3; exact .inr ⟨v, d, (h3 nofun).1, (h3 nofun).2, by rw [← h1.glob.map]; exact hpc⟩

theorem Exec.wipe_op (h : Exec c tr hist s) (hn : tr[n]? = some (.wipe i)) (hc : CallAt tr i p op n) : op = .clear ∧ c.hasCb = false := by
  obtain ⟨s0, s1, hist', h1, h2, h3⟩ := h.inside hn hc
  replace h3 : s0.pc i ≠ .idle → Know c (tr.take n) i p op (s0.pc i) := h3
  replace h2 : Step c hist' s0 i s1 (.wipe i) := h2
  cases h2
  case clrWipe hpc hb => rw [hpc] at h3; exact ⟨(h3 nofun).1, hb⟩

theorem Exec.wipe_cb (h : Exec c tr hist s) (hn : tr[n]? = some (.wipe i)) : c.hasCb = false := by
  obtain ⟨s0, inp, s1, h1, h2, -⟩ := h.at hn
  have h3 : Step c _ s0 i s1 (.wipe i) := step_Step h2
  cases h3
  assumption

theorem Exec.yield_op (h : Exec c tr hist s) (hn : tr[n]? = some (.yield i k a)) (hc : CallAt tr i p op n) : op = .range ∧ Live (tr.take n) i p k a ∧
    ∀ (m : Nat) (a' : Nat), p < m → m < n → tr[m]? ≠ some (.yield i k a') := by
  obtain ⟨s0, s1, hist', h1, h2, h3⟩ := h.inside hn hc
  replace h3 : s0.pc i ≠ .idle → Know c (tr.take n) i p op (s0.pc i) := h3
  replace h2 : Step c hist' s0 i s1 (.yield i k a) := h2
  cases h2
  case fCall it hpc =>
    rw [hpc] at h3
    obtain ⟨b1, b2, b3⟩ := h3 nofun
    have := b3.ok
    rw [b1] at this
    exact ⟨this, b2, fun m a' hm hm' hc => b3.fresh m k a' hm (get_take.2 ⟨hm', hc⟩) (by simp)⟩

theorem Exec.clock_tick (h : Exec c tr hist s) {now : Int} (hn : tr[n]? = some (.clock i now)) (hc : CallAt tr i p .tick n) :
    ∃ z, p < z ∧ z ≤ n ∧ Verif.SyncCache.regOf (tr.take z) = true := by
  obtain ⟨s0, s1, hist', h1, h2, h3⟩ := h.inside hn hc
  replace h3 : s0.pc i ≠ .idle → Know c (tr.take n) i p .tick (s0.pc i) := h3
  replace h2 : Step c hist' s0 i s1 (.clock i now) := h2
  cases h2
  case chk st hpc =>
    rw [hpc] at h3
    have h4 := h3 nofun
    cases st
    case range it =>
      obtain ⟨b1, b2, b3⟩ := h4
      have := b3.ok
      rw [b1] at this
      cases this
    all_goals cases h4.1
  case trNow hpc =>
    rw [hpc] at h3
    obtain ⟨_, ⟨z, b1, b2, b3⟩, _⟩ := h3 nofun
    have hz : z ≤ n := Nat.le_trans b2 (by simp; omega)
    exact ⟨z, b1, hz, by rwa [List.take_take, Nat.min_eq_left hz] at b3⟩
  case ieNow hpc => rw [hpc] at h3; cases h3 nofun

/-- Changing at some point. -/
theorem change {P : Nat → Prop} {z1 z2 : Nat} (h1 : P z1) (h2 : ¬ P z2) (h : z1 ≤ z2) : ∃ n, z1 ≤ n ∧ n < z2 ∧ P n ∧ ¬ P (n + 1) := by
  induction z2 with
  | zero => exact absurd (by have : z1 = 0 := by omega
                             rwa [this] at h1) h2
  | succ z ih =>
    by_cases hz : P z
    · by_cases hzz : z1 ≤ z
      · exact ⟨z, hzz, by omega, hz, h2⟩
      · have : z1 = z + 1 := by omega
        subst this; exact absurd h1 h2
    · by_cases hzz : z1 ≤ z
      · obtain ⟨n, b1, b2, b3, b4⟩ := ih hz hzz
        exact ⟨n, b1, by omega, b3, b4⟩
      · have : z1 = z + 1 := by omega
        subst this; exact absurd h1 h2

/-- How an entry leaves. -/
theorem Exec.left (h : Exec c tr hist s) {z1 z2 : Nat} (h1 : content (tr.take z1) k = some a) (h2 : content (tr.take z2) k ≠ some a) (hz : z1 ≤ z2) :
    ∃ n i, z1 ≤ n ∧ n < z2 ∧ content (tr.take n) k = some a ∧
      (tr[n]? = some (.del i k a) ∨ tr[n]? = some (.wipe i) ∨ ∃ b, b ≠ a ∧ tr[n]? = some (.put i k b)) := by
  obtain ⟨n, b1, b2, b3, b4⟩ := change (P := fun z => content (tr.take z) k = some a) h1 h2 hz
  cases he : tr[n]? with
  | none =>
    have hle : tr.length ≤ n := List.getElem?_eq_none_iff.1 he
    rw [List.take_of_length_le (by omega)] at b4
    rw [List.take_of_length_le hle] at b3
    exact absurd b3 b4
  | some e =>
    rw [take_next he, content_snoc, b3] at b4
    refine ⟨n, e.tid, b1, b2, b3, ?_⟩
    cases e with
    | put j k' b =>
      by_cases hk : k' = k
      · subst hk; simp [Ev.onKey] at b4; exact .inr (.inr ⟨b, b4, he⟩)
      · simp [Ev.onKey, hk] at b4
    | del j k' b =>
      by_cases hk : k' = k
      · subst hk
        have := h.del_at he
        rw [b3] at this
        cases this
        exact .inl he
      · simp [Ev.onKey, hk] at b4
    | wipe j => exact .inr (.inl he)
    | _ => exact absurd rfl b4

end Verif.SyncCache
