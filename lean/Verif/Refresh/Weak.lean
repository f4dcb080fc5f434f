import Verif.Refresh.HB
import Verif.Refresh.Race
/-!
# `RefreshData` with plain reads that see any value the Go memory model allows (C158)

In `Model.lean` the plain reads of `last` and `lastErr` under the lock (refreshcache.go:108, 111) see the newest value, although the read of `last` is in a
race with `Clear` (C100).  Here such a read sees any value that has been stored and not, as far as happens-before goes, been overwritten.
-/
namespace Verif.Refresh.Weak
open HB
variable {T E F A : Type}

/-! ## The machine -/

/-- The plain reads: refreshcache.go:108 (`last`, up to twice), 111 (`lastErr`). -/
def plain : PC T E F A → Option Fld
  | .lLast _ _ | .lNow _ _ | .lChk _ _ _ => some .last
  | .lErrChk _ _ _ => some .lastErr
  | _ => none

/-- The field as a place of `HB.lean`. -/
def place : Fld → Place
  | .last => .last
  | .lastErr => .lastErr

/-- Goroutine `i`, if it makes a plain read of the field `x` as the next event, may see `v`: the initial 0 or the value of a store, unless a later store happens
before the read. -/
def Visible (ls : List Label) (ss : List (State T E F A)) (i : Nat) (x : Fld) (v : Int) : Prop :=
  (v = 0 ∧ ∀ w b, ls[w]? = some b → b.rel = some (place x) → ¬ Before (ls ++ [⟨i, none, none⟩]) w ls.length) ∨
  ∃ w b sw, ls[w]? = some b ∧ b.rel = some (place x) ∧ ss[w]? = some sw ∧ v = sw.fld x ∧
    ∀ w' b', w < w' → ls[w']? = some b' → b'.rel = some (place x) → ¬ Before (ls ++ [⟨i, none, none⟩]) w' ls.length

/-- A step of goroutine `i` after `tr` and `ss`: that of `Model.lean`, but a plain read is made with any visible value in the field. -/
inductive WStep (c : Cfg T) (rf : F) (tr : List (Ev T E F A)) (ss : List (State T E F A)) (s : State T E F A) (i : Nat) (inp : In T E F A) :
    State T E F A → Ev T E F A → Prop where
  | run {s' e} : plain (s.pc i) = none → step c s i inp = some (s', e) → WStep c rf tr ss s i inp s' e
  | see {x v s' e} : plain (s.pc i) = some x → Visible (labels c rf tr ss) ss i x v → step c (s.setFld x v) i inp = some (s', e) →
      WStep c rf tr ss s i inp (s'.setFld x (s.fld x)) e

/-- The executions. -/
inductive WExec (c : Cfg T) (rf : F) : List (Ev T E F A) → List (State T E F A) → State T E F A → Prop where
  | nil : WExec c rf [] [] (init c rf)
  | snoc {tr ss s i inp s' e} : WExec c rf tr ss s → WStep c rf tr ss s i inp s' e → WExec c rf (tr ++ [e]) (ss ++ [s']) s'

variable {c : Cfg T} {rf : F} {tr : List (Ev T E F A)} {ss : List (State T E F A)} {i j : Nat} {ls : List Label} {x : Fld} {v : Int}
  {s s' s1 : State T E F A} {e : Ev T E F A} {inp : In T E F A} {op : Op F A}

/-! ## Steps -/

theorem plain_crit (h : plain (s.pc i) = some x) : (s.pc i).crit := by
  cases hpc : s.pc i <;> rw [hpc] at h <;> first | (cases h; done) | trivial
theorem plain_acq (h : plain (s.pc i) = some x) : acq (s.pc i) = none ∧ rel (s.pc i) = none := by
  cases hpc : s.pc i <;> rw [hpc] at h <;> first | (cases h; done) | exact ⟨rfl, rfl⟩

/-- What a plain read changes: where its goroutine goes on. -/
theorem see_step (h : plain (s.pc i) = some x) (h2 : step c (s.setFld x v) i inp = some (s1, e)) :
    ∃ pc', s1.setFld x (s.fld x) = s.go i pc' ∧ pc'.crit ∧ ((e = .tau i) ∨ ∃ t, e = .clock i t) := by
  have hp : (s.setFld x v).pc = s.pc := by cases x <;> rfl
  have key : ∀ pc', ((s.setFld x v).go i pc').setFld x (s.fld x) = s.go i pc' := by
    intro pc'; cases x <;> rfl
  cases hpc : s.pc i <;> rw [hpc] at h <;> first | (cases h; done) | skip
  all_goals cases inp <;> simp only [step, hp, hpc, reduceCtorEq, Option.some.injEq, Prod.mk.injEq] at h2
  all_goals obtain ⟨rfl, rfl⟩ := h2
  all_goals refine ⟨_, key _, ?_, ?_⟩
  all_goals first
    | trivial
    | exact .inl rfl
    | exact .inr ⟨_, rfl⟩
    | (split <;> first | trivial | exact lNext_crit)

theorem WStep.tid (h : WStep c rf tr ss s i inp s' e) : e.tid = i := by
  cases h with
  | run _ h => exact step_tid h
  | see h1 _ h2 =>
    obtain ⟨pc', -, -, rfl | ⟨t, rfl⟩⟩ := see_step h1 h2 <;> rfl

theorem WStep.other (h : WStep c rf tr ss s i inp s' e) {j : Nat} (hj : j ≠ i) : s'.pc j = s.pc j := by
  cases h with
  | run _ h => exact step_other h hj
  | see h1 _ h2 =>
    obtain ⟨pc', h3, -⟩ := see_step h1 h2
    rw [h3]
    simp [State.go, Function.update_of_ne hj]

theorem WStep.locks (h : WStep c rf tr ss s i inp s' e) :
    (s'.lock = s.lock ∧ ((s'.pc i).crit ↔ (s.pc i).crit) ∧ ¬ e.isLocked ∧ ((e.isStart ∨ e.isFinish) → (s.pc i).crit)) ∨
    (s.lock = none ∧ s'.lock = some i ∧ (s'.pc i).crit ∧ e = .locked i ∧ acq (s.pc i) = some .lock) ∨
    ((s.pc i).crit ∧ s'.lock = none ∧ ¬ (s'.pc i).crit ∧ ¬ e.isLocked ∧ ¬ e.isStart ∧ ¬ e.isFinish ∧ rel (s.pc i) = some .lock) := by
  cases h with
  | run _ h =>
    rcases step_lock h with h1 | ⟨h1, h2, h3, rfl⟩ | ⟨h1, h2, h3, h4, h5, h6⟩
    · exact .inl h1
    · exact .inr (.inl ⟨h1, h2, h3, rfl, (step_locked h).1⟩)
    · exact .inr (.inr ⟨h1, h2, h3, h4, h5, h6, step_unlocks h h1 h3⟩)
  | see h1 _ h2 =>
    obtain ⟨pc', h3, h4, h5⟩ := see_step h1 h2
    left
    rw [h3]
    refine ⟨rfl, iff_of_true (by simpa [State.go] using h4) (plain_crit h1), ?_, fun _ => plain_crit h1⟩
    rcases h5 with rfl | ⟨t, rfl⟩ <;> exact fun h => h

theorem WStep.data (h : WStep c rf tr ss s i inp s' e) : s'.data = s.data ∨ ∃ v r, s.pc i = .wData v r ∧ s'.data = v := by
  cases h with
  | run _ h => exact step_data h
  | see h1 _ h2 =>
    obtain ⟨pc', h3, -⟩ := see_step h1 h2
    rw [h3]
    exact .inl rfl

theorem WStep.err (h : WStep c rf tr ss s i inp s' e) : s'.err = s.err ∨ ∃ er r, s.pc i = .wErr er r ∧ s'.err = some er := by
  cases h with
  | run _ h => exact step_err h
  | see h1 _ h2 =>
    obtain ⟨pc', h3, -⟩ := see_step h1 h2
    rw [h3]
    exact .inl rfl

/-- A field changes only in a store to it. -/
theorem WStep.fld (h : WStep c rf tr ss s i inp s' e) (x : Fld) : rel (s.pc i) = some (place x) ∨ s'.fld x = s.fld x := by
  cases h with
  | run _ h =>
    cases x with
    | last =>
      cases hpc : s.pc i <;> first | exact .inl rfl | right
      all_goals
        rcases step_last h with ⟨h1, -⟩ | ⟨t, r, h1, -⟩ | ⟨r, h1, -⟩ | ⟨h1, -⟩
        · exact h1
        · rw [hpc] at h1; cases h1
        · rw [hpc] at h1; cases h1
        · subst h1
          have := step_cleared h
          rw [hpc] at this
          cases this
    | lastErr =>
      cases hpc : s.pc i <;> first | exact .inl rfl | right
      all_goals
        rcases step_lastErr h with h1 | ⟨r, h1, -⟩ | ⟨t, r, h1, -⟩
        · exact h1
        · rw [hpc] at h1; cases h1
        · rw [hpc] at h1; cases h1
  | see h1 _ h2 =>
    obtain ⟨pc', h3, -⟩ := see_step h1 h2
    rw [h3]
    right
    cases x <;> rfl

/-- A store to `last` or `lastErr` is made under the lock, or it is that of `Clear`, which stores 0. -/
theorem WStep.stores (h : WStep c rf tr ss s i inp s' e) (hr : rel (s.pc i) = some (place x)) :
    (s.pc i).crit ∨ (x = .last ∧ s'.last = 0 ∧ e = .cleared i) := by
  cases hpc : s.pc i <;> rw [hpc] at hr <;> cases x <;> first | (cases hr; done) | exact .inl trivial | skip
  cases h with
  | run _ h =>
    cases inp <;> simp only [step, hpc, reduceCtorEq, Option.some.injEq, Prod.mk.injEq] at h
    obtain ⟨rfl, rfl⟩ := h
    exact .inr ⟨rfl, rfl, rfl⟩
  | see h1 _ h2 => rw [hpc] at h1; cases h1

/-- An event of `Clear` is a store of 0. -/
theorem WStep.cleared (h : WStep c rf tr ss s i inp s' (.cleared j)) : rel (s.pc i) = some .last ∧ s'.last = 0 := by
  cases h with
  | run _ h =>
    refine ⟨step_cleared h, ?_⟩
    rcases step_last h with ⟨-, h1⟩ | ⟨t, r, -, -, -, h1⟩ | ⟨r, -, -, -, h1⟩ | ⟨-, h1⟩
    · exact absurd rfl (h1 j)
    · cases h1
    · cases h1
    · exact h1
  | see h1 _ h2 =>
    obtain ⟨pc', -, -, h | ⟨t, h⟩⟩ := see_step h1 h2 <;> cases h

/-! ## Executions -/

theorem WExec.len (h : WExec c rf tr ss s) : tr.length = ss.length := by
  induction h with
  | nil => rfl
  | snoc _ _ ih => simp [ih]

theorem WExec.last (h : WExec c rf tr ss s) : (init c rf :: ss)[tr.length]? = some s := by
  cases h with
  | nil => rfl
  | snoc h1 h2 =>
    have := h1.len
    simp [this]

theorem WExec.labels_len (h : WExec c rf tr ss s) : (labels c rf tr ss).length = tr.length := by
  have := h.len
  simp [labels, this]

theorem WExec.labels_snoc (h : WExec c rf tr ss s) (e : Ev T E F A) (s' : State T E F A) :
    labels c rf (tr ++ [e]) (ss ++ [s']) = labels c rf tr ss ++ [label s e] := by
  have hl := h.len
  have h1 : init c rf :: ss = (init c rf :: ss).take tr.length ++ [s] := by
    have := h.last
    rw [← List.take_append_drop tr.length (init c rf :: ss)]
    congr 1
    · simp
    · rw [List.drop_eq_getElem?_toList_append, this]
      simp [hl]
  have h2 : ((init c rf :: ss).take tr.length).length = tr.length := by simp; omega
  unfold labels
  have h3 : List.zipWith label ((init c rf :: ss).take tr.length ++ [s]) tr = List.zipWith label ((init c rf :: ss).take tr.length) tr := by
    have := List.zipWith_append (f := label) (l₁ := (init c rf :: ss).take tr.length) (l₁' := [s]) (l₂ := tr) (l₂' := []) h2
    simpa using this
  rw [← h1] at h3
  rw [h3, ← List.cons_append, h1, List.append_assoc, List.zipWith_append h2, ← h1]
  simp

/-- The step at a place of the execution. -/
theorem WExec.at (h : WExec c rf tr ss s) {n : Nat} (hn : tr[n]? = some e) :
    ∃ s0 inp s1, WExec c rf (tr.take n) (ss.take n) s0 ∧ WStep c rf (tr.take n) (ss.take n) s0 e.tid inp s1 e ∧ ss[n]? = some s1 ∧
      (labels c rf tr ss)[n]? = some (label s0 e) := by
  induction h with
  | nil => simp at hn
  | snoc h1 h2 ih =>
    rename_i tr ss s i inp s' e'
    have hl := h1.len
    rw [h1.labels_snoc]
    rcases get_snoc.1 hn with h3 | ⟨rfl, rfl⟩
    · have := get_lt h3
      obtain ⟨s0, inp0, s1, a, b, d, g⟩ := ih h3
      refine ⟨s0, inp0, s1, ?_, ?_, get_keep d, get_keep g⟩
      · rw [List.take_append_of_le_length (by omega), List.take_append_of_le_length (by omega)]
        exact a
      · rw [List.take_append_of_le_length (by omega), List.take_append_of_le_length (by omega)]
        exact b
    · refine ⟨s, inp, s', ?_, ?_, ?_, ?_⟩
      · rw [List.take_left, hl, List.take_left]; exact h1
      · rw [h2.tid, List.take_left, hl, List.take_left]; exact h2
      · rw [hl]; exact get_new
      · rw [← h1.labels_len]; exact get_new

/-! ## The lock -/

theorem WExec.lock (h : WExec c rf tr ss s) : ∀ i, s.lock = some i ↔ (s.pc i).crit := by
  induction h with
  | nil => exact fun i => ⟨nofun, fun h => h.elim⟩
  | snoc h1 h2 ih =>
    rename_i tr ss s i inp s' e
    intro j
    rcases h2.locks with ⟨a, b, -⟩ | ⟨a, b, d, -⟩ | ⟨a, b, d, -⟩
    · rw [a, ih j]
      by_cases hj : j = i
      · subst hj; exact b.symm
      · rw [h2.other hj]
    · rw [b]
      by_cases hj : j = i
      · subst hj; exact ⟨fun _ => d, fun _ => rfl⟩
      · rw [h2.other hj]
        constructor
        · intro h; injection h with h; exact absurd h.symm hj
        · intro h; rw [← ih j, a] at h; cases h
    · rw [b]
      by_cases hj : j = i
      · subst hj; exact ⟨nofun, fun h => absurd h d⟩
      · rw [h2.other hj]
        refine ⟨nofun, fun h => ?_⟩
        rw [← ih j] at h
        rw [← ih i, h] at a
        injection a with a
        exact absurd a hj

theorem WExec.alone (h : WExec c rf tr ss s) (hi : (s.pc i).crit) (hj : (s.pc j).crit) : i = j := by
  have := (h.lock i).2 hi
  rw [(h.lock j).2 hj] at this
  injection this with this
  exact this.symm

theorem serial (h : WExec c rf tr ss s) : Serial c rf tr ss (labels c rf tr ss) s := by
  induction h with
  | nil =>
    have : ∀ n, ¬ InLock c rf ([] : List (Ev T E F A)) [] n := by
      rintro n ⟨s0, e, -, h, -⟩
      simp at h
    exact ⟨fun _ n h => absurd h (this n), fun _ _ n h => absurd h (this n), fun n _ _ h => absurd h (this n)⟩
  | snoc h1 h2 ih =>
    rename_i tr ss s i inp s' e
    rw [h1.labels_snoc]
    have hl : (labels c rf tr ss).length = tr.length := h1.labels_len
    have ht := h2.tid
    have hend := h1.last
    have hll := h1.len
    have locks := h2.locks
    clear h2
    generalize labels c rf tr ss = ls at ih hl ⊢
    have hlt : (label s e).tid = i := ht
    have hac : (label s e).acq = acq (s.pc i) := by simp [label, ht]
    have hre : (label s e).rel = rel (s.pc i) := by simp [label, ht]
    have hin : ∀ n, InLock c rf (tr ++ [e]) (ss ++ [s']) n → InLock c rf tr ss n ∨ n = ls.length ∧ (s.pc i).crit := by
      rintro n ⟨s0, e', a1, a2, a3⟩
      rw [← List.cons_append] at a1
      rcases get_snoc.1 a2 with a2 | ⟨rfl, rfl⟩
      · rcases get_snoc.1 a1 with a1 | ⟨rfl, -⟩
        · exact .inl ⟨s0, e', a1, a2, a3⟩
        · have := get_lt a2
          simp at this; omega
      · rcases get_snoc.1 a1 with a1 | ⟨a1, -⟩
        · rw [hend] at a1
          cases a1
          rw [ht] at a3
          exact .inr ⟨hl.symm, a3⟩
        · simp at a1; omega
    have hlen : ∀ n, InLock c rf tr ss n → n < tr.length := by
      rintro n ⟨_, _, -, a, -⟩
      exact get_lt a
    have mine : (s.pc i).crit → ∀ n, InLock c rf tr ss n → Before (ls ++ [label s e]) n ls.length := by
      intro hc n hn
      exact Knows.next (by rw [hlt]; exact ih.taken i ((h1.lock i).2 hc) n hn)
    refine ⟨fun hf n hn => ?_, fun j hj n hn => ?_, fun n m hnm hn hm => ?_⟩
    · rcases locks with ⟨a, b, -, -⟩ | ⟨-, b, -⟩ | ⟨a, -, b, -, -, -, g⟩
      · rw [a] at hf
        have hnc : ¬ (s.pc i).crit := fun hc => by
          have := (h1.lock i).2 hc
          rw [hf] at this; cases this
        rcases hin n hn with hn' | ⟨-, hn'⟩
        · refine (ih.free hf n hn').keep ?_
          rw [hre]
          intro hr
          obtain ⟨r, hr⟩ := rel_lock.1 hr
          exact hnc (by rw [hr]; trivial)
        · exact absurd hn' hnc
      · rw [b] at hf; cases hf
      · refine Left.new ?_ (hre.trans g)
        rcases hin n hn with hn' | ⟨hn', -⟩
        · exact .inr (mine a n hn')
        · exact .inl hn'
    · rcases locks with ⟨a, b, -, -⟩ | ⟨a, b, -, rfl, g⟩ | ⟨-, b, -⟩
      · rw [a] at hj
        rcases hin n hn with hn' | ⟨hn', hc⟩
        · exact (ih.taken j hj n hn').keep
        · have := (h1.lock i).2 hc
          rw [hj] at this
          cases this
          rw [← hlt]
          exact Knows.new (.inl hn')
      · rw [b] at hj
        cases hj
        rcases hin n hn with hn' | ⟨-, hn'⟩
        · rw [← hlt]
          exact Knows.new (.inr ((ih.free a n hn').load (hac.trans g)))
        · have := (h1.lock i).2 hn'
          rw [a] at this; cases this
      · rw [b] at hj; cases hj
    · rcases hin m hm with hm' | ⟨rfl, hm'⟩
      · rcases hin n hn with hn' | ⟨rfl, -⟩
        · exact (ih.order n m hnm hn' hm').keep
        · have := hlen m hm'; omega
      · rcases hin n hn with hn' | ⟨rfl, -⟩
        · exact mine hm' n hn'
        · omega

theorem WExec.inLock (h : WExec c rf tr ss s) {n : Nat} (hn : tr[n]? = some e) (he : e.isStart ∨ e.isFinish) : InLock c rf tr ss n := by
  obtain ⟨s0, inp, s1, h1, h2, -⟩ := h.at hn
  have hl := get_lt hn
  have hs := h1.last
  rw [List.length_take, Nat.min_eq_left (by omega)] at hs
  refine ⟨s0, e, ?_, hn, ?_⟩
  · rcases n with _ | n
    · simpa using hs
    · rw [List.getElem?_cons_succ] at hs ⊢
      exact (get_take.1 hs).2
  · rcases h2.locks with ⟨-, -, -, a⟩ | ⟨-, -, -, a, -⟩ | ⟨a, -⟩
    · exact a he
    · rw [a] at he
      rcases he with he | he <;> cases he
    · exact a

/-- **C158**: the beginnings and ends of runs of refresh functions happen before each other in the order in which they occur, here too. -/
theorem C158_serial (h : WExec c rf tr ss s) {n m : Nat} {e e' : Ev T E F A} (hn : tr[n]? = some e) (he : e.isStart ∨ e.isFinish)
    (hm : tr[m]? = some e') (he' : e'.isStart ∨ e'.isFinish) (hnm : n < m) : Before (labels c rf tr ss) n m :=
  (serial h).order n m hnm (h.inLock hn he) (h.inLock hm he')

theorem WStep.start {f : F} {a : A} {old : T} (h : WStep c rf tr ss s i inp s' (.start j f a old)) : j = i ∧ (∃ f a, s.pc i = .old f a) ∧ s'.pc i = .running := by
  cases h with
  | run _ h =>
    cases hpc : s.pc i <;> cases inp <;> simp only [step, hpc, reduceCtorEq, Option.some.injEq, Prod.mk.injEq] at h
    case old.go =>
      obtain ⟨rfl, h⟩ := h
      cases h
      exact ⟨rfl, ⟨_, _, rfl⟩, by simp [State.go]⟩
    all_goals first
      | (obtain ⟨rfl, h⟩ := h; cases h; done)
      | (split at h <;> first | (cases h; done) | (simp only [Option.some.injEq, Prod.mk.injEq] at h; obtain ⟨rfl, h⟩ := h; cases h; done))
  | see h1 _ h2 =>
    obtain ⟨pc', -, -, h | ⟨t, h⟩⟩ := see_step h1 h2 <;> cases h

theorem WStep.running (h : WStep c rf tr ss s i inp s' e) (hp : s.pc i = .running) : ∃ o, e = .finish i o := by
  cases h with
  | run _ h =>
    cases inp <;> simp only [step, hp, reduceCtorEq, Option.some.injEq, Prod.mk.injEq] at h
    obtain ⟨-, rfl⟩ := h
    exact ⟨_, rfl⟩
  | see h1 _ h2 => rw [hp] at h1; cases h1

theorem WExec.opened (h : WExec c rf tr ss s) : ∀ (z i : Nat) (f : F) (a : A) (old : T), tr[z]? = some (.start i f a old) →
    (∃ n o, z < n ∧ tr[n]? = some (.finish i o)) ∨ s.pc i = .running := by
  induction h with
  | nil => intro z i f a old h; simp at h
  | snoc h1 h2 ih =>
    rename_i tr ss s i inp s' e
    intro z j f a old hz
    rcases get_snoc.1 hz with hz' | ⟨rfl, rfl⟩
    · rcases ih z j f a old hz' with ⟨n, o, h3, h4⟩ | h3
      · exact .inl ⟨n, o, h3, get_keep h4⟩
      · by_cases hj : j = i
        · subst hj
          obtain ⟨o, rfl⟩ := h2.running h3
          exact .inl ⟨tr.length, o, get_lt hz', get_new⟩
        · exact .inr (by rw [h2.other hj]; exact h3)
    · obtain ⟨rfl, -, h3⟩ := h2.start
      exact .inr h3

/-- **C158**: refresh functions do not overlap (C14), here too. -/
theorem C158_exclusive (h : WExec c rf tr ss s) {p q : Nat} {f f' : F} {a a' : A} {old old' : T} (hp : tr[p]? = some (.start i f a old))
    (hq : tr[q]? = some (.start j f' a' old')) (hlt : p < q) : ∃ n o, p < n ∧ n < q ∧ tr[n]? = some (.finish i o) := by
  obtain ⟨s0, inp, s1, h1, h2, -⟩ := h.at hq
  obtain ⟨-, ⟨f1, a1, h3⟩, -⟩ := h2.start
  have h3 : s0.pc j = .old f1 a1 := h3
  rcases h1.opened p i f a old (get_take.2 ⟨hlt, hp⟩) with ⟨n, o, h4, h5⟩ | h4
  · exact ⟨n, o, h4, (get_take.1 h5).1, (get_take.1 h5).2⟩
  · have := h1.alone (i := i) (j := j) (by rw [h4]; trivial) (by rw [h3]; trivial)
    rw [this, h3] at h4
    cases h4

/-! ## What plain reads see -/

/-- The field holds what the newest store has stored. -/
theorem WExec.newest (h : WExec c rf tr ss s) (x : Fld) :
    (s.fld x = 0 ∧ ∀ (w : Nat) (b : Label), (labels c rf tr ss)[w]? = some b → b.rel ≠ some (place x)) ∨
    ∃ (w : Nat) (b : Label) (sw : State T E F A), (labels c rf tr ss)[w]? = some b ∧ b.rel = some (place x) ∧ ss[w]? = some sw ∧ s.fld x = sw.fld x ∧
      ∀ (w' : Nat) (b' : Label), w < w' → (labels c rf tr ss)[w']? = some b' → b'.rel ≠ some (place x) := by
  induction h with
  | nil => exact .inl ⟨by cases x <;> rfl, fun w b h => by simp [labels] at h⟩
  | snoc h1 h2 ih =>
    rename_i tr ss s i inp s' e
    rw [h1.labels_snoc]
    have hl : (labels c rf tr ss).length = tr.length := h1.labels_len
    have hll := h1.len
    generalize labels c rf tr ss = ls at ih hl ⊢
    have hre : (label s e).rel = rel (s.pc i) := by simp [label, h2.tid]
    by_cases hr : rel (s.pc i) = some (place x)
    · refine .inr ⟨ls.length, _, s', get_new, hre.trans hr, by rw [hl, hll]; exact get_new, rfl, fun w' b' h3 h4 => ?_⟩
      have := get_lt h4
      simp at this; omega
    · have hf := (h2.fld x).resolve_left hr
      rw [hf]
      rcases ih with ⟨a, b⟩ | ⟨w, b, sw, a1, a2, a3, a4, a5⟩
      · refine .inl ⟨a, fun w d hd => ?_⟩
        rcases get_snoc.1 hd with hd | ⟨-, rfl⟩
        · exact b w d hd
        · rw [hre]; exact hr
      · refine .inr ⟨w, b, sw, get_keep a1, a2, get_keep a3, a4, fun w' d hw hd => ?_⟩
        rcases get_snoc.1 hd with hd | ⟨-, rfl⟩
        · exact a5 w' d hw hd
        · rw [hre]; exact hr

theorem setFld_same : s.setFld x (s.fld x) = s := by cases x <;> rfl

theorem see_same (h : plain (s.pc i) = some x) (h2 : step c s i inp = some (s1, e)) : s1.setFld x (s.fld x) = s1 := by
  have : s1.fld x = s.fld x := by
    cases hpc : s.pc i <;> rw [hpc] at h <;> first | (cases h; done) | skip
    all_goals cases inp <;> simp only [step, hpc, reduceCtorEq, Option.some.injEq, Prod.mk.injEq] at h2
    all_goals obtain ⟨rfl, rfl⟩ := h2
    all_goals cases x <;> rfl
  rw [← this]
  exact setFld_same

/-- **C158**: the executions of `Model.lean` are among these. -/
theorem C158_exec (h : Exec c rf tr ss s) : WExec c rf tr ss s := by
  induction h with
  | nil => exact .nil
  | snoc h1 h2 ih =>
    rename_i tr ss s i inp s' e
    cases hp : plain (s.pc i) with
    | none => exact .snoc ih (.run hp h2)
    | some x =>
      have hv : Visible (labels c rf tr ss) ss i x (s.fld x) := by
        rcases ih.newest x with ⟨a, b⟩ | ⟨w, b, sw, a1, a2, a3, a4, a5⟩
        · exact .inl ⟨a, fun w d hd hr => absurd hr (b w d hd)⟩
        · exact .inr ⟨w, b, sw, a1, a2, a3, a4, fun w' d hw hd hr => absurd hr (a5 w' d hw hd)⟩
      have := WStep.see (c := c) (rf := rf) hp hv (by rw [setFld_same]; exact h2)
      rw [see_same hp h2] at this
      exact .snoc ih this

/-- A store is made under the lock or by `Clear`. -/
theorem WExec.store_at (h : WExec c rf tr ss s) {w : Nat} {b : Label} (hw : (labels c rf tr ss)[w]? = some b) (hr : b.rel = some (place x)) :
    InLock c rf tr ss w ∨ (x = .last ∧ (∃ j, tr[w]? = some (.cleared j)) ∧ ∀ sw, ss[w]? = some sw → sw.last = 0) := by
  have hlt := get_lt hw
  rw [h.labels_len] at hlt
  obtain ⟨e, he⟩ : ∃ e, tr[w]? = some e := ⟨_, List.getElem?_eq_getElem hlt⟩
  obtain ⟨s0, inp, s1, a1, a2, a3, a4⟩ := h.at he
  rw [hw] at a4
  injection a4 with a4
  subst a4
  rcases a2.stores hr with h1 | ⟨h1, h2, h3⟩
  · left
    refine ⟨s0, e, ?_, he, h1⟩
    have hs := a1.last
    rw [List.length_take, Nat.min_eq_left (by omega)] at hs
    rcases w with _ | w
    · simpa using hs
    · rw [List.getElem?_cons_succ] at hs ⊢
      exact (get_take.1 hs).2
  · right
    refine ⟨h1, ⟨_, by rw [he, h3]⟩, fun sw hsw => ?_⟩
    rw [a3] at hsw
    cases hsw
    exact h2

/-- What is done under the lock happens before what its holder does next. -/
theorem WExec.before (h : WExec c rf tr ss s) (hc : (s.pc i).crit) {w : Nat} (hw : InLock c rf tr ss w) :
    Before (labels c rf tr ss ++ [⟨i, none, none⟩]) w (labels c rf tr ss).length :=
  Knows.next (a := ⟨i, none, none⟩) ((serial h).taken i ((h.lock i).2 hc) w hw)

/-- **C158**: the plain read of `lastErr` sees the newest value: there is no difference. -/
theorem C158_lastErr (h : WExec c rf tr ss s) (hp : plain (s.pc i) = some .lastErr) (hv : Visible (labels c rf tr ss) ss i .lastErr v) : v = s.lastErr := by
  have hb : ∀ (w : Nat) (b : Label), (labels c rf tr ss)[w]? = some b → b.rel = some (place .lastErr) → Before (labels c rf tr ss ++ [⟨i, none, none⟩]) w (labels c rf tr ss).length := by
    intro w b h1 h2
    rcases h.store_at h1 h2 with h3 | ⟨h3, -⟩
    · exact h.before (plain_crit hp) h3
    · cases h3
  rcases h.newest .lastErr with ⟨a, b⟩ | ⟨w, b, sw, a1, a2, a3, a4, a5⟩
  · rcases hv with ⟨rfl, -⟩ | ⟨w, b', sw, b1, b2, -⟩
    · exact a.symm
    · exact absurd b2 (b w b' b1)
  · rcases hv with ⟨-, hv⟩ | ⟨w', b', sw', b1, b2, b3, rfl, b5⟩
    · exact absurd (hb w b a1 a2) (hv w b a1 a2)
    · rcases Nat.lt_trichotomy w w' with h3 | h3 | h3
      · exact absurd b2 (a5 w' b' h3 b1)
      · subst h3
        rw [a3] at b3
        cases b3
        exact a4.symm
      · exact absurd (hb w b a1 a2) (b5 w b h3 a1 a2)

/-- **C158**: the plain read of `last` sees the newest value, or, if `Clear` has been called since, the time that was there before: what was last stored under the
lock, while all later stores are by `Clear` and do not happen before. -/
theorem C158_last (h : WExec c rf tr ss s) (hp : plain (s.pc i) = some .last) (hv : Visible (labels c rf tr ss) ss i .last v) :
    v = s.last ∨ (s.last = 0 ∧ ∃ (w : Nat) (b : Label) (sw : State T E F A), (labels c rf tr ss)[w]? = some b ∧ b.rel = some .last ∧ InLock c rf tr ss w ∧ ss[w]? = some sw ∧ v = sw.last ∧
      ∀ (w' : Nat) (b' : Label), w < w' → (labels c rf tr ss)[w']? = some b' → b'.rel = some .last → (∃ j, tr[w']? = some (.cleared j)) ∧
        ¬ Before (labels c rf tr ss ++ [⟨i, none, none⟩]) w' (labels c rf tr ss).length) := by
  have clr : ∀ (w : Nat) (b : Label), (labels c rf tr ss)[w]? = some b → b.rel = some .last → ¬ Before (labels c rf tr ss ++ [⟨i, none, none⟩]) w (labels c rf tr ss).length →
      (∃ j, tr[w]? = some (.cleared j)) ∧ ∀ sw, ss[w]? = some sw → sw.last = 0 := by
    intro w b h1 h2 h3
    rcases h.store_at (x := .last) h1 h2 with h4 | ⟨-, h4⟩
    · exact absurd (h.before (plain_crit hp) h4) h3
    · exact h4
  rcases h.newest .last with ⟨a, b⟩ | ⟨w, b, sw, a1, a2, a3, a4, a5⟩
  · rcases hv with ⟨rfl, -⟩ | ⟨w, b', sw, b1, b2, -⟩
    · exact .inl a.symm
    · exact absurd b2 (b w b' b1)
  · have a4 : s.last = sw.last := a4
    rcases hv with ⟨rfl, hv⟩ | ⟨w', b', sw', b1, b2, b3, b4, b5⟩
    · exact .inl (by rw [a4, (clr w b a1 a2 (hv w b a1 a2)).2 sw a3])
    · have b4 : v = sw'.last := b4
      rcases Nat.lt_trichotomy w w' with h3 | h3 | h3
      · exact absurd b2 (a5 w' b' h3 b1)
      · subst h3
        rw [a3] at b3
        cases b3
        exact .inl (by rw [b4, a4])
      · have h0 := (clr w b a1 a2 (b5 w b h3 a1 a2)).2 sw a3
        rcases h.store_at (x := .last) b1 b2 with h4 | ⟨-, -, h4⟩
        · exact .inr ⟨a4.trans h0, w', b', sw', b1, b2, h4, b3, b4, fun z d hz hd hr => ⟨(clr z d hd hr (b5 z d hz hd hr)).1, b5 z d hz hd hr⟩⟩
        · exact .inl (by rw [b4, a4, h0, h4 sw' b3])

/-- **C158**: without `Clear` there are no other executions than those of `Model.lean`, so all that has been proved of them holds. -/
theorem C158_noClear (h : WExec c rf tr ss s) (hc : ∀ k j : Nat, tr[k]? ≠ some (.cleared j)) : Exec c rf tr ss s := by
  induction h with
  | nil => exact .nil
  | snoc h1 h2 ih =>
    rename_i tr ss s i inp s' e
    have hc' : ∀ k j : Nat, tr[k]? ≠ some (.cleared j) := fun k j h => hc k j (get_keep h)
    specialize ih hc'
    cases h2 with
    | run _ h => exact .snoc ih h
    | see hp hv hs =>
      rename_i x v s'
      have : v = s.fld x := by
        cases x with
        | lastErr => exact C158_lastErr h1 hp hv
        | last =>
          rcases C158_last h1 hp hv with h3 | ⟨h3, w, b, sw, b1, b2, b3, b4, b5, b6⟩
          · exact h3
          · rcases h1.newest .last with ⟨a, b⟩ | ⟨w', b', sw', a1, a2, a3, a4, a5⟩
            · exact absurd b2 (b w _ b1)
            · rcases Nat.lt_trichotomy w w' with h4 | h4 | h4
              · obtain ⟨⟨j, hj⟩, -⟩ := b6 w' b' h4 a1 a2
                exact absurd hj (hc' _ _)
              · subst h4
                rw [a3] at b4
                cases b4
                exact b5.trans a4.symm
              · exact absurd b2 (a5 w b h4 b1)
      subst this
      rw [setFld_same] at hs
      rw [see_same hp hs]
      exact .snoc ih hs

/-! ## Where the time that a `Get` sees comes from -/

theorem WStep.finish {o : Outcome T E} (h : WStep c rf tr ss s i inp s' (.finish j o)) : j = i ∧ s.pc i = .running ∧ s' = s.go i (o.back c) := by
  cases h with
  | run _ h => exact step_finish h
  | see h1 _ h2 =>
    obtain ⟨pc', -, -, h | ⟨t, h⟩⟩ := see_step h1 h2 <;> cases h

theorem WStep.ret {r : Res T E} (h : WStep c rf tr ss s i inp s' (.ret j r)) : s.pc i = .done r := by
  cases h with
  | run _ h => exact (step_ret h).2
  | see h1 _ h2 =>
    obtain ⟨pc', -, -, h | ⟨t, h⟩⟩ := see_step h1 h2 <;> cases h

/-- The newest end of a refresh is that at `n`, by `i`, which has not returned since. -/
structure Fin (tr : List (Ev T E F A)) (i n : Nat) (o : Outcome T E) : Prop where
  at_ : tr[n]? = some (.finish i o)
  newest : ∀ n' j' o', n < n' → tr[n']? ≠ some (.finish j' o')
  quiet : ∀ y r, n < y → tr[y]? ≠ some (.ret i r)

/-- What is known in the deferred function of a success. -/
def Back (c : Cfg T) (tr : List (Ev T E F A)) (i : Nat) : PC T E F A → Prop
  | .wData v _ => ∃ n o, Fin tr i n o ∧ o.yield c.zero = some v ∧ ∀ (k : Nat) (t : Int), n < k → tr[k]? ≠ some (.clock i t)
  | .wNow _ => ∃ n o, Fin tr i n o ∧ (o.yield c.zero).isSome ∧ ∀ (k : Nat) (t : Int), n < k → tr[k]? ≠ some (.clock i t)
  | .wLast t _ => ∃ n o m, Fin tr i n o ∧ (o.yield c.zero).isSome ∧ Stamp tr i n m t
  | _ => True

theorem Fin.keep {n : Nat} {o : Outcome T E} (h : Fin tr i n o) (h1 : ∀ j' o', e ≠ .finish j' o') (h2 : ∀ r, e ≠ .ret i r) : Fin (tr ++ [e]) i n o := by
  refine ⟨get_keep h.at_, fun n' j' o' hn h3 => ?_, fun y r hy h3 => ?_⟩
  · rcases get_snoc.1 h3 with h3 | ⟨-, h3⟩
    · exact h.newest n' j' o' hn h3
    · exact h1 _ _ h3.symm
  · rcases get_snoc.1 h3 with h3 | ⟨-, h3⟩
    · exact h.quiet y r hy h3
    · exact h2 _ h3.symm

theorem noClock_keep {n : Nat} (h : ∀ (k : Nat) (t : Int), n < k → tr[k]? ≠ some (.clock i t)) (he : ∀ t, e ≠ .clock i t) :
    ∀ (k : Nat) (t : Int), n < k → (tr ++ [e])[k]? ≠ some (.clock i t) := by
  intro k t hk h3
  rcases get_snoc.1 h3 with h3 | ⟨-, h3⟩
  · exact h k t hk h3
  · exact he t h3.symm

theorem Fin.new {o : Outcome T E} : Fin (tr ++ [.finish i o]) i tr.length o := by
  refine ⟨get_new, fun n' j' o' hn h3 => ?_, fun y r hy h3 => ?_⟩ <;>
  · have := get_lt h3
    simp at this; omega

theorem WExec.back (h : WExec c rf tr ss s) : ∀ i, Back c tr i (s.pc i) := by
  induction h with
  | nil => exact fun i => trivial
  | snoc h1 h2 ih =>
    rename_i tr ss s i inp s' e
    intro j
    by_cases hj : j = i
    · subst hj
      have hb := ih j
      cases h2 with
      | run _ h2 =>
        cases hpc : s.pc j <;> rw [hpc] at hb <;> cases inp <;> simp only [step, hpc, reduceCtorEq, Option.some.injEq, Prod.mk.injEq] at h2
        case running.fin o =>
          obtain ⟨rfl, rfl⟩ := h2
          simp only [State.go, Function.update_self]
          have hc : ∀ (k : Nat) (t : Int), tr.length < k → (tr ++ [Ev.finish j o])[k]? ≠ some (.clock j t) := by
            intro k t hk h3
            have := get_lt h3
            simp at this; omega
          rcases o with ⟨v, _ | er⟩ | _
          · exact ⟨_, _, Fin.new, rfl, hc⟩
          · trivial
          · exact ⟨_, _, Fin.new, rfl, hc⟩
        case wData.go v r =>
          obtain ⟨rfl, rfl⟩ := h2
          simp only [State.go, Function.update_self]
          obtain ⟨n, o, a1, a2, a3⟩ := hb
          exact ⟨n, o, a1.keep nofun nofun, by rw [a2]; rfl, noClock_keep a3 nofun⟩
        case wNow.time t =>
          obtain ⟨rfl, rfl⟩ := h2
          simp only [State.go, Function.update_self]
          obtain ⟨n, o, a1, a2, a3⟩ := hb
          refine ⟨n, o, tr.length, a1.keep nofun nofun, a2, get_lt a1.at_, get_new, fun k t' hk hkl h3 => ?_⟩
          rcases get_snoc.1 h3 with h3 | ⟨h3, -⟩
          · exact a3 k t' hk h3
          · omega
        all_goals first
          | (obtain ⟨rfl, rfl⟩ := h2)
          | (split at h2 <;> first | (cases h2; done) | (simp only [Option.some.injEq, Prod.mk.injEq] at h2; obtain ⟨rfl, rfl⟩ := h2))
        all_goals simp only [State.go, Function.update_self]
        all_goals first
          | trivial
          | (repeat' split) <;> first | trivial | (unfold gNext; split <;> trivial; done) | (unfold lNext; split <;> trivial; done) | (unfold rawNext; split <;> trivial; done)
          | (rename_i op; cases op <;> first | trivial | (rename_i f _; cases f <;> trivial); done)
      | @see x v s1 _ h3 _ h4 =>
        have hp : (s.setFld x v).pc = s.pc := by cases x <;> rfl
        have hq : ∀ (s2 : State T E F A) (y : Int), (s2.setFld x y).pc = s2.pc := by intro s2 y; cases x <;> rfl
        rw [hq]
        cases hpc : s.pc j <;> rw [hpc] at h3 <;> first | (cases h3; done) | skip
        all_goals cases inp <;> simp only [step, hp, hpc, reduceCtorEq, Option.some.injEq, Prod.mk.injEq] at h4
        all_goals obtain ⟨rfl, rfl⟩ := h4
        all_goals simp only [State.go, Function.update_self]
        all_goals first
          | trivial
          | (split <;> first | trivial | (unfold lNext; split <;> trivial))
    · have hb := ih j
      rw [h2.other hj]
      have ht := h2.tid
      have n1 : ∀ r, e ≠ .ret j r := by
        rintro r rfl; exact hj ht
      have n2 : ∀ t, e ≠ .clock j t := by
        rintro r rfl; exact hj ht
      have n3 : (s.pc j).crit → ∀ j' o', e ≠ .finish j' o' := by
        rintro hc j' o' rfl
        obtain ⟨-, hr, -⟩ := h2.finish
        exact hj (h1.alone hc (by rw [hr]; trivial))
      cases hpc : s.pc j <;> rw [hpc] at hb n3 <;> first | trivial | skip
      · obtain ⟨n, o, a1, a2, a3⟩ := hb
        exact ⟨n, o, a1.keep (n3 trivial) n1, a2, noClock_keep a3 n2⟩
      · obtain ⟨n, o, a1, a2, a3⟩ := hb
        exact ⟨n, o, a1.keep (n3 trivial) n1, a2, noClock_keep a3 n2⟩
      · obtain ⟨n, o, m, a1, a2, a3⟩ := hb
        exact ⟨n, o, m, a1.keep (n3 trivial) n1, a2, a3.ext⟩

/-- The time `t` has been stored at `w` by a refresh that ended at `n` and read the clock at `m`. -/
structure Stored (c : Cfg T) (tr : List (Ev T E F A)) (t : Int) (w n m j : Nat) (o : Outcome T E) : Prop where
  at_ : tr[n]? = some (.finish j o)
  ok : (o.yield c.zero).isSome
  stamp : Stamp tr j n m t
  lt : m < w
  le : w < tr.length
  quiet : ∀ y r, n < y → y ≤ w → tr[y]? ≠ some (.ret j r)

theorem Stored.keep {t : Int} {w n m : Nat} {o : Outcome T E} (h : Stored c tr t w n m j o) : Stored c (tr ++ [e]) t w n m j o := by
  refine ⟨get_keep h.at_, h.ok, h.stamp.ext, h.lt, by have := h.le; simp; omega, fun y r hy hw h3 => ?_⟩
  rcases get_snoc.1 h3 with h3 | ⟨h3, -⟩
  · exact h.quiet y r hy hw h3
  · have := h.le; omega

/-- Whatever time other than 0 has been stored in `last`. -/
theorem WExec.stored (h : WExec c rf tr ss s) : ∀ (w : Nat) (b : Label) (sw : State T E F A), (labels c rf tr ss)[w]? = some b → b.rel = some .last →
    ss[w]? = some sw → sw.last ≠ 0 → ∃ n m j o, Stored c tr sw.last w n m j o := by
  induction h with
  | nil => intro w b sw h; simp [labels] at h
  | snoc h1 h2 ih =>
    rename_i tr ss s i inp s' e
    intro w b sw hw hr hs hne
    rw [h1.labels_snoc] at hw
    have hll := h1.len
    rcases get_snoc.1 hw with hw | ⟨rfl, rfl⟩
    · have hlt := get_lt hw
      rw [h1.labels_len] at hlt
      rcases get_snoc.1 hs with hs | ⟨hs, -⟩
      · obtain ⟨n, m, j, o, h3⟩ := ih w b sw hw hr hs hne
        exact ⟨n, m, j, o, h3.keep⟩
      · omega
    · rw [h1.labels_len, hll, get_new] at hs
      cases hs
      rw [h1.labels_len]
      have hr : rel (s.pc i) = some .last := by simpa [label, h2.tid] using hr
      have hb := h1.back i
      cases hpc : s.pc i <;> rw [hpc] at hr hb <;> first | (cases hr; done) | skip
      all_goals
        cases h2 with
        | see h3 _ _ => rw [hpc] at h3; cases h3
        | run _ h2 =>
          cases inp <;> simp only [step, hpc, reduceCtorEq, Option.some.injEq, Prod.mk.injEq] at h2
          obtain ⟨rfl, rfl⟩ := h2
          first
            | exact absurd rfl hne
            | (obtain ⟨n, o, m, a1, a2, a3⟩ := hb
               refine ⟨n, m, i, o, get_keep a1.at_, a2, a3.ext, get_lt a3.at_, by simp, fun y r hy hw h3 => ?_⟩
               rcases get_snoc.1 h3 with h3 | ⟨-, h3⟩
               · exact a1.quiet y r hy h3
               · cases h3)

/-- The data comes from a success, no older than any whose data has been stored. -/
theorem WExec.dataSrc (h : WExec c rf tr ss s) : ∀ (n j : Nat) (o : Outcome T E), tr[n]? = some (.finish j o) → (o.yield c.zero).isSome →
    (∃ v r, s.pc j = .wData v r ∧ ∀ n' j' o', n < n' → tr[n']? ≠ some (.finish j' o')) ∨
    ∃ n' j' o', n ≤ n' ∧ tr[n']? = some (.finish j' o') ∧ o'.yield c.zero = some s.data := by
  induction h with
  | nil => intro n j o h; simp at h
  | snoc h1 h2 ih =>
    rename_i tr ss s i inp s' e
    intro n j o hn ho
    have hb := h1.back i
    rcases get_snoc.1 hn with hn' | ⟨rfl, rfl⟩
    · have store : ∀ {v r}, s.pc i = .wData v r → s'.data = v → ∃ n' j' o', n ≤ n' ∧ (tr ++ [e])[n']? = some (.finish j' o') ∧ o'.yield c.zero = some s'.data := by
        intro v r hp hd
        rw [hp] at hb
        obtain ⟨n', o', a1, a2, -⟩ := hb
        refine ⟨n', i, o', ?_, get_keep a1.at_, by rw [a2, hd]⟩
        by_contra hlt
        exact a1.newest n j o (by omega) hn'
      rcases ih n j o hn' ho with ⟨v, r, h3, h4⟩ | ⟨n', j', o', h3, h4, h5⟩
      · by_cases hj : j = i
        · subst hj
          refine .inr (store h3 ?_)
          cases h2 with
          | see h5 _ _ => rw [h3] at h5; cases h5
          | run _ h2 =>
            cases inp <;> simp only [step, h3, reduceCtorEq, Option.some.injEq, Prod.mk.injEq] at h2
            obtain ⟨rfl, rfl⟩ := h2
            rfl
        · refine .inl ⟨v, r, by rw [h2.other hj, h3], fun n' j' o' hlt h5 => ?_⟩
          rcases get_snoc.1 h5 with h5 | ⟨-, rfl⟩
          · exact h4 n' j' o' hlt h5
          · obtain ⟨-, hr, -⟩ := h2.finish
            exact hj (h1.alone (by rw [h3]; trivial) (by rw [hr]; trivial))
      · rcases h2.data with h6 | ⟨v, r, h6, h7⟩
        · exact .inr ⟨n', j', o', h3, get_keep h4, by rw [h6, h5]⟩
        · exact .inr (store h6 h7)
    · obtain ⟨rfl, -, rfl⟩ := h2.finish
      left
      simp only [State.go, Function.update_self]
      have hnew : ∀ n' j' o', tr.length < n' → (tr ++ [Ev.finish j o])[n']? ≠ some (.finish j' o') := by
        intro n' j' o' hlt h5
        have := get_lt h5
        simp at this; omega
      rcases o with ⟨w, _ | er⟩ | _
      · exact ⟨_, _, rfl, hnew⟩
      · cases ho
      · exact ⟨_, _, rfl, hnew⟩

/-- The data is that of a refresh whose time has been stored, or newer. -/
theorem WExec.data_of (h : WExec c rf tr ss s) {t : Int} {w n m : Nat} {o : Outcome T E} (hs : Stored c tr t w n m j o) :
    ∃ n' j' o', n ≤ n' ∧ tr[n']? = some (.finish j' o') ∧ o'.yield c.zero = some s.data := by
  rcases h.dataSrc n j o hs.at_ hs.ok with ⟨v, r, h1, h2⟩ | h1
  · exfalso
    have hb := h.back j
    rw [h1] at hb
    obtain ⟨n', o', a1, -, a3⟩ := hb
    have : n' = n := by
      rcases Nat.lt_trichotomy n n' with h3 | h3 | h3
      · exact absurd a1.at_ (h2 n' _ _ h3)
      · exact h3.symm
      · exact absurd hs.at_ (a1.newest n _ _ h3)
    subst this
    exact a3 m t hs.stamp.lt hs.stamp.at_
  · exact h1

/-- There is an error once the time of an error has been stored. -/
theorem WExec.errs (h : WExec c rf tr ss s) :
    (s.lastErr ≠ 0 → s.err ≠ none) ∧ ∀ i, (∃ r, s.pc i = .wErrNow r) ∨ (∃ t r, s.pc i = .wErrLast t r) → s.err ≠ none := by
  induction h with
  | nil => exact ⟨fun h => absurd rfl h, fun i h => by rcases h with ⟨r, h⟩ | ⟨t, r, h⟩ <;> cases h⟩
  | snoc h1 h2 ih =>
    rename_i tr ss s i inp s' e
    obtain ⟨ih1, ih2⟩ := ih
    have mono : s.err ≠ none → s'.err ≠ none := by
      intro h
      rcases h2.err with h3 | ⟨er, r, -, h3⟩
      · rwa [h3]
      · rw [h3]; nofun
    refine ⟨fun hne => ?_, fun j hj => ?_⟩
    · by_cases hl : s'.lastErr = s.lastErr
      · rw [hl] at hne
        exact mono (ih1 hne)
      · cases h2 with
        | run _ h =>
          rcases step_lastErr h with h3 | ⟨r, -, h3, -⟩ | ⟨t, r, h3, -⟩
          · exact absurd h3 hl
          · exact absurd h3 hne
          · exact mono (ih2 i (.inr ⟨t, r, h3⟩))
        | see h3 _ h4 =>
          obtain ⟨pc', h5, -⟩ := see_step h3 h4
          rw [h5] at hl
          exact absurd rfl hl
    · by_cases hji : j = i
      · subst hji
        cases h2 with
        | run _ h =>
          cases hpc : s.pc j <;> cases inp <;> simp only [step, hpc, reduceCtorEq, Option.some.injEq, Prod.mk.injEq] at h
          case wErr.go er r =>
            obtain ⟨rfl, rfl⟩ := h
            exact nofun
          case wErrNow.time r t =>
            obtain ⟨rfl, rfl⟩ := h
            exact ih2 j (.inl ⟨_, hpc⟩)
          all_goals exfalso
          all_goals first
            | (obtain ⟨rfl, rfl⟩ := h)
            | (split at h <;> first | (cases h; done) | (simp only [Option.some.injEq, Prod.mk.injEq] at h; obtain ⟨rfl, rfl⟩ := h))
          all_goals simp only [State.go, Function.update_self] at hj
          all_goals first
            | (rcases hj with ⟨r, hj⟩ | ⟨t, r, hj⟩ <;> cases hj; done)
            | (rename_i op; cases op <;> first | (rcases hj with ⟨r, hj⟩ | ⟨t, r, hj⟩ <;> cases hj; done) | (rename_i f _; cases f <;> rcases hj with ⟨r, hj⟩ | ⟨t, r, hj⟩ <;> cases hj; done); done)
            | (rename_i o; rcases o with ⟨v, _ | er⟩ | _ <;> rcases hj with ⟨r, hj⟩ | ⟨t, r, hj⟩ <;> cases hj; done)
            | (rcases hj with ⟨r, hj⟩ | ⟨t, r, hj⟩ <;> (try unfold gNext at hj) <;> (try unfold lNext at hj) <;> (try unfold rawNext at hj) <;> (repeat' split at hj) <;> cases hj; done)
        | @see x v s1 _ h3 _ h4 =>
          exfalso
          have hp : (s.setFld x v).pc = s.pc := by cases x <;> rfl
          have hq : ∀ (s2 : State T E F A) (y : Int), (s2.setFld x y).pc = s2.pc := by intro s2 y; cases x <;> rfl
          rw [hq] at hj
          cases hpc : s.pc j <;> rw [hpc] at h3 <;> first | (cases h3; done) | skip
          all_goals cases inp <;> simp only [step, hp, hpc, reduceCtorEq, Option.some.injEq, Prod.mk.injEq] at h4
          all_goals obtain ⟨rfl, rfl⟩ := h4
          all_goals simp only [State.go, Function.update_self] at hj
          all_goals try unfold lNext at hj
          all_goals (rcases hj with ⟨r, hj⟩ | ⟨t, r, hj⟩ <;> repeat' split at hj) <;> cases hj
      · rw [h2.other hji] at hj
        exact mono (ih2 j hj)

/-! ## What a `Get` of `WExec` returns -/

theorem WStep.call (h : WStep c rf tr ss s i inp s' (.call j op)) : step c s i inp = some (s', .call j op) := by
  cases h with
  | run _ h => exact h
  | see h1 _ h2 =>
    obtain ⟨pc', -, -, h | ⟨t, h⟩⟩ := see_step h1 h2 <;> cases h

theorem callAt_back {p q : Nat} (h : CallAt (tr ++ [e]) j p op q) (hq : q ≤ tr.length) : CallAt tr j p op q := by
  obtain ⟨a1, a2, a3⟩ := h
  rcases get_snoc.1 a2 with a2 | ⟨a2, -⟩
  · exact ⟨a1, a2, fun k op' k1 k2 k3 => a3 k op' k1 k2 (get_keep k3)⟩
  · omega

/-- A call that looks at `last` has loaded it atomically before it goes further. -/
theorem WExec.looking (h : WExec c rf tr ss s) : ∀ (j p : Nat) (op : Op F A), CallAt tr j p op tr.length → Looks op →
    pre (s.pc j) ∨ Looked (labels c rf tr ss) j p tr.length := by
  induction h with
  | nil => exact fun j p op h => absurd h.lt (by simp)
  | snoc h1 h2 ih =>
    rename_i tr ss s i inp s' e
    intro j p op hc hk
    rw [h1.labels_snoc]
    have hl : (labels c rf tr ss).length = tr.length := h1.labels_len
    have ht := h2.tid
    have hac : (label s e).acq = acq (s.pc i) := by simp [label, ht]
    rw [List.length_append, List.length_singleton] at hc ⊢
    by_cases hp : p = tr.length
    · subst hp
      have := hc.at_
      rcases get_snoc.1 this with h3 | ⟨-, rfl⟩
      · have := get_lt h3; omega
      · have hij : j = i := ht
        subst hij
        exact .inl (step_call h2.call hk)
    · have hc' : CallAt tr j p op tr.length := by
        have h3 := hc.lt
        refine callAt_back ⟨by omega, hc.at_, fun k op' k1 k2 => hc.only k op' k1 (by omega)⟩ (Nat.le_refl _)
      rcases ih j p op hc' hk with h3 | h3
      · by_cases hji : j = i
        · subst hji
          cases h2 with
          | run _ h2 =>
            refine (step_pre h2 h3).imp_right fun h4 => ?_
            exact ⟨(labels c rf tr ss).length, label s e, by rw [hl]; exact hc'.lt, by omega, get_new, ht, hac.trans h4⟩
          | see h4 _ _ =>
            cases hpc : s.pc j <;> rw [hpc] at h3 h4 <;> first | (cases h3; done) | (cases h4; done)
        · left
          rw [h2.other hji]
          exact h3
      · exact .inr (h3.keep (by omega))

/-- The time `l` seen by a call at `p` has been stored by a refresh, and after any `Clear` made before the call. -/
def Got (c : Cfg T) (tr : List (Ev T E F A)) (p : Nat) (l : Int) : Prop :=
  ∃ w n m j o, Stored c tr l w n m j o ∧ ∀ x k : Nat, x < p → tr[x]? = some (.cleared k) → x < w

theorem Got.keep {p : Nat} {l : Int} (h : Got c tr p l) (hp : p < tr.length) : Got c (tr ++ [e]) p l := by
  obtain ⟨w, n, m, j, o, h1, h2⟩ := h
  refine ⟨w, n, m, j, o, h1.keep, fun x k hx h3 => ?_⟩
  rcases get_snoc.1 h3 with h3 | ⟨h3, -⟩
  · exact h2 x k hx h3
  · omega

theorem clear_store (h : WExec c rf tr ss s) {x k : Nat} (hx : tr[x]? = some (.cleared k)) :
    ∃ b sx, (labels c rf tr ss)[x]? = some b ∧ b.rel = some .last ∧ ss[x]? = some sx ∧ sx.last = 0 := by
  obtain ⟨s0, inp, s1, -, a2, a3, a4⟩ := h.at hx
  exact ⟨_, s1, a4, a2.cleared.1, a3, a2.cleared.2⟩

/-- The atomic load of line 99. -/
theorem got_load (h : WExec c rf tr ss s) (p : Nat) (hne : s.last ≠ 0) : Got c tr p s.last := by
  rcases h.newest .last with ⟨a, -⟩ | ⟨w, b, sw, a1, a2, a3, a4, a5⟩
  · exact absurd a hne
  · have a4 : s.last = sw.last := a4
    rw [a4] at hne ⊢
    obtain ⟨n, m, j, o, h1⟩ := h.stored w b sw a1 a2 a3 hne
    refine ⟨w, n, m, j, o, h1, fun x k _ hx => ?_⟩
    obtain ⟨b', sx, b1, b2, b3, b4⟩ := clear_store h hx
    rcases Nat.lt_trichotomy x w with h3 | h3 | h3
    · exact h3
    · subst h3
      rw [a3] at b3
      cases b3
      exact absurd b4 hne
    · exact absurd b2 (a5 x b' h3 b1)

/-- The plain reads of line 108. -/
theorem got_see (h : WExec c rf tr ss s) {p : Nat} (hc : CallAt tr i p op tr.length) (ho : Looks op) (hp : plain (s.pc i) = some .last)
    (hv : Visible (labels c rf tr ss) ss i .last v) (hne : v ≠ 0) : Got c tr p v := by
  rcases hv with ⟨hv, -⟩ | ⟨w, b, sw, a1, a2, a3, a4, a5⟩
  · exact absurd hv hne
  · have a4 : v = sw.last := a4
    rw [a4] at hne ⊢
    obtain ⟨n, m, j, o, h1⟩ := h.stored w b sw a1 a2 a3 hne
    refine ⟨w, n, m, j, o, h1, fun x k hxp hx => ?_⟩
    obtain ⟨b', sx, b1, b2, b3, b4⟩ := clear_store h hx
    have hl : (labels c rf tr ss).length = tr.length := h.labels_len
    rcases h.looking i p op hc ho with h2 | ⟨y, a, y1, y2, y3, y4, y5⟩
    · exfalso
      cases hpc : s.pc i <;> rw [hpc] at hp h2 <;> first | (cases hp; done) | (cases h2; done)
    · obtain ⟨w1, d, d1, d2, d3, d4, d5⟩ := last_store (pl := .last) b1 b2 y (by omega)
      have hb : Before (labels c rf tr ss ++ [⟨i, none, none⟩]) w1 (labels c rf tr ss).length := by
        refine .head (.inr ⟨d2, d, a, .last, get_keep d3, get_keep y3, d4, y5, fun z f z1 z2 z3 => ?_⟩)
          (.single (.inl ⟨by omega, a, ⟨i, none, none⟩, get_keep y3, get_new, y4⟩))
        rcases get_snoc.1 z3 with z3 | ⟨z3, -⟩
        · exact d5 z f z1 z2 z3
        · omega
      have hw : ¬ w < w1 := fun hw => a5 w1 d hw d3 d4 hb
      rcases Nat.lt_or_ge x w with h3 | h3
      · exact h3
      · have h4 : x = w := by omega
        subst h4
        rw [a3] at b3
        cases b3
        exact absurd b4 hne

/-- The check of the age with the time `l` has succeeded in the call at `p`. -/
def Fresh (c : Cfg T) (tr : List (Ev T E F A)) (i p : Nat) (l : Int) : Prop :=
  (c.maxAge < 0 ∧ l > 0) ∨ ∃ x now, p < x ∧ tr[x]? = some (.clock i now) ∧ now - l < c.maxAge

/-- In the call at `p` the clock has been less than `d`. -/
def Early (tr : List (Ev T E F A)) (i p : Nat) (d : Int) : Prop := ∃ x now, p < x ∧ tr[x]? = some (.clock i now) ∧ now < d

/-- In the call at `p` a refresh has been started. -/
def Began (tr : List (Ev T E F A)) (i p : Nat) : Prop := ∃ x f a old, p < x ∧ tr[x]? = some (.start i f a old)

/-- `d` is the data of a refresh at least as new as one whose time passed the check. -/
def Hit (c : Cfg T) (tr : List (Ev T E F A)) (i p : Nat) (d : T) : Prop :=
  ∃ l w n m j o n' j' o', Stored c tr l w n m j o ∧ (∀ x k : Nat, x < p → tr[x]? = some (.cleared k) → x < w) ∧ Fresh c tr i p l ∧
    n ≤ n' ∧ tr[n']? = some (.finish j' o') ∧ o'.yield c.zero = some d

/-- What is known at each point of a `Get` called at `p`. -/
def Look (c : Cfg T) (tr : List (Ev T E F A)) (s : State T E F A) (i p : Nat) : PC T E F A → Prop
  | .gChk _ _ l | .lCmp _ _ l => l ≠ 0 → Got c tr p l
  | .gData | .lData => ∃ l, (l ≠ 0 → Got c tr p l) ∧ Fresh c tr i p l
  | .gErrChk _ _ now | .lErrChk _ _ now | .lChk _ _ now => ∃ x, p < x ∧ tr[x]? = some (.clock i now)
  | .gErr | .lErr => s.err ≠ none ∨ Early tr i p c.errAge
  | .running | .wData _ _ | .wNow _ | .wLast _ _ | .wLastErr _ | .wErr _ _ | .wErrNow _ | .wErrLast _ _ | .wErrClr _ => Began tr i p
  | .unlock r | .done r => ∀ d, r = .val d none → Began tr i p ∨ Early tr i p c.errAge ∨ Early tr i p c.maxAge ∨ Hit c tr i p d
  | .lLast _ _ => c.maxAge < 0
  | .cGet _ | .gLast _ _ | .gErrNow _ _ | .gLock _ _ | .lNow _ _ | .lErrNow _ _ | .old _ _ | .idle => True
  | _ => False

theorem Fresh.keep {p : Nat} {l : Int} (h : Fresh c tr i p l) : Fresh c (tr ++ [e]) i p l :=
  h.imp_right fun ⟨x, now, h1, h2, h3⟩ => ⟨x, now, h1, get_keep h2, h3⟩

theorem Early.keep {p : Nat} {l : Int} (h : Early tr i p l) : Early (tr ++ [e]) i p l :=
  let ⟨x, now, h1, h2, h3⟩ := h
  ⟨x, now, h1, get_keep h2, h3⟩

theorem Began.keep {p : Nat} (h : Began tr i p) : Began (tr ++ [e]) i p :=
  let ⟨x, f, a, old, h1, h2⟩ := h
  ⟨x, f, a, old, h1, get_keep h2⟩

theorem Hit.keep {p : Nat} {d : T} (h : Hit c tr i p d) (hp : p < tr.length) : Hit c (tr ++ [e]) i p d := by
  obtain ⟨l, w, n, m, j, o, n', j', o', h1, h2, h3, h4, h5, h6⟩ := h
  refine ⟨l, w, n, m, j, o, n', j', o', h1.keep, fun x k hx h7 => ?_, h3.keep, h4, get_keep h5, h6⟩
  rcases get_snoc.1 h7 with h7 | ⟨h7, -⟩
  · exact h2 x k hx h7
  · omega

theorem Look.keep {p : Nat} {pc : PC T E F A} (h : Look c tr s i p pc) (hp : p < tr.length) (he : s.err ≠ none → s'.err ≠ none) :
    Look c (tr ++ [e]) s' i p pc := by
  cases pc
  case gChk | lCmp => exact fun h1 => (h h1).keep hp
  case gData | lData => exact h.imp fun l h1 => ⟨fun h2 => (h1.1 h2).keep hp, h1.2.keep⟩
  case gErrChk | lErrChk | lChk => exact h.imp fun x h1 => ⟨h1.1, get_keep h1.2⟩
  case gErr | lErr => exact h.imp he (·.keep)
  case running | wData | wNow | wLast | wLastErr | wErr | wErrNow | wErrLast | wErrClr => exact Began.keep h
  case unlock | done =>
    exact fun d hd => (h d hd).imp (·.keep) (.imp (·.keep) (.imp (·.keep) (·.keep hp)))
  all_goals first
    | trivial
    | exact h

/-- The data that a `Get` takes. -/
theorem hit_data (h : WExec c rf tr ss s) {p : Nat} {l : Int} (h1 : l ≠ 0 → Got c tr p l) (h2 : Fresh c tr i p l) :
    Early tr i p c.maxAge ∨ Hit c tr i p s.data := by
  by_cases hl : l = 0
  · subst hl
    rcases h2 with ⟨-, h2⟩ | ⟨x, now, h3, h4, h5⟩
    · exact absurd h2 (by omega)
    · exact .inl ⟨x, now, h3, h4, by omega⟩
  · obtain ⟨w, n, m, j, o, h3, h4⟩ := h1 hl
    obtain ⟨n', j', o', h5, h6, h7⟩ := h.data_of h3
    exact .inr ⟨l, w, n, m, j, o, n', j', o', h3, h4, h2, h5, h6, h7⟩

theorem isGet_looks (h : op.isGet) : Looks op := by
  cases op <;> first | trivial | exact h

theorem WExec.look (h : WExec c rf tr ss s) : ∀ (i p : Nat) (op : Op F A), CallAt tr i p op tr.length → op.isGet → Look c tr s i p (s.pc i) := by
  induction h with
  | nil => exact fun j p op h => absurd h.lt (by simp)
  | snoc h1 h2 ih =>
    rename_i tr ss s i inp s' e
    intro j p op hc hg
    have ht := h2.tid
    have mono : s.err ≠ none → s'.err ≠ none := by
      intro h
      rcases h2.err with h3 | ⟨er, r, -, h3⟩
      · rwa [h3]
      · rw [h3]; nofun
    rw [List.length_append, List.length_singleton] at hc
    by_cases hp : p = tr.length
    · subst hp
      rcases get_snoc.1 hc.at_ with h3 | ⟨-, rfl⟩
      · have := get_lt h3; omega
      · have hij : j = i := ht
        subst hij
        have h4 := h2.call
        cases hpc : s.pc j <;> cases inp <;> simp only [step, hpc, reduceCtorEq, Option.some.injEq, Prod.mk.injEq] at h4
        case idle.call op' =>
          obtain ⟨rfl, h4⟩ := h4
          cases h4
          simp only [State.go, Function.update_self]
          cases op <;> first | trivial | exact absurd hg (by simp [Op.isGet])
        all_goals first
          | (obtain ⟨-, h4⟩ := h4; cases h4; done)
          | (split at h4 <;> first | (cases h4; done) | (simp only [Option.some.injEq, Prod.mk.injEq] at h4; obtain ⟨-, h4⟩ := h4; cases h4; done))
    · have hc' : CallAt tr j p op tr.length := by
        have h3 := hc.lt
        refine callAt_back ⟨by omega, hc.at_, fun k op' k1 k2 => hc.only k op' k1 (by omega)⟩ (Nat.le_refl _)
      have hpl := hc'.lt
      have hk := ih j p op hc' hg
      have hcall : ∀ op', e ≠ .call j op' := by
        rintro op' rfl
        exact hc.only tr.length op' hpl (by omega) get_new
      by_cases hji : j = i
      · subst hji
        have hnew : ∀ {t}, e = .clock j t → ∃ x, p < x ∧ (tr ++ [e])[x]? = some (.clock j t) := by
          rintro t rfl
          exact ⟨_, hpl, get_new⟩
        have herr : ∀ {now : Int}, (∃ x, p < x ∧ tr[x]? = some (.clock j now)) → now - s.lastErr < c.errAge →
            s'.err ≠ none ∨ Early (tr ++ [e]) j p c.errAge := by
          rintro now ⟨x, h3, h4⟩ h5
          by_cases h6 : s.lastErr = 0
          · exact .inr ⟨x, now, h3, get_keep h4, by omega⟩
          · exact .inl (mono (h1.errs.1 h6))
        cases h2 with
        | run hpn h2 =>
          cases hpc : s.pc j <;> rw [hpc] at hk <;> first | (cases hk; done) | skip
          all_goals cases inp <;> simp only [step, hpc, reduceCtorEq, Option.some.injEq, Prod.mk.injEq] at h2
          case idle.call op' =>
            exact absurd h2.2.symm (hcall op')
          case cGet.go =>
            obtain ⟨rfl, rfl⟩ := h2
            simp [State.go, Look]
          case gLast.go =>
            obtain ⟨rfl, rfl⟩ := h2
            simp only [State.go, Function.update_self]
            exact fun h3 => (got_load h1 p h3).keep hpl
          case gChk.go =>
            split at h2
            · rename_i h3
              simp only [Option.some.injEq, Prod.mk.injEq] at h2
              obtain ⟨rfl, rfl⟩ := h2
              simp only [State.go, Function.update_self]
              exact ⟨_, fun h4 => (hk h4).keep hpl, .inl h3⟩
            · cases h2
          case gChk.time now =>
            split at h2
            · cases h2
            · simp only [Option.some.injEq, Prod.mk.injEq] at h2
              obtain ⟨rfl, rfl⟩ := h2
              simp only [State.go, Function.update_self]
              split
              · rename_i h3
                exact ⟨_, fun h4 => (hk h4).keep hpl, .inr ⟨_, _, hpl, get_new, h3⟩⟩
              · unfold gNext; split <;> trivial
          case gData.go =>
            obtain ⟨rfl, rfl⟩ := h2
            simp only [State.go, Function.update_self]
            intro d hd
            cases hd
            obtain ⟨l, h3, h4⟩ := hk
            exact .inr (.inr ((hit_data h1 h3 h4).imp (·.keep) (·.keep hpl)))
          case gErrNow.time now =>
            obtain ⟨rfl, rfl⟩ := h2
            simp only [State.go, Function.update_self]
            exact hnew rfl
          case gErrChk.go =>
            obtain ⟨rfl, rfl⟩ := h2
            simp only [State.go, Function.update_self]
            split
            · rename_i h3
              exact herr hk h3
            · trivial
          case gErr.go =>
            obtain ⟨rfl, rfl⟩ := h2
            simp only [State.go, Function.update_self]
            intro d hd
            rcases hk with h3 | h3
            · injection hd with _ hd
              exact absurd hd h3
            · exact .inr (.inl h3.keep)
          case gLock.go =>
            split at h2
            · simp only [Option.some.injEq, Prod.mk.injEq] at h2
              obtain ⟨rfl, rfl⟩ := h2
              simp only [State.go, Function.update_self]
              split
              · assumption
              · trivial
            · cases h2
          case lCmp.time now =>
            obtain ⟨rfl, rfl⟩ := h2
            simp only [State.go, Function.update_self]
            split
            · rename_i h3
              exact ⟨_, fun h4 => (hk h4).keep hpl, .inr ⟨_, _, hpl, get_new, h3⟩⟩
            · unfold lNext; split <;> trivial
          case lData.go =>
            obtain ⟨rfl, rfl⟩ := h2
            simp only [State.go, Function.update_self]
            intro d hd
            cases hd
            obtain ⟨l, h3, h4⟩ := hk
            exact .inr (.inr ((hit_data h1 h3 h4).imp (·.keep) (·.keep hpl)))
          case lErrNow.time now =>
            obtain ⟨rfl, rfl⟩ := h2
            simp only [State.go, Function.update_self]
            exact hnew rfl
          case lErr.go =>
            obtain ⟨rfl, rfl⟩ := h2
            simp only [State.go, Function.update_self]
            intro d hd
            rcases hk with h3 | h3
            · injection hd with _ hd
              exact absurd hd h3
            · exact .inr (.inl h3.keep)
          case old.go =>
            obtain ⟨rfl, rfl⟩ := h2
            simp only [State.go, Function.update_self]
            exact ⟨_, _, _, _, hpl, get_new⟩
          case running.fin o =>
            obtain ⟨rfl, rfl⟩ := h2
            simp only [State.go, Function.update_self]
            rcases o with ⟨v, _ | er⟩ | _ <;> exact Began.keep hk
          case wLastErr.go | wErrClr.go =>
            obtain ⟨rfl, rfl⟩ := h2
            simp only [State.go, Function.update_self]
            exact fun d _ => .inl (Began.keep hk)
          case unlock.go =>
            obtain ⟨rfl, rfl⟩ := h2
            simp only [State.go, Function.update_self]
            exact fun d hd => (hk d hd).imp (·.keep) (.imp (·.keep) (.imp (·.keep) (·.keep hpl)))
          case done.go =>
            obtain ⟨rfl, rfl⟩ := h2
            simp [State.go, Look]
          all_goals first
            | (rw [hpc] at hpn; cases hpn; done)
            | (obtain ⟨rfl, rfl⟩ := h2
               simp only [State.go, Function.update_self]
               exact Began.keep hk)
        | @see x v s1 _ h3 h5 h4 =>
          have hp : (s.setFld x v).pc = s.pc := by cases x <;> rfl
          have hq : ∀ (s2 : State T E F A) (y : Int), (s2.setFld x y).pc = s2.pc := by intro s2 y; cases x <;> rfl
          rw [hq]
          cases hpc : s.pc j <;> rw [hpc] at h3 hk <;> first | (cases h3; done) | skip
          case lErrChk =>
            cases h3
            have hv := C158_lastErr h1 (by rw [hpc]; rfl) h5
            cases inp <;> simp only [step, hp, hpc, reduceCtorEq, Option.some.injEq, Prod.mk.injEq] at h4
            obtain ⟨rfl, rfl⟩ := h4
            simp only [State.go, Function.update_self]
            split
            · rename_i h6
              refine herr hk ?_
              rw [← hv]
              exact h6
            · trivial
          all_goals
            cases h3
            have hv := got_see h1 hc' (isGet_looks hg) (by rw [hpc]; rfl) h5
            have e1 : (s.setFld .last v).last = v := rfl
            cases inp <;> simp only [step, hp, hpc, e1, reduceCtorEq, Option.some.injEq, Prod.mk.injEq] at h4
          · obtain ⟨rfl, rfl⟩ := h4
            simp only [State.go, Function.update_self]
            split
            · rename_i h6
              exact ⟨v, fun h7 => (hv h7).keep hpl, .inl ⟨hk, h6⟩⟩
            · trivial
          · obtain ⟨rfl, rfl⟩ := h4
            simp only [State.go, Function.update_self]
            exact fun h7 => (hv h7).keep hpl
          · obtain ⟨rfl, rfl⟩ := h4
            simp only [State.go, Function.update_self]
            exact hnew rfl
          · obtain ⟨rfl, rfl⟩ := h4
            simp only [State.go, Function.update_self]
            split
            · rename_i h6
              obtain ⟨x, h8, h9⟩ := hk
              exact ⟨v, fun h7 => (hv h7).keep hpl, .inr ⟨x, _, h8, get_keep h9, h6⟩⟩
            · unfold lNext; split <;> trivial
      · rw [h2.other hji]
        exact hk.keep hpl mono

/-- A `Get` that returns a value and no error and starts no refresh has found it in the cache. -/
theorem hit_at (h : WExec c rf tr ss s) {p q : Nat} {v : T} (hc : CallAt tr i p op q) (hg : op.isGet) (hq : tr[q]? = some (.ret i (.val v none)))
    (hns : NoStart tr i p q) (hclk : ClockFrom tr i p q c.maxAge) (hclk' : ClockFrom tr i p q c.errAge) : Hit c (tr.take q) i p v := by
  obtain ⟨s0, inp, s1, h1, h2, -, -⟩ := h.at hq
  have hd : s0.pc i = .done (.val v none) := h2.ret
  have hl : (tr.take q).length = q := by
    rw [List.length_take, Nat.min_eq_left]
    exact Nat.le_of_lt (get_lt hq)
  have hc' : CallAt (tr.take q) i p op (tr.take q).length := by
    rw [hl]
    exact ⟨hc.lt, get_take.2 ⟨hc.lt, hc.at_⟩, fun k op' k1 k2 k3 => hc.only k op' k1 k2 (get_take.1 k3).2⟩
  have hk := h1.look i p op hc' hg
  rw [hd] at hk
  rcases hk v rfl with ⟨x, f, a, old, h3, h4⟩ | ⟨x, now, h3, h4, h5⟩ | ⟨x, now, h3, h4, h5⟩ | h3
  · exact absurd (get_take.1 h4).2 (hns x f a old h3 (get_take.1 h4).1)
  · have := hclk' x now h3 (get_take.1 h4).1 (get_take.1 h4).2
    omega
  · have := hclk x now h3 (get_take.1 h4).1 (get_take.1 h4).2
    omega
  · exact h3

/-- **C158**: still a `Get` serves only fresh data (the statement of `C16_partial`). -/
theorem C158_served (h : WExec c rf tr ss s) {p q : Nat} {v : T} (hc : CallAt tr i p op q) (hg : op.isGet) (hq : tr[q]? = some (.ret i (.val v none)))
    (hns : NoStart tr i p q) (hclk : ClockFrom tr i p q c.maxAge) (hclk' : ClockFrom tr i p q c.errAge)
    (hp : ∀ x j : Nat, x < q → tr[x]? ≠ some (.finish j .panic)) : Served c tr i p q v := by
  obtain ⟨l, w, n, m, j, o, n', j', o', h1, h2, h3, h4, h5, h6⟩ := hit_at h hc hg hq hns hclk hclk'
  have b1 := get_take.1 h1.at_
  have b3 := get_take.1 h1.stamp.at_
  have b6 := get_take.1 h5
  have ho : ∃ v0, o = .ret v0 none := by
    rcases o with ⟨v0, _ | er⟩ | _
    · exact ⟨v0, rfl⟩
    · exact absurd h1.ok (by simp [Outcome.yield])
    · exact absurd b1.2 (hp n j b1.1)
  have ho' : o' = .ret v none := by
    rcases o' with ⟨v0, _ | er⟩ | _
    · injection h6 with h6; rw [h6]
    · cases h6
    · exact absurd b6.2 (hp n' j' b6.1)
  obtain ⟨v0, rfl⟩ := ho
  subst ho'
  refine ⟨n, j, v0, m, l, n', j', b1.2, ⟨h1.stamp.lt, b3.2, fun k t' k1 k2 k3 => ?_⟩, b3.1, ?_, h4, b6.1, b6.2⟩
  · exact h1.stamp.first k t' k1 k2 (get_take.2 ⟨by omega, k3⟩)
  · rcases h3 with h3 | ⟨x, now, h7, h8, h9⟩
    · exact .inl h3.1
    · exact .inr ⟨x, now, h7, (get_take.1 h8).1, (get_take.1 h8).2, h9⟩

/-- **C158**: still a `Get` called after a `Clear` serves only the data of a refresh whose call had not returned before the `Clear`, or newer (the statement of
`C19_source`). -/
theorem C158_clear (h : WExec c rf tr ss s) {x k p q : Nat} {v : T} (hx : tr[x]? = some (.cleared k)) (hxp : x < p) (hc : CallAt tr i p op q)
    (hg : op.isGet) (hq : tr[q]? = some (.ret i (.val v none))) (hns : NoStart tr i p q) (hclk : ClockFrom tr i p q c.maxAge)
    (hclk' : ClockFrom tr i p q c.errAge) :
    ∃ n j o n' j' o', tr[n]? = some (.finish j o) ∧ (∀ y r, n < y → y < x → tr[y]? ≠ some (.ret j r)) ∧
      n ≤ n' ∧ n' < q ∧ tr[n']? = some (.finish j' o') ∧ (o' = .ret v none ∨ (o' = .panic ∧ v = c.zero)) := by
  obtain ⟨l, w, n, m, j, o, n', j', o', h1, h2, h3, h4, h5, h6⟩ := hit_at h hc hg hq hns hclk hclk'
  have hpq := hc.lt
  have hxw := h2 x k hxp (get_take.2 ⟨by omega, hx⟩)
  refine ⟨n, j, o, n', j', o', (get_take.1 h1.at_).2, ?_, h4, (get_take.1 h5).1, (get_take.1 h5).2, ?_⟩
  · intro y r hy hyx hr
    exact h1.quiet y r hy (by omega) (get_take.2 ⟨by omega, hr⟩)
  · rcases o' with ⟨v', _ | e'⟩ | _
    · injection h6 with h6; subst h6; exact .inl rfl
    · cases h6
    · injection h6 with h6; exact .inr ⟨rfl, h6.symm⟩

/-! ## What is lost -/

/-- The input of the step that has the event `e`. -/
def inputOf : Ev T E F A → In T E F A
  | .call _ op => .call op
  | .clock _ t => .time t
  | .finish _ o => .fin o
  | .clearEnd _ o => .clearFin o
  | _ => .go

theorem step_input (h : step c s i inp = some (s', e)) : inp = inputOf e ∧ e.tid = i := by
  refine ⟨?_, step_tid h⟩
  cases hpc : s.pc i <;> cases inp <;> simp only [step, hpc, reduceCtorEq, Option.some.injEq, Prod.mk.injEq] at h
  all_goals first
    | (obtain ⟨-, rfl⟩ := h; rfl)
    | (split at h <;> first | (cases h; done) | (simp only [Option.some.injEq, Prod.mk.injEq] at h; obtain ⟨-, rfl⟩ := h; rfl))

theorem play_append (c : Cfg T) (l l' : List (Nat × In T E F A)) : ∀ tr ss s, play c (l ++ l') tr ss s = (play c l tr ss s).bind fun x => play c l' x.1 x.2.1 x.2.2 := by
  induction l with
  | nil => intro tr ss s; rfl
  | cons a l ih =>
    intro tr ss s
    obtain ⟨i, inp⟩ := a
    rw [List.cons_append, play, play]
    cases h : step c s i inp with
    | none => rfl
    | some x => exact ih _ _ _

/-- An execution of `Model.lean` can be played again from its events. -/
theorem exec_play (h : Exec c rf tr ss s) : play c (tr.map fun e => (e.tid, inputOf e)) [] [] (init c rf) = some (tr, ss, s) := by
  induction h with
  | nil => rfl
  | snoc h1 h2 ih =>
    obtain ⟨h3, h4⟩ := step_input h2
    rw [List.map_append, play_append, ih]
    subst h3
    rw [← h4] at h2
    simp [play, h2]

/-- What is reached from `n` by edges that all stay in `P`. -/
theorem before_in {P : Nat → Prop} (hP : ∀ n m a b, P n → n < m → ls[n]? = some a → ls[m]? = some b → a.tid = b.tid ∨ (a.rel ≠ none ∧ a.rel = b.acq) → P m) {n m : Nat}
    (h : Before ls n m) (hn : P n) : P m := by
  induction h with
  | single h =>
    rcases h with ⟨h0, a, b, h1, h2, h3⟩ | ⟨h0, a, b, pl, h1, h2, h3, h4, -⟩
    · exact hP _ _ a b hn h0 h1 h2 (.inl h3)
    · exact hP _ _ a b hn h0 h1 h2 (.inr ⟨by rw [h3]; nofun, h3.trans h4.symm⟩)
  | tail _ h ih =>
    rcases h with ⟨h0, a, b, h1, h2, h3⟩ | ⟨h0, a, b, pl, h1, h2, h3, h4, -⟩
    · exact hP _ _ a b ih h0 h1 h2 (.inl h3)
    · exact hP _ _ a b ih h0 h1 h2 (.inr ⟨by rw [h3]; nofun, h3.trans h4.symm⟩)

/-- A `Get` of goroutine 1 gets to the lock; goroutine 0 refreshes; goroutine 2 clears; goroutine 1 takes the lock and reads the clock. -/
def exSee : List (Nat × In Nat Nat Nat Nat) :=
  [(1, .call (.get 0 0)), (1, .go), (1, .time 100)] ++ refreshBy 0 (.ret 7 none) 100 ++ [(2, .call (.clear none 0)), (2, .go), (2, .go), (1, .go), (1, .time 101)]
def exSeeTrace : List (Ev Nat Nat Nat Nat) :=
  [.call 1 (.get 0 0), .tau 1, .clock 1 100, .call 0 (.refresh 0 0), .locked 0, .start 0 0 0 0, .finish 0 (.ret 7 none), .tau 0, .clock 0 100, .tau 0, .tau 0, .tau 0,
    .ret 0 (.val 7 none), .call 2 (.clear none 0), .cleared 2, .ret 2 (.err none), .locked 1, .clock 1 101]

/-- Then it sees the time of before the `Clear`, and returns the data. -/
def exSeenTrace : List (Ev Nat Nat Nat Nat) := exSeeTrace ++ [.tau 1, .tau 1, .tau 1, .ret 1 (.val 7 none)]

theorem exSee_wexec : ∃ (ss : List (State Nat Nat Nat Nat)) (s : State Nat Nat Nat Nat),
    WExec (⟨0, 5, 0⟩ : Cfg Nat) 0 exSeenTrace ss s := by
  have hp : ∃ (ss : List (State Nat Nat Nat Nat)) (s s9 s1 s2 s3 s4 s5 : State Nat Nat Nat Nat), play (⟨0, 5, 0⟩ : Cfg Nat) exSee [] [] (init ⟨0, 5, 0⟩ 0) = some (exSeeTrace, ss, s) ∧
      labels ⟨0, 5, 0⟩ 0 exSeeTrace ss = [⟨1, none, none⟩, ⟨1, some .last, none⟩, ⟨1, none, none⟩, ⟨0, none, none⟩, ⟨0, some .lock, none⟩, ⟨0, some .data, none⟩, ⟨0, none, none⟩,
        ⟨0, none, some .data⟩, ⟨0, none, none⟩, ⟨0, none, some .last⟩, ⟨0, none, some .lastErr⟩, ⟨0, none, some .lock⟩, ⟨0, none, none⟩,
        ⟨2, none, none⟩, ⟨2, none, some .last⟩, ⟨2, none, none⟩, ⟨1, some .lock, none⟩, ⟨1, none, none⟩] ∧
      ss[9]? = some s9 ∧ s9.last = 100 ∧ plain (s.pc 1) = some .last ∧ step ⟨0, 5, 0⟩ (s.setFld .last 100) 1 .go = some (s1, .tau 1) ∧
      s2 = s1.setFld .last (s.fld .last) ∧ plain (s2.pc 1) = none ∧ step ⟨0, 5, 0⟩ s2 1 .go = some (s3, .tau 1) ∧
      plain (s3.pc 1) = none ∧ step ⟨0, 5, 0⟩ s3 1 .go = some (s4, .tau 1) ∧
      plain (s4.pc 1) = none ∧ step ⟨0, 5, 0⟩ s4 1 .go = some (s5, .ret 1 (.val 7 none)) :=
    ⟨_, _, _, _, _, _, _, _, rfl, rfl, rfl, rfl, rfl, rfl, rfl, rfl, rfl, rfl, rfl, rfl, rfl⟩
  obtain ⟨ss, s, s9, s1, s2, s3, s4, s5, hp, hl, a1, a2, a3, a4, rfl, a5, a6, a7, a8, a9, a10⟩ := hp
  have h : WExec (⟨0, 5, 0⟩ : Cfg Nat) 0 exSeeTrace ss s := C158_exec (play_exec _ _ _ _ _ _ _ .nil hp)
  have hv : Visible (labels ⟨0, 5, 0⟩ 0 exSeeTrace ss) ss 1 .last 100 := by
    rw [hl]
    refine .inr ⟨9, _, s9, rfl, rfl, a1, a2.symm, fun w b h1 h2 h3 h4 => ?_⟩
    have hw : w = 14 := by
      have := get_lt h2
      simp only [List.length_cons, List.length_nil] at this
      interval_cases w <;> first | rfl | (cases h2; cases h3; done)
    subst hw
    have := before_in (P := fun n => n = 14 ∨ n = 15) (fun n m a b hn hm ha hb hc => by
      have := get_lt hb
      simp only [List.length_cons, List.length_nil, List.length_append] at this
      rcases hn with rfl | rfl <;> cases ha <;> interval_cases m <;> cases hb <;> simp at hc ⊢) h4 (.inl rfl)
    simp at this
  have h1 := h.snoc (.see a3 hv a4)
  have h2 := ((h1.snoc (.run a5 a6)).snoc (.run a7 a8)).snoc (.run a9 a10)
  simp only [List.append_assoc, List.cons_append, List.nil_append] at h2
  exact ⟨_, _, h2⟩

/-- **C158**: but with the plain reads there are executions that no interleaving with reads of the newest value has: here the `Get` returns 7, though nothing has been
refreshed since the `Clear` that came before it took the lock. -/
theorem C158_false : ¬ ∀ (c : Cfg Nat) (rf : Nat) (tr : List (Ev Nat Nat Nat Nat)) (ss : List (State Nat Nat Nat Nat)) (s : State Nat Nat Nat Nat),
    WExec c rf tr ss s → ∃ ss' s', Exec c rf tr ss' s' := by
  intro hall
  obtain ⟨ss, s, h2⟩ := exSee_wexec
  obtain ⟨ss', s', h3⟩ := hall _ _ _ _ _ h2
  have h4 := exec_play h3
  have h5 : (play (⟨0, 5, 0⟩ : Cfg Nat) (exSeenTrace.map fun e : Ev Nat Nat Nat Nat => (e.tid, inputOf e)) [] []
      (init ⟨0, 5, 0⟩ 0)).isNone := rfl
  rw [h4] at h5
  cases h5

/-- `C158_served` of that execution: the refresh has ended at event 6, and its time, read at 8, is less than 5 before that read at 17. -/
example : ∃ (ss : List (State Nat Nat Nat Nat)) (s : State Nat Nat Nat Nat),
    WExec (⟨0, 5, 0⟩ : Cfg Nat) 0 exSeenTrace ss s ∧
      Served (⟨0, 5, 0⟩ : Cfg Nat) exSeenTrace 1 0 21 7 := by
  obtain ⟨ss, s, h⟩ := exSee_wexec
  have hc : ClockFrom exSeenTrace 1 0 21 (5 : Int) := by
    intro x now h1 h2 h3
    interval_cases x <;> cases h3 <;> decide
  refine ⟨ss, s, h, C158_served h (op := .get 0 0) ⟨by omega, rfl, fun k op h1 h2 h3 => ?_⟩ trivial rfl (fun x f a old h1 h2 h3 => ?_) hc
    (fun x now h1 h2 h3 => by have := hc x now h1 h2 h3; show (0 : Int) ≤ now; omega) (fun x j h1 h2 => ?_)⟩
  · interval_cases k <;> cases h3
  · interval_cases x <;> cases h3
  · interval_cases x <;> cases h2

end Verif.Refresh.Weak
