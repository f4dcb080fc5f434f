import Verif.Refresh.Wait
/-!
# Data races on the fields of `RefreshData` (C100)

`last` and `lastErr` are accessed by `sync/atomic` everywhere except under the lock in `Get` (lines 108 and 111), where they are plain reads.
-/
namespace Verif.Refresh
variable {T E F A : Type}
variable {c : Cfg T} {rf : F} {tr : List (Ev T E F A)} {ss : List (State T E F A)} {i j : Nat}
  {s s' : State T E F A} {e : Ev T E F A} {inp : In T E F A}

/-- The fields that are not of an atomic type: refreshcache.go:67-70. (`maxAge` and `errAge` are written only before the cache is shared.) -/
inductive Fld where
  | last
  | lastErr
  deriving DecidableEq

/-- An access to a field: which one, whether it writes, and whether it is plain (not by `sync/atomic`). -/
structure Acc where
  fld : Fld
  write : Bool
  plain : Bool
  deriving DecidableEq

/-- What the next step of a thread accesses: `atomic.LoadInt64` in lines 99, 103, 156, 164, 180, 184; plain reads in lines 108, 111;
`atomic.StoreInt64` in lines 117, 118, 121, 122, 134, 135, 138, 139, 148, 151. -/
def PC.acc : PC T E F A → Option Acc
  | .gLast _ _ => some ⟨.last, false, false⟩
  | .gErrChk _ _ _ => some ⟨.lastErr, false, false⟩
  | .lLast _ _ | .lNow _ _ | .lChk _ _ _ => some ⟨.last, false, true⟩
  | .lErrChk _ _ _ => some ⟨.lastErr, false, true⟩
  | .wLast _ _ => some ⟨.last, true, false⟩
  | .wLastErr _ => some ⟨.lastErr, true, false⟩
  | .wErrLast _ _ => some ⟨.lastErr, true, false⟩
  | .wErrClr _ => some ⟨.last, true, false⟩
  | .kStore _ => some ⟨.last, true, false⟩
  | .wRaw => some ⟨.last, false, false⟩
  | .wRawErrChk _ => some ⟨.lastErr, false, false⟩
  | .rdLast => some ⟨.last, false, false⟩
  | .rdLastErr => some ⟨.lastErr, false, false⟩
  | _ => none

/-- The value of a field. -/
def State.fld (s : State T E F A) : Fld → Int
  | .last => s.last
  | .lastErr => s.lastErr
/-- The state with another value in a field. -/
def State.setFld (s : State T E F A) : Fld → Int → State T E F A
  | .last, x => { s with last := x }
  | .lastErr, x => { s with lastErr := x }

/-- `PC.acc` leaves out no write: a step that changes a field has it as its access. -/
theorem acc_write (h : step c s i inp = some (s', e)) (x : Fld) (hx : s'.fld x ≠ s.fld x) : ∃ p, (s.pc i).acc = some ⟨x, true, p⟩ := by
  cases hpc : s.pc i <;> cases inp <;> simp only [step, hpc, reduceCtorEq, Option.some.injEq, Prod.mk.injEq] at h
  all_goals first
    | (obtain ⟨rfl, rfl⟩ := h)
    | (split at h <;> first | (cases h; done) | (simp only [Option.some.injEq, Prod.mk.injEq] at h; obtain ⟨rfl, rfl⟩ := h))
  all_goals first
    | (refine absurd ?_ hx; cases x <;> rfl; done)
    | (cases x <;> first | exact ⟨false, rfl⟩ | exact absurd rfl hx)

/-- `PC.acc` leaves out no read: a step that does not have the field as its access does the same whatever the field holds. -/
theorem acc_read (x : Fld) (v : Int) (h : ∀ a, (s.pc i).acc = some a → a.fld ≠ x) :
    step c (s.setFld x v) i inp = (step c s i inp).map fun r => (r.1.setFld x v, r.2) := by
  have hp : (s.setFld x v).pc = s.pc := by cases x <;> rfl
  cases hpc : s.pc i <;> rw [hpc] at h <;> cases inp <;> simp only [step, hp, hpc, Option.map_none]
  all_goals first
    | (cases x <;> rfl)
    | (cases x <;> first | exact absurd rfl (h _ rfl) | rfl)
    | (split <;> cases x <;> rfl; done)
    | (cases x <;> by_cases hl : s.lock = none <;> simp [State.setFld, State.go, hl]; done)

/-- The conflicting accesses of two threads: the same field, one writes, one is plain. -/
def Conflict (a b : Acc) : Prop := a.fld = b.fld ∧ (a.write ∨ b.write) ∧ (a.plain ∨ b.plain)

/-- Two threads are about to make conflicting accesses: nothing orders them. -/
def Race (s : State T E F A) (i j : Nat) : Prop := i ≠ j ∧ ∃ a b, (s.pc i).acc = some a ∧ (s.pc j).acc = some b ∧ Conflict a b

/-- **C100** does not hold: `Get` reads `last` under the lock while `Clear` resets it without the lock. -/
theorem C100_false : ¬ ∀ (c : Cfg Nat) (rf : Nat) (tr : List (Ev Nat Nat Nat Nat)) (ss : List (State Nat Nat Nat Nat)) (s : State Nat Nat Nat Nat)
    (i j : Nat), Exec c rf tr ss s → ¬ Race s i j := by
  intro hall
  have ht : ∃ tr ss s, Exec (⟨0, 5, 0⟩ : Cfg Nat) 0 tr ss s ∧ s.pc 0 = (.lNow 0 0 : PC Nat Nat Nat Nat) ∧ s.pc 1 = .kStore none := by
    refine ⟨_, _, _, ((((Exec.nil.snoc (i := 0) (inp := .call (.get 0 0)) rfl).snoc (i := 0) (inp := .go) rfl).snoc (i := 0) (inp := .time 100) rfl).snoc
      (i := 0) (inp := .go) rfl).snoc (i := 1) (inp := .call (.clear none 0)) rfl, rfl, rfl⟩
  obtain ⟨tr, ss, s, h, h0, h1⟩ := ht
  exact hall _ _ _ _ _ 0 1 h ⟨by decide, ⟨.last, false, true⟩, ⟨.last, true, false⟩, by rw [h0]; rfl, by rw [h1]; rfl, rfl, .inr rfl, .inl rfl⟩

/-- **C100**, except for `Clear`. The full statement is that of `C100_false`; here: of two threads about to make conflicting accesses one is in `Clear`,
about to reset `last`, and the other has the lock and is about to read `last` in `Get`. -/
theorem C100_partial (h : Exec c rf tr ss s) (hr : Race s i j) :
    ∃ i' j', (i' = i ∧ j' = j ∨ i' = j ∧ j' = i) ∧ (∃ x, s.pc i' = .kStore x) ∧ s.lock = some j' ∧ (s.pc j').acc = some ⟨.last, false, true⟩ := by
  have key : ∀ {i j : Nat} {a b : Acc}, i ≠ j → (s.pc i).acc = some a → (s.pc j).acc = some b → a.fld = b.fld → a.write ∨ b.write → b.plain →
      (∃ x, s.pc i = .kStore x) ∧ s.lock = some j ∧ (s.pc j).acc = some ⟨.last, false, true⟩ := by
    intro i j a b hij ha hb hf hw hp
    have hbl : (s.pc j).crit ∧ b.write = false := by
      cases hpc : s.pc j <;> rw [hpc] at hb <;> simp only [PC.acc, Option.some.injEq, reduceCtorEq] at hb <;> subst hb <;>
        first | (cases hp; done) | exact ⟨trivial, rfl⟩
    have hj : s.lock = some j := (h.lock.crit j).2 hbl.1
    have hi : ¬ (s.pc i).crit := fun hc => hij (Option.some.inj (((h.lock.crit i).2 hc).symm.trans hj))
    have hwa : a.write := by exact hw.elim (fun h => h) (fun h' => by rw [hbl.2] at h'; cases h')
    have hk : (∃ x, s.pc i = .kStore x) ∧ a.fld = .last := by
      cases hpc : s.pc i <;> rw [hpc] at ha hi <;> simp only [PC.acc, Option.some.injEq, reduceCtorEq] at ha <;> subst ha <;>
        first | (cases hwa; done) | exact absurd trivial hi | exact ⟨⟨_, rfl⟩, rfl⟩
    refine ⟨hk.1, hj, ?_⟩
    rw [hb]
    obtain ⟨f, w, p⟩ := b
    obtain ⟨_, h2⟩ := hbl
    simp only at h2 hp hf
    rw [h2, hp, ← hf, hk.2]
  obtain ⟨hij, a, b, ha, hb, h1, h2, h3⟩ := hr
  rcases h3 with h3 | h3
  · exact ⟨j, i, .inr ⟨rfl, rfl⟩, key (Ne.symm hij) hb ha h1.symm h2.symm h3⟩
  · exact ⟨i, j, .inl ⟨rfl, rfl⟩, key hij ha hb h1 h2 h3⟩

/-- **C100**: without `Clear` there are no races. -/
theorem C100_noClear (h : Exec c rf tr ss s) (hc : ∀ (k i : Nat) (op : Op F A), tr[k]? = some (.call i op) → ¬ op.isClear) : ¬ Race s i j := by
  intro hr
  obtain ⟨i', j', _, ⟨x, h1⟩, _⟩ := C100_partial h hr
  obtain ⟨p, op, h2, h3⟩ := h.kind i' (by rw [h1]; nofun)
  rw [h1] at h3
  refine hc p i' op h2.1 ?_
  rcases h3 with ⟨f, a, rfl⟩ | ⟨a, rfl⟩ <;> trivial

/-- A `Get` under the lock reads `last` (plain) while `Raw` reads it (atomically): no race. -/
example : ∃ (tr : List (Ev Nat Nat Nat Nat)) (ss : List (State Nat Nat Nat Nat)) (s : State Nat Nat Nat Nat), Exec (⟨0, 5, 0⟩ : Cfg Nat) 0 tr ss s ∧
    (s.pc 0).acc = some ⟨.last, false, true⟩ ∧ (s.pc 1).acc = some ⟨.last, false, false⟩ :=
  ⟨_, _, _, ((((Exec.nil.snoc (i := 0) (inp := .call (.get 0 0)) rfl).snoc (i := 0) (inp := .go) rfl).snoc (i := 0) (inp := .time 100) rfl).snoc
    (i := 0) (inp := .go) rfl).snoc (i := 1) (inp := .call .raw) rfl, rfl, rfl⟩

end Verif.Refresh
