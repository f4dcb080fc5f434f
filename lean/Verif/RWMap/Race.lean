import Verif.RWMap.Maps
/-!
# Data races on the fields of `RWMap` (C108)

`read` and the pointers in the entries have atomic types.  `mu` protects `dirty` and `misses`.  `len` is an `int64` accessed by `sync/atomic`, except
in `Clear`, which sets it by an ordinary assignment.
-/
namespace Verif.RWMap
variable {K V : Type} [DecidableEq K] [Inhabited V]
variable {eqv : V → V → Option Bool} {prog : Nat → Op K V} {h : List (Ev K V)} {s s' : State K V} {g : Ghost K V} {i j : Nat}
  {ord : List (K × Nat) → List (K × Nat)} {go : Bool}

/-- The fields that are not of an atomic type: rwmap.go:36-71. -/
inductive Fld where
  | dirty
  | misses
  | len
  deriving DecidableEq

/-- An access to a field: which one, whether it writes, and whether it is plain (not by `sync/atomic`). -/
structure Acc where
  fld : Fld
  write : Bool
  plain : Bool
  deriving DecidableEq

/-- The accesses the next step of a call may make: `atomic.LoadInt64(&m.len)` rwmap.go:531, `atomic.AddInt64(&m.len, …)` 210, 284, 347, 428,
`m.len = 0` 527, and, with the mutex held, plain accesses to `dirty` and `misses` (all steps with the mutex held are taken to read and write both). -/
def accs (op : Op K V) : PC K V → List Acc
  | .start => match op with
    | .len => [⟨.len, false, false⟩]
    | _ => []
  | .add _ _ => [⟨.len, true, false⟩]
  | .zero => [⟨.len, true, true⟩]
  | c => if c.locked then [⟨.dirty, true, true⟩, ⟨.misses, true, true⟩] else []

theorem accs_cases {op : Op K V} {c : PC K V} {a : Acc} (ha : a ∈ accs op c) :
    (c = .start ∧ op = .len ∧ a = ⟨.len, false, false⟩) ∨ (∃ d r, c = .add d r ∧ a = ⟨.len, true, false⟩) ∨ (c = .zero ∧ a = ⟨.len, true, true⟩) ∨
      (c.locked = true ∧ a.fld ≠ .len) := by
  unfold accs at ha
  split at ha
  · split at ha
    · exact .inl ⟨rfl, rfl, List.mem_singleton.1 ha⟩
    · cases ha
  · exact .inr (.inl ⟨_, _, rfl, List.mem_singleton.1 ha⟩)
  · exact .inr (.inr (.inl ⟨rfl, List.mem_singleton.1 ha⟩))
  · split at ha
    next hl =>
      refine .inr (.inr (.inr ⟨hl, ?_⟩))
      simp only [List.mem_cons, List.not_mem_nil, or_false] at ha
      rcases ha with rfl | rfl <;> nofun
    next => cases ha

/-- Change `len`. -/
def Sh.setLen (h : Sh K) (n : Int) : Sh K := { h with len := n }

def setLen (s : State K V) (n : Int) : State K V := { s with sh := s.sh.setLen n }

theorem miss_setLen (h : Sh K) (n : Int) (nx : Nx K V) : missLocked (h.setLen n) nx = ((missLocked h nx).1.setLen n, (missLocked h nx).2) := by
  by_cases hc : h.misses + 1 < (h.dirty.getD []).length <;> simp [missLocked, Sh.setLen, hc]

theorem after_setLen (h : Sh K) (n : Int) (op : Op K V) (lk : Lk) (r : Res K V) :
    after (h.setLen n) op lk r = ((after h op lk r).1.setLen n, (after h op lk r).2) := by
  cases lk with
  | lm => exact miss_setLen _ _ _
  | _ => rfl

theorem putNew_setLen (h : Sh K) (n : Int) (i : Nat) (k : K) (r : Res K V) :
    putNew (h.setLen n) i k r = ((putNew h i k r).1.setLen n, (putNew h i k r).2) := by
  cases hd : h.dirty <;> simp [putNew, Sh.setLen, hd]

theorem crit_setLen (h : Sh K) (n : Int) (i : Nat) (op : Op K V) : critStep (h.setLen n) i op = ((critStep h i op).1.setLen n, (critStep h i op).2) := by
  have hr : (h.setLen n).read = h.read := rfl
  have hd : (h.setLen n).dirty = h.dirty := rfl
  cases op <;> simp only [critStep, hr, hd, miss_setLen, putNew_setLen] <;> (repeat' split) <;> first | rfl | exact miss_setLen { h with dirty := _ } n _

theorem ent_setLen (h : Sh K) (n : Int) (op : Op K V) (e : Nat) (lk : Lk) :
    entStep eqv prog (h.setLen n) op e lk = ((entStep eqv prog h op e lk).1.setLen n, (entStep eqv prog h op e lk).2) := by
  have hr : (h.setLen n).ent = h.ent := rfl
  cases op <;> simp only [entStep, hr, after_setLen] <;> (repeat' split) <;> rfl

theorem cas_setLen (h : Sh K) (n : Int) (i : Nat) (op : Op K V) (e : Nat) (lk : Lk) (p : Ptr) :
    casStep prog (h.setLen n) i op e lk p = ((casStep prog h i op e lk p).1.setLen n, (casStep prog h i op e lk p).2) := by
  have hr : (h.setLen n).ent = h.ent := rfl
  have hs : ∀ q, (h.setLen n).setEnt e q = (h.setEnt e q).setLen n := fun _ => rfl
  cases op <;> simp only [casStep, hr, hs, after_setLen] <;> (repeat' split) <;> rfl

theorem unexp_setLen (h : Sh K) (n : Int) (op : Op K V) (e : Nat) : unexpStep (h.setLen n) op e = ((unexpStep h op e).1.setLen n, (unexpStep h op e).2) := by
  have hr : (h.setLen n).ent = h.ent := rfl
  have hd : (h.setLen n).dirty = h.dirty := rfl
  cases op <;> simp only [unexpStep, hr, hd] <;> (repeat' split) <;> rfl

theorem swp_setLen (h : Sh K) (n : Int) (i e : Nat) : swpStep prog (h.setLen n) i e = ((swpStep prog h i e).1.setLen n, (swpStep prog h i e).2) := by
  have hr : (h.setLen n).ent = h.ent := rfl
  simp only [swpStep, hr]; split <;> rfl

/-- `accs` leaves out no access to `len`: another step does the same whatever `len` is, and leaves it as it is. -/
theorem accs_len (n : Int) (ha : ∀ a ∈ accs (prog i) (s.pc i), a.fld ≠ .len) :
    next eqv prog ord go (setLen s n) i = (next eqv prog ord go s i).map fun s' => setLen s' n := by
  cases hc : s.pc i with
  | start =>
    simp only [next, setLen, hc, Option.map_some]
    rw [hc] at ha
    cases hop : prog i
    case len => rw [hop] at ha; exact absurd rfl (ha _ (List.mem_singleton.2 rfl))
    all_goals rfl
  | zero => rw [hc] at ha; exact absurd rfl (ha _ (List.mem_singleton.2 rfl))
  | add d r => rw [hc] at ha; exact absurd rfl (ha _ (List.mem_singleton.2 rfl))
  | crit => simp only [next, setLen, hc, crit_setLen]; rfl
  | ent e lk => simp only [next, setLen, hc, ent_setLen]; rfl
  | cas e lk p => simp only [next, setLen, hc, cas_setLen]; rfl
  | unexp e => simp only [next, setLen, hc, unexp_setLen]; rfl
  | swp e => simp only [next, setLen, hc, swp_setLen]; rfl
  | amend rm =>
    have hr : ∀ x, ({ s.sh.setLen n with read := x } : Sh K) = ({ s.sh with read := x } : Sh K).setLen n := fun _ => rfl
    simp only [next, setLen, hc, hr, putNew_setLen]
    cases (prog i).key? <;> rfl
  | unl nx => cases nx <;> simp only [next, setLen, hc] <;> rfl
  | _ =>
    have h1 : (s.sh.setLen n).mu = s.sh.mu := rfl
    have h2 : (s.sh.setLen n).dirty = s.sh.dirty := rfl
    have h3 : (s.sh.setLen n).ent = s.sh.ent := rfl
    simp only [next, setLen, hc, h1, h2, h3] <;> (repeat' split) <;> first | rfl | contradiction | simp_all

/-- The conflicting accesses of two calls: the same field, one writes, one is plain. -/
def Conflict (a b : Acc) : Prop := a.fld = b.fld ∧ (a.write ∨ b.write) ∧ (a.plain ∨ b.plain)

/-- Two calls are about to make conflicting accesses: nothing orders them. -/
def Race (prog : Nat → Op K V) (s : State K V) (i j : Nat) : Prop :=
  i ≠ j ∧ ∃ a ∈ accs (prog i) (s.pc i), ∃ b ∈ accs (prog j) (s.pc j), Conflict a b

/-- **C108** does not hold: `Clear` assigns to `len` while `Swap` adds to it atomically. -/
theorem rwmap_race_false : ¬ ∀ (prog : Nat → Op Nat Nat) (h : List (Ev Nat Nat)) (s : State Nat Nat) (i j : Nat),
    Exec (fun a b => some (a == b)) prog h s → ¬ Race prog s i j := by
  intro hall
  obtain ⟨⟨s, h⟩, he⟩ : ∃ x, sched (fun a b => some (a == b)) exProg true (rep 8 0 ++ rep 5 6) State.init [] = some x := ⟨_, rfl⟩
  have hx := sched_exec .init he
  cases he
  exact hall exProg _ _ 0 6 hx ⟨by decide, ⟨.len, true, false⟩, List.mem_singleton.2 rfl, ⟨.len, true, true⟩, List.mem_singleton.2 rfl, rfl, .inl rfl, .inr rfl⟩

/-- **C108**, except for `Clear`. The full statement is that of `rwmap_race_false`; here: of two calls about to make conflicting accesses one is a
`Clear`, with the mutex, about to reset `len`, and the other, without the mutex, is about to add to `len` or to read it for `Len`. -/
theorem rwmap_race_partial (hx : Exec eqv prog h s) (hr : Race prog s i j) :
    ∃ c o, (c = i ∧ o = j ∨ c = j ∧ o = i) ∧ prog c = .clear ∧ s.pc c = .zero ∧ s.sh.mu = some c ∧
      ((∃ d r, s.pc o = .add d r) ∨ s.pc o = .start ∧ prog o = .len) := by
  have key : ∀ {i j : Nat} {a b : Acc}, i ≠ j → a ∈ accs (prog i) (s.pc i) → b ∈ accs (prog j) (s.pc j) → a.fld = b.fld → b.plain →
      prog j = .clear ∧ s.pc j = .zero ∧ s.sh.mu = some j ∧ ((∃ d r, s.pc i = .add d r) ∨ s.pc i = .start ∧ prog i = .len) := by
    intro i j a b hij ha hb hf hp
    obtain ⟨g, I, _⟩ := exec_inv hx
    have hlj : (s.pc j).locked = true ∧ (s.pc j = .zero ∨ b.fld ≠ .len) := by
      rcases accs_cases hb with ⟨_, _, rfl⟩ | ⟨_, _, _, rfl⟩ | ⟨h, _⟩ | ⟨h, h'⟩
      · cases hp
      · cases hp
      · exact ⟨by rw [h]; rfl, .inl h⟩
      · exact ⟨h, .inr h'⟩
    have hmj := (I.str.mu j).1 hlj.1
    have hli : (s.pc i).locked = false := by
      by_contra hl
      have := (I.str.mu i).1 (by simpa using hl)
      rw [hmj] at this
      exact hij (Option.some.inj this).symm
    have hai : a.fld = .len ∧ ((∃ d r, s.pc i = .add d r) ∨ s.pc i = .start ∧ prog i = .len) := by
      rcases accs_cases ha with ⟨h1, h2, rfl⟩ | ⟨d, r, h, rfl⟩ | ⟨h, _⟩ | ⟨h, _⟩
      · exact ⟨rfl, .inr ⟨h1, h2⟩⟩
      · exact ⟨rfl, .inl ⟨d, r, h⟩⟩
      · rw [h] at hli; cases hli
      · rw [h] at hli; cases hli
    have hz : s.pc j = .zero := hlj.2.resolve_right fun h => h (hf.symm.trans hai.1)
    have hO := I.ops j
    simp only [OpOk, hz] at hO
    exact ⟨hO, hz, hmj, hai.2⟩
  obtain ⟨hij, a, ha, b, hb, h1, _, h3⟩ := hr
  rcases h3 with h3 | h3
  · obtain ⟨k1, k2, k3, k4⟩ := key (Ne.symm hij) hb ha h1.symm h3
    exact ⟨i, j, .inl ⟨rfl, rfl⟩, k1, k2, k3, k4⟩
  · obtain ⟨k1, k2, k3, k4⟩ := key hij ha hb h1 h3
    exact ⟨j, i, .inr ⟨rfl, rfl⟩, k1, k2, k3, k4⟩

/-- **C108**: without `Clear` there are no races. -/
theorem rwmap_race_noClear (hx : Exec eqv prog h s) (hc : ∀ c, prog c = .clear → .inv c ∉ h) : ¬ Race prog s i j := by
  intro hr
  obtain ⟨c, o, _, h1, h2, _⟩ := rwmap_race_partial hx hr
  exact hc c h1 (((exec_book hx).inv c).2 (by rw [h2]; nofun))

/-- `Swap` (0) is about to add to `len` and `Len` (10) to read it: both by `sync/atomic`, no race. -/
example : ∃ h s, Exec (fun a b => some (a == b)) exProg h s ∧ accs (exProg 0) (s.pc 0) = [⟨.len, true, false⟩] ∧
    accs (exProg 10) (s.pc 10) = [⟨.len, false, false⟩] ∧ ¬ Race exProg s 0 10 := by
  obtain ⟨⟨s, h⟩, he⟩ : ∃ x, sched (fun a b => some (a == b)) exProg true (rep 8 0 ++ rep 1 10) State.init [] = some x := ⟨_, rfl⟩
  have hx := sched_exec .init he
  cases he
  refine ⟨_, _, hx, rfl, rfl, rwmap_race_noClear hx ?_⟩
  intro c hc hi
  have : c = 6 := by unfold exProg at hc; split at hc <;> first | rfl | cases hc
  subst this
  exact ((exec_book hx).inv 6).1 hi rfl

end Verif.RWMap
