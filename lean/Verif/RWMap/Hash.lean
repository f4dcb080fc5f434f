import Verif.RWMap.Panic
import Verif.RWMap.Whole
/-!
# Keys that cannot be hashed (C146)

The key type of an `RWMap` is any comparable type (rwmap.go:36), interface types such as `any` included; a key may then hold a slice, a map
or a function, and looking it up in a Go map panics, also if the map is empty or nil.  Every call with a key looks it up first thing after
loading `read`, without the mutex (rwmap.go:126, 215, 288, 351, 395, 432), so it panics there.  Its deferred function runs all the same: in
`LoadOrStore` and `Swap` (hence `Store`) `loaded` is still false, and `len` is raised (rwmap.go:208-212, 345-349); in `LoadAndDelete`
and `CompareAndDelete` the deferred function does nothing (rwmap.go:282-286, 426-430).
-/
namespace Verif.RWMap
variable {K V : Type}

/-- The call has a key that cannot be hashed; `ok`: which ones can. -/
def Op.bad (ok : K → Bool) (op : Op K V) : Bool :=
  match op.key? with
  | some k => !ok k
  | none => false

/-- The call stores a value whatever is there, or if nothing is. -/
def Op.counts : Op K V → Bool
  | .swap _ _ | .loadOrStore _ _ => true
  | _ => false

/-- The lookup has panicked: the deferred functions follow, rwmap.go:208-212, 282-286, 345-349, 426-430. -/
def raise (op : Op K V) : PC K V :=
  match op with
  | .swap _ _ | .loadOrStore _ _ => .add 1 .panicked
  | _ => .fin .panicked

variable [DecidableEq K] [Inhabited V] (ok : K → Bool) (eqv : V → V → Option Bool) (prog : Nat → Op K V)

/-- One step of call `i`, cf. `next`. -/
def hnext (ord : List (K × Nat) → List (K × Nat)) (go : Bool) (s : State K V) (i : Nat) : Option (State K V) :=
  match s.pc i with
  | .start => if (prog i).bad ok then some (s.goto i (raise (prog i))) else next eqv prog ord go s i
  | _ => next eqv prog ord go s i

/-- One step of some call. -/
def HStep (s : State K V) (evs : List (Ev K V)) (s' : State K V) : Prop :=
  ∃ i ord go, (∀ l, (ord l).Perm l) ∧ hnext ok eqv prog ord go s i = some s' ∧ evs = event prog s i

/-- The executions, with their histories. -/
inductive HExec : List (Ev K V) → State K V → Prop
  | init : HExec [] State.init
  | step {h s evs s'} : HExec h s → HStep ok eqv prog s evs s' → HExec (h ++ evs) s'

/-- The history without the calls whose key cannot be hashed. -/
def without (h : List (Ev K V)) : List (Ev K V) := h.filter fun e => !(prog e.call).bad ok

/-- **C146**, the claim: a call with a key that cannot be hashed panics without effect. What the other calls see is what they see
if it is not made. -/
def Harmless : Prop := ∀ h s, HExec ok eqv prog h s → ∃ t, Exec eqv prog (without ok prog h) t

/-- The same event, except that `Len` may return another number. -/
def Same (e e' : Ev K V) : Prop := e = e' ∨ ∃ i n n', prog i = .len ∧ e = .ret i (.int n) ∧ e' = .ret i (.int n')

/-! ## Steps do not depend on `len` -/

/-- `next`, for one call. -/
def act (ord : List (K × Nat) → List (K × Nat)) (go : Bool) (h : Sh K) (i : Nat) (c : PC K V) : Option (Sh K × PC K V) :=
  (next eqv prog ord go ⟨h, fun _ => c⟩ i).map fun s => (s.sh, s.pc i)

variable {ok eqv prog}

theorem next_act (ord : List (K × Nat) → List (K × Nat)) (go : Bool) (s : State K V) (i : Nat) :
    next eqv prog ord go s i = (act eqv prog ord go s.sh i (s.pc i)).map fun r => { s with sh := r.1 }.goto i r.2 := by
  unfold act next
  cases hc : s.pc i with
  | acq => simp only; split <;> simp [State.goto]
  | copy0 rm => simp only; split <;> simp [State.goto]
  | copy es rm =>
    rcases es with _ | ⟨⟨k, e⟩, es⟩
    · simp [State.goto]
    · simp only; split <;> simp [State.goto]
  | expunge es rm =>
    rcases es with _ | ⟨⟨k, e⟩, es⟩
    · rfl
    · simp only; split <;> simp [State.goto]
  | amend rm => simp only; split <;> simp [State.goto]
  | unl nx => cases nx <;> simp [State.goto]
  | rng es acc =>
    rcases es with _ | ⟨⟨k, e⟩, es⟩
    · simp [State.goto]
    · simp only; split
      · simp [State.goto]
      · split <;> simp [State.goto]
  | _ => simp [State.goto]

/-- The same memory with another `len`. -/
def Sh.withLen (h : Sh K) (n : Int) : Sh K := { h with len := n }

/-- What a step makes of `len`. -/
def lenAfter (c : PC K V) (n : Int) : Int :=
  match c with
  | .add d _ => n + d
  | .zero => 0
  | _ => n

theorem missLocked_len (h : Sh K) (nx : Nx K V) (n : Int) :
    missLocked (h.withLen n) nx = ((missLocked h nx).1.withLen n, (missLocked h nx).2) := by
  unfold missLocked; simp only [Sh.withLen]
  by_cases hm : h.misses + 1 < (h.dirty.getD []).length <;> simp [hm]

theorem after_len (h : Sh K) (op : Op K V) (lk : Lk) (r : Res K V) (n : Int) :
    after (h.withLen n) op lk r = ((after h op lk r).1.withLen n, (after h op lk r).2) := by
  cases lk with
  | lm => exact missLocked_len h _ n
  | _ => rfl

theorem putNew_len (h : Sh K) (i : Nat) (k : K) (r : Res K V) (n : Int) :
    putNew (h.withLen n) i k r = ((putNew h i k r).1.withLen n, (putNew h i k r).2) := by
  obtain ⟨rd, d, ms, ln, mu, en, fr⟩ := h
  cases d <;> rfl

theorem critStep_len (h : Sh K) (i : Nat) (op : Op K V) (n : Int) :
    critStep (h.withLen n) i op = ((critStep h i op).1.withLen n, (critStep h i op).2) := by
  have hml := fun (h : Sh K) (nx : Nx K V) => missLocked_len h nx n
  have hpn := fun (h : Sh K) i k (r : Res K V) => putNew_len h i k r n
  obtain ⟨⟨rm, am⟩, d, ms, ln, mu, en, fr⟩ := h
  simp only [Sh.withLen] at hml hpn
  cases op with
  | load k | compareAndDelete k =>
    simp only [critStep, Sh.withLen]
    cases aget rm k with
    | some e => rfl
    | none => cases am <;> cases aget (d.getD []) k <;> first | rfl | exact hml ⟨⟨rm, true⟩, d, ms, ln, mu, en, fr⟩ _
  | loadAndDelete k =>
    simp only [critStep, Sh.withLen]
    cases aget rm k with
    | some e => rfl
    | none => cases am <;> cases aget (d.getD []) k <;> first | rfl | exact hml ⟨⟨rm, true⟩, d.map (adel · k), ms, ln, mu, en, fr⟩ _
  | swap k v | loadOrStore k v =>
    simp only [critStep, Sh.withLen]
    cases aget rm k with
    | some e => rfl
    | none => cases am <;> cases aget (d.getD []) k <;> first | rfl | exact hpn ⟨⟨rm, true⟩, d, ms, ln, mu, en, fr⟩ _ _ _
  | compareAndSwap k o v =>
    simp only [critStep, Sh.withLen]
    cases aget rm k with
    | some e => rfl
    | none => cases aget (d.getD []) k <;> rfl
  | clear =>
    rcases rm with _ | ⟨x, rm⟩ <;> cases am <;> simp [critStep, Sh.withLen]
  | range => cases am <;> rfl
  | len => rfl

theorem entStep_len (h : Sh K) (op : Op K V) (e : Nat) (lk : Lk) (n : Int) :
    entStep eqv prog (h.withLen n) op e lk = ((entStep eqv prog h op e lk).1.withLen n, (entStep eqv prog h op e lk).2) := by
  have haf := fun (op : Op K V) lk r => after_len h op lk r n
  have he : (h.withLen n).ent e = h.ent e := rfl
  cases op with
  | load k => exact haf _ _ _
  | swap k v =>
    simp only [entStep, he]
    by_cases hp : h.ent e = .exp
    · simp only [if_pos hp]
    · simp only [if_neg hp]
  | loadOrStore k v =>
    simp only [entStep, he]
    cases h.ent e with
    | exp => by_cases hl : lk = .u <;> simp [hl, haf]
    | _ => simp [haf]
  | loadAndDelete k =>
    simp only [entStep, he]
    cases h.ent e <;> simp [haf]
  | compareAndSwap k o v | compareAndDelete k o =>
    simp only [entStep, he]
    cases h.ent e with
    | val b => rcases hb : eqv (prog b).arg o with _ | _ | _ <;> simp [haf, hb]
    | _ => simp [haf]
  | _ => rfl

theorem casStep_len (h : Sh K) (i : Nat) (op : Op K V) (e : Nat) (lk : Lk) (p : Ptr) (n : Int) :
    casStep prog (h.withLen n) i op e lk p = ((casStep prog h i op e lk p).1.withLen n, (casStep prog h i op e lk p).2) := by
  have he : (h.withLen n).ent e = h.ent e := rfl
  have hs : ∀ q, (h.withLen n).setEnt e q = (h.setEnt e q).withLen n := fun _ => rfl
  unfold casStep
  by_cases hp : h.ent e = p
  · rw [if_pos (he.trans hp), if_pos hp]
    cases op <;> simp [hs, after_len]
  · rw [if_neg (fun hh => hp (he ▸ hh)), if_neg hp]

theorem unexpStep_len (h : Sh K) (op : Op K V) (e : Nat) (n : Int) :
    unexpStep (h.withLen n) op e = ((unexpStep h op e).1.withLen n, (unexpStep h op e).2) := by
  have he : (h.withLen n).ent e = h.ent e := rfl
  unfold unexpStep
  by_cases hp : h.ent e = .exp
  · simp only [if_pos (he.trans hp), if_pos hp]
    obtain ⟨rd, d, ms, ln, mu, en, fr⟩ := h
    cases op <;> cases d <;> rfl
  · simp only [if_neg (show ¬ (h.withLen n).ent e = .exp from hp), if_neg hp]

theorem swpStep_len (h : Sh K) (i e : Nat) (n : Int) :
    swpStep prog (h.withLen n) i e = ((swpStep prog h i e).1.withLen n, (swpStep prog h i e).2) := by
  have he : (h.withLen n).ent e = h.ent e := rfl
  unfold swpStep
  rw [he]
  cases h.ent e <;> rfl

theorem startStep_len (ord : List (K × Nat) → List (K × Nat)) (h : Sh K) (op : Op K V) (n : Int) (hop : op ≠ .len) :
    startStep ord (h.withLen n) op = startStep ord h op := by
  unfold startStep
  cases op <;> first | rfl | exact absurd rfl hop

theorem act_len (ord : List (K × Nat) → List (K × Nat)) (go : Bool) (h : Sh K) (i : Nat) (c : PC K V) (n : Int)
    (hc : c = .start → prog i ≠ .len) :
    act eqv prog ord go (h.withLen n) i c =
      (act eqv prog ord go h i c).map fun r => (r.1.withLen (lenAfter c n), r.2) := by
  unfold act next
  cases c with
  | start => simp [State.goto, startStep_len _ _ _ _ (hc rfl), lenAfter]
  | crit => simp [State.goto, critStep_len, lenAfter]
  | ent e lk => simp [State.goto, entStep_len, lenAfter]
  | cas e lk p => simp [State.goto, casStep_len, lenAfter]
  | unexp e => simp [State.goto, unexpStep_len, lenAfter]
  | swp e => simp [State.goto, swpStep_len, lenAfter]
  | acq => by_cases hm : h.mu = none <;> simp [State.goto, lenAfter, Sh.withLen, hm]
  | copy0 rm => by_cases hm : h.dirty.isSome = true <;> simp [State.goto, lenAfter, Sh.withLen, hm]
  | copy es rm =>
    rcases es with _ | ⟨⟨k, e⟩, es⟩
    · simp [State.goto, lenAfter]
    · cases hm : h.ent e <;> simp [State.goto, lenAfter, Sh.withLen, dirtyPut, hm]
  | expunge es rm =>
    rcases es with _ | ⟨⟨k, e⟩, es⟩
    · rfl
    · by_cases hm : h.ent e = .nil <;> simp [State.goto, lenAfter, Sh.withLen, Sh.setEnt, hm]
  | amend rm =>
    simp only
    split
    · simp [State.goto, lenAfter]
    · have := fun k => putNew_len ({ h with read := ⟨rm, true⟩ }) i k (newRes (prog i)) n
      simp only [Sh.withLen] at this
      simp [State.goto, lenAfter, Sh.withLen, this]
  | unl nx => cases nx <;> simp [State.goto, lenAfter, Sh.withLen]
  | rng es acc =>
    rcases es with _ | ⟨⟨k, e⟩, es⟩
    · simp [State.goto, lenAfter]
    · cases hm : deref prog (h.ent e) <;> cases go <;> simp [State.goto, lenAfter, Sh.withLen, hm]
  | add d r => simp [State.goto, lenAfter, Sh.withLen]
  | _ => simp [State.goto, lenAfter, Sh.withLen]

theorem act_lenAfter {ord : List (K × Nat) → List (K × Nat)} {go : Bool} {h : Sh K} {i : Nat} {c : PC K V}
    (hc : c = .start → prog i ≠ .len) {r : Sh K × PC K V} (hr : act eqv prog ord go h i c = some r) : r.1.len = lenAfter c h.len := by
  have := act_len (eqv := eqv) (prog := prog) ord go h i c h.len hc
  rw [show h.withLen h.len = h from rfl, hr] at this
  simp only [Option.map_some, Option.some.injEq] at this
  rw [this]
  rfl

/-! ## The execution without the calls that panic -/

/-- A call that stores and whose key cannot be hashed has panicked, and has raised `len`. -/
def Past (c : PC K V) : Prop := c = .fin .panicked ∨ c = .done .panicked

/-- An execution `s` and the same execution without the calls whose keys cannot be hashed, `t`. -/
structure Sim (ok : K → Bool) (prog : Nat → Op K V) (h hb : List (Ev K V)) (s t : State K V) : Prop where
  sh : t.sh = s.sh.withLen t.sh.len
  low : ∀ i, (prog i).bad ok = true → t.pc i = .idle
  pcs : ∀ i, (prog i).bad ok = false → s.pc i = t.pc i ∨ (prog i = .len ∧ ∃ n n',
    (s.pc i = .fin (.int n) ∧ t.pc i = .fin (.int n')) ∨ (s.pc i = .done (.int n) ∧ t.pc i = .done (.int n')))
  hist : List.Forall₂ (Same prog) (without ok prog h) hb
  bads : ∀ i, (prog i).bad ok = true → s.pc i = .idle ∨ s.pc i = .start ∨ ((prog i).counts = true ∧ s.pc i = .add 1 .panicked) ∨ Past (s.pc i)
  binv : ∀ i, (prog i).bad ok = true → (.inv i ∈ h ↔ s.pc i ≠ .idle)
  bret : ∀ i, (prog i).bad ok = true → ∀ r, .ret i r ∈ h ↔ s.pc i = .done r
  count : ∃ bs : List Nat, bs.Nodup ∧ (∀ i ∈ bs, (prog i).bad ok = true ∧ (prog i).counts = true ∧ Past (s.pc i)) ∧
    s.sh.len = t.sh.len + bs.length ∧ ((∀ c, prog c = .clear → s.pc c = .idle) →
      ∀ i, (prog i).bad ok = true → (prog i).counts = true → Past (s.pc i) → i ∈ bs)
  clean : (∀ i, (prog i).bad ok = true → (prog i).counts = false) →
    t.sh = s.sh ∧ (∀ i, (prog i).bad ok = false → s.pc i = t.pc i) ∧ without ok prog h = hb

theorem event_call {s : State K V} {i : Nat} {e : Ev K V} (he : e ∈ event prog s i) : e.call = i := by
  unfold event at he
  repeat' split at he
  all_goals simp at he
  all_goals subst he; rfl

theorem without_bad {h evs : List (Ev K V)} {i : Nat} (hb : (prog i).bad ok = true) (he : ∀ e ∈ evs, e.call = i) :
    without ok prog (h ++ evs) = without ok prog h := by
  unfold without
  rw [List.filter_append, List.append_right_eq_self, List.filter_eq_nil_iff]
  intro e hm
  rw [he e hm, hb]
  simp

theorem without_good {h evs : List (Ev K V)} {i : Nat} (hb : (prog i).bad ok = false) (he : ∀ e ∈ evs, e.call = i) :
    without ok prog (h ++ evs) = without ok prog h ++ evs := by
  unfold without
  rw [List.filter_append, List.append_cancel_left_eq, List.filter_eq_self]
  intro e hm
  rw [he e hm, hb]
  rfl

theorem Same.refl (e : Ev K V) : Same prog e e := .inl rfl

theorem same_refl (l : List (Ev K V)) : List.Forall₂ (Same prog) l l := by
  induction l with
  | nil => exact .nil
  | cons e l ih => exact .cons (.inl rfl) ih

theorem event_eq {s t : State K V} {i : Nat} (hp : s.pc i = t.pc i) (he : s.sh.ent = t.sh.ent) : event prog s i = event prog t i := by
  unfold event; rw [hp, he]

theorem hnext_good {ord : List (K × Nat) → List (K × Nat)} {go : Bool} {s : State K V} {i : Nat} (hb : (prog i).bad ok = false) :
    hnext ok eqv prog ord go s i = next eqv prog ord go s i := by
  unfold hnext
  split
  · simp [hb]
  · rfl

/-- The steps of a call whose key cannot be hashed. -/
theorem hnext_bad {ord : List (K × Nat) → List (K × Nat)} {go : Bool} {s s' : State K V} {i : Nat} (hb : (prog i).bad ok = true)
    (hs : s.pc i = .idle ∨ s.pc i = .start ∨ ((prog i).counts = true ∧ s.pc i = .add 1 .panicked) ∨ Past (s.pc i))
    (hn : hnext ok eqv prog ord go s i = some s') :
    (s.pc i = .idle ∧ s' = s.goto i .start ∧ event prog s i = [.inv i]) ∨
    (s.pc i = .start ∧ (prog i).counts = true ∧ s' = s.goto i (.add 1 .panicked) ∧ event prog s i = []) ∨
    (s.pc i = .start ∧ (prog i).counts = false ∧ s' = s.goto i (.fin .panicked) ∧ event prog s i = []) ∨
    ((prog i).counts = true ∧ s.pc i = .add 1 .panicked ∧ s' = ({ s with sh := s.sh.withLen (s.sh.len + 1) } : State K V).goto i (.fin .panicked) ∧
      event prog s i = []) ∨
    (s.pc i = .fin .panicked ∧ s' = s.goto i (.done .panicked) ∧ event prog s i = [.ret i .panicked]) := by
  rcases hs with hc | hc | ⟨hk, hc⟩ | hc | hc <;> simp only [hnext, next, hc, hb, if_true, Option.some.injEq, reduceCtorEq] at hn
  · exact .inl ⟨hc, hn.symm, by simp [event, hc]⟩
  · cases hk : (prog i).counts
    · refine .inr (.inr (.inl ⟨hc, rfl, ?_, by simp [event, hc]⟩))
      rw [← hn]
      cases hop : prog i <;> rw [hop] at hk <;> first | rfl | cases hk
    · refine .inr (.inl ⟨hc, rfl, ?_, by simp [event, hc]⟩)
      rw [← hn]
      cases hop : prog i <;> rw [hop] at hk <;> first | rfl | cases hk
  · exact .inr (.inr (.inr (.inl ⟨hk, hc, hn.symm, by simp [event, hc]⟩)))
  · exact .inr (.inr (.inr (.inr ⟨hc, hn.symm, by simp [event, hc]⟩)))

theorem goto_self (s : State K V) (i : Nat) (c : PC K V) : (s.goto i c).pc i = c := by simp [State.goto]
theorem goto_ne (s : State K V) {i j : Nat} (c : PC K V) (h : j ≠ i) : (s.goto i c).pc j = s.pc j := by simp [State.goto, h]

theorem bad_ne_clear {op : Op K V} (h : op.bad ok = true) : op ≠ .clear := by rintro rfl; cases h

/-- A step of a call whose key cannot be hashed that leaves `len` alone. -/
theorem Sim.bad_goto {h hb evs : List (Ev K V)} {s t : State K V} {i : Nat} {c : PC K V} (S : Sim ok prog h hb s t)
    (hb' : (prog i).bad ok = true) (hev : ∀ e ∈ evs, e.call = i)
    (hc : c = .idle ∨ c = .start ∨ ((prog i).counts = true ∧ c = .add 1 .panicked) ∨ Past c)
    (hcnt : (prog i).counts = true → (Past c ↔ Past (s.pc i)))
    (hinv : .inv i ∈ h ++ evs ↔ c ≠ .idle) (hret : ∀ r, .ret i r ∈ h ++ evs ↔ c = .done r) :
    Sim ok prog (h ++ evs) hb (s.goto i c) t where
  sh := S.sh
  low := S.low
  pcs := by
    intro j hj
    rw [goto_ne _ _ (by rintro rfl; rw [hb'] at hj; cases hj)]
    exact S.pcs j hj
  hist := by rw [without_bad hb' hev]; exact S.hist
  bads := by
    intro j hj
    by_cases hji : j = i
    · subst hji; rw [goto_self]; exact hc
    · rw [goto_ne _ _ hji]; exact S.bads j hj
  binv := by
    intro j hj
    by_cases hji : j = i
    · subst hji; rw [goto_self]; exact hinv
    · rw [goto_ne _ _ hji, ← S.binv j hj, List.mem_append]
      exact ⟨fun hh => hh.resolve_right fun hm => hji (hev _ hm), .inl⟩
  bret := by
    intro j hj r
    by_cases hji : j = i
    · subst hji; rw [goto_self]; exact hret r
    · rw [goto_ne _ _ hji, ← S.bret j hj, List.mem_append]
      exact ⟨fun hh => hh.resolve_right fun hm => hji (hev _ hm), .inl⟩
  count := by
    obtain ⟨bs, h1, h2, h3, h4⟩ := S.count
    refine ⟨bs, h1, fun j hj => ?_, h3, fun hcl j hj hjc hp => ?_⟩
    · obtain ⟨ha, hb2, hp⟩ := h2 j hj
      refine ⟨ha, hb2, ?_⟩
      by_cases hji : j = i
      · subst hji; rw [goto_self]; exact (hcnt hb2).2 hp
      · rw [goto_ne _ _ hji]; exact hp
    · refine h4 (fun k hk => ?_) j hj hjc ?_
      · have := hcl k hk
        rwa [goto_ne _ _ (by rintro rfl; exact bad_ne_clear hb' hk)] at this
      · by_cases hji : j = i
        · subst hji; rw [goto_self] at hp; exact (hcnt hjc).1 hp
        · rwa [goto_ne _ _ hji] at hp
  clean := by
    intro hno
    obtain ⟨h1, h2, h3⟩ := S.clean hno
    refine ⟨h1, fun j hj => ?_, by rw [without_bad hb' hev]; exact h3⟩
    rw [goto_ne _ _ (by rintro rfl; rw [hb'] at hj; cases hj)]
    exact h2 j hj

theorem Sim.bad_step {h hb : List (Ev K V)} {s t s' : State K V} {i : Nat} (S : Sim ok prog h hb s t)
    (hb' : (prog i).bad ok = true) {ord : List (K × Nat) → List (K × Nat)} {go : Bool} (hn : hnext ok eqv prog ord go s i = some s') :
    Sim ok prog (h ++ event prog s i) hb s' t := by
  have hI := S.binv i hb'
  have hR := S.bret i hb'
  rcases hnext_bad hb' (S.bads i hb') hn with ⟨hc, rfl, he⟩ | ⟨hc, hk, rfl, he⟩ | ⟨hc, hk, rfl, he⟩ | ⟨hk, hc, rfl, he⟩ | ⟨hc, rfl, he⟩
  · refine S.bad_goto hb' (fun e hm => event_call hm) (.inr (.inl rfl)) (by simp [Past, hc]) (by simp [he]) (by simp [he, hR, hc])
  · refine S.bad_goto hb' (fun e hm => event_call hm) (.inr (.inr (.inl ⟨hk, rfl⟩))) (by simp [Past, hc]) (by simp [he, hI, hc]) (by simp [he, hR, hc])
  · refine S.bad_goto hb' (fun e hm => event_call hm) (.inr (.inr (.inr (.inl rfl)))) (by simp [hk]) (by simp [he, hI, hc]) (by simp [he, hR, hc])
  · -- `len` is raised
    refine { sh := S.sh, low := S.low, pcs := ?_, hist := ?_, bads := ?_, binv := ?_, bret := ?_, count := ?_, clean := ?_ }
    · intro j hj
      rw [goto_ne _ _ (by rintro rfl; rw [hb'] at hj; cases hj)]
      exact S.pcs j hj
    · rw [he, List.append_nil]; exact S.hist
    · intro j hj
      by_cases hji : j = i
      · subst hji; rw [goto_self]; exact .inr (.inr (.inr (.inl rfl)))
      · rw [goto_ne _ _ hji]; exact S.bads j hj
    · intro j hj
      rw [he, List.append_nil]
      by_cases hji : j = i
      · subst hji; rw [goto_self]; simp [hI, hc]
      · rw [goto_ne _ _ hji]; exact S.binv j hj
    · intro j hj r
      rw [he, List.append_nil]
      by_cases hji : j = i
      · subst hji; rw [goto_self]; simp [hR, hc]
      · rw [goto_ne _ _ hji]; exact S.bret j hj r
    · obtain ⟨bs, h1, h2, h3, h4⟩ := S.count
      have hni : i ∉ bs := fun hm => by
        have := (h2 i hm).2.2
        rw [hc] at this
        rcases this with h | h <;> cases h
      refine ⟨i :: bs, List.nodup_cons.2 ⟨hni, h1⟩, fun j hj => ?_, ?_, fun hcl j hj hjc hp => ?_⟩
      · by_cases hji : j = i
        · subst hji; exact ⟨hb', hk, by rw [goto_self]; exact .inl rfl⟩
        · rw [goto_ne _ _ hji]
          exact h2 j ((List.mem_cons.1 hj).resolve_left hji)
      · simp only [State.goto, Sh.withLen, List.length_cons]
        omega
      · by_cases hji : j = i
        · exact List.mem_cons.2 (.inl hji)
        · refine List.mem_cons.2 (.inr (h4 (fun k hkc => ?_) j hj hjc (by rwa [goto_ne _ _ hji] at hp)))
          have := hcl k hkc
          rwa [goto_ne _ _ (by rintro rfl; exact bad_ne_clear hb' hkc)] at this
    · intro hno
      rw [hno i hb'] at hk
      cases hk
  · refine S.bad_goto hb' (fun e hm => event_call hm) (.inr (.inr (.inr (.inr rfl)))) (by simp [Past, hc]) (by simp [he, hI, hc]) ?_
    intro r
    simp [he, hR, hc]
    exact eq_comm

/-- A step of another call, with its counterpart. -/
theorem Sim.good_step {h hb : List (Ev K V)} {s t s' : State K V} {i : Nat} (S : Sim ok prog h hb s t) (hx : Exec eqv prog hb t)
    (hb' : (prog i).bad ok = false) {ord : List (K × Nat) → List (K × Nat)} {go : Bool} (hord : ∀ l, (ord l).Perm l) (hn : next eqv prog ord go s i = some s') :
    ∃ t', next eqv prog ord go t i = some t' ∧ Sim ok prog (h ++ event prog s i) (hb ++ event prog t i) s' t' := by
  -- what does not depend on the step
  have key : ∀ {sh' th' : Sh K} {c c' : PC K V}, s' = ({ s with sh := sh' } : State K V).goto i c →
      th' = sh'.withLen th'.len → (c = c' ∨ (prog i = .len ∧ ∃ n n',
        (c = .fin (.int n) ∧ c' = .fin (.int n')) ∨ (c = .done (.int n) ∧ c' = .done (.int n')))) →
      List.Forall₂ (Same prog) (event prog s i) (event prog t i) →
      (sh'.len - th'.len = s.sh.len - t.sh.len ∧ (c = .idle → s.pc i = .idle) ∨ sh'.len = th'.len ∧ prog i = .clear ∧ c ≠ .idle) →
      ((∀ i, (prog i).bad ok = true → (prog i).counts = false) → th' = sh' ∧ c = c' ∧ event prog s i = event prog t i) →
      Sim ok prog (h ++ event prog s i) (hb ++ event prog t i) s' (({ t with sh := th' } : State K V).goto i c') := by
    intro sh' th' c c' hs' hth hc hev hlen hcl
    subst hs'
    have hne : ∀ {j}, (prog j).bad ok = true → j ≠ i := by rintro j hj rfl; rw [hb'] at hj; cases hj
    refine { sh := hth, low := ?_, pcs := ?_, hist := ?_, bads := ?_, binv := ?_, bret := ?_, count := ?_, clean := ?_ }
    · intro j hj; rw [goto_ne _ _ (hne hj)]; exact S.low j hj
    · intro j hj
      by_cases hji : j = i
      · subst hji; rw [goto_self, goto_self]; exact hc
      · rw [goto_ne _ _ hji, goto_ne _ _ hji]; exact S.pcs j hj
    · rw [without_good hb' fun e hm => event_call hm]
      exact List.rel_append S.hist hev
    · intro j hj; rw [goto_ne _ _ (hne hj)]; exact S.bads j hj
    · intro j hj
      rw [goto_ne _ _ (hne hj), List.mem_append]
      rw [show ({ s with sh := sh' } : State K V).pc j = s.pc j from rfl, ← S.binv j hj]
      exact ⟨fun hh => hh.resolve_right fun hm => hne hj (event_call hm), .inl⟩
    · intro j hj r
      rw [goto_ne _ _ (hne hj), List.mem_append]
      rw [show ({ s with sh := sh' } : State K V).pc j = s.pc j from rfl, ← S.bret j hj]
      exact ⟨fun hh => hh.resolve_right fun hm => hne hj (event_call hm), .inl⟩
    · obtain ⟨bs, h1, h2, h3, h4⟩ := S.count
      rcases hlen with ⟨hl, hid⟩ | ⟨hl, hop, hcid⟩
      · refine ⟨bs, h1, fun j hj => ?_, ?_, fun hcl j hj hjc hp => ?_⟩
        · rw [goto_ne _ _ (hne (h2 j hj).1)]; exact h2 j hj
        · show sh'.len = th'.len + _
          omega
        · refine h4 (fun k hk => ?_) j hj hjc (by rwa [goto_ne _ _ (hne hj)] at hp)
          have := hcl k hk
          by_cases hki : k = i
          · subst hki; rw [goto_self] at this; exact hid this
          · rwa [goto_ne _ _ hki] at this
      · refine ⟨[], .nil, by simp, by simpa using hl, fun hcl j hj hjc hp => ?_⟩
        have := hcl i hop
        rw [goto_self] at this
        exact absurd this hcid
    · intro hno
      obtain ⟨h1, h2, h3⟩ := S.clean hno
      obtain ⟨h4, h5, h6⟩ := hcl hno
      refine ⟨h4, fun j hj => ?_, ?_⟩
      · by_cases hji : j = i
        · subst hji; rw [goto_self, goto_self]; exact h5
        · rw [goto_ne _ _ hji, goto_ne _ _ hji]; exact h2 j hj
      · rw [without_good hb' fun e hm => event_call hm, h3, h6]
  have hent : s.sh.ent = t.sh.ent := by rw [S.sh]; rfl
  rcases S.pcs i hb' with hp | ⟨hop, n, n', ⟨hps, hpt⟩ | ⟨hps, hpt⟩⟩
  · have hevq := event_eq (prog := prog) hp hent
    by_cases hst : s.pc i = .start ∧ prog i = .len
    · -- reading `len`
      have hpt : t.pc i = .start := hp ▸ hst.1
      have h1 := hn
      simp only [next, hst.1, hst.2, startStep, Option.some.injEq] at h1
      refine ⟨_, by simp only [next, hpt, hst.2, startStep], key (c := .fin (.int s.sh.len)) (c' := .fin (.int t.sh.len)) (sh' := s.sh) (th' := t.sh) h1.symm S.sh
        (.inr ⟨hst.2, _, _, .inl ⟨rfl, rfl⟩⟩) (by rw [hevq]; exact same_refl _) (.inl ⟨rfl, nofun⟩) fun hno => ?_⟩
      have := (S.clean hno).1
      exact ⟨this, by rw [this], hevq⟩
    · have hcond : s.pc i = .start → prog i ≠ .len := fun h1 h2 => hst ⟨h1, h2⟩
      have h1 := hn
      rw [next_act] at h1
      obtain ⟨⟨sh', c⟩, ha, hs'⟩ := Option.map_eq_some_iff.1 h1
      have hl := act_lenAfter hcond ha
      have ht : act eqv prog ord go t.sh i (t.pc i) = some (sh'.withLen (lenAfter (s.pc i) t.sh.len), c) := by
        rw [S.sh, ← hp, act_len ord go s.sh i (s.pc i) _ hcond, ha]
        rfl
      refine ⟨_, by rw [next_act, ht]; rfl, key hs'.symm rfl (.inl rfl) (by rw [hevq]; exact same_refl _) ?_ fun hno => ?_⟩
      · by_cases hz : s.pc i = .zero
        · right
          obtain ⟨g, I, _⟩ := exec_inv hx
          have hO := I.ops i
          simp only [OpOk, ← hp, hz] at hO
          refine ⟨?_, hO, ?_⟩
          · rw [hl, hz]; rfl
          · simp only [act, next, hz, Option.map_some, Option.some.injEq, Prod.mk.injEq] at ha
            rw [← ha.2]
            simp [State.goto]
        · left
          refine ⟨?_, fun hci => ?_⟩
          · have hl' : sh'.len = lenAfter (s.pc i) s.sh.len := hl
            show sh'.len - lenAfter (s.pc i) t.sh.len = _
            rw [hl']
            cases hpc : s.pc i <;> simp only [lenAfter] <;> first | rfl | exact absurd hpc hz | omega
          · obtain ⟨g, I, _⟩ := exec_inv hx
            have hnt : next eqv prog ord go t i = some (({ t with sh := sh'.withLen (lenAfter (s.pc i) t.sh.len) } : State K V).goto i c) := by
              rw [next_act, ht]; rfl
            by_contra hni
            exact next_ne_idle I hord hnt (by rw [← hp]; exact hni) (by rw [goto_self]; exact hci)
      · have h2 := (S.clean hno).1
        refine ⟨?_, rfl, hevq⟩
        rw [h2, ← hl]
        rfl
  · -- `Len` returns
    have h1 := hn
    simp only [next, hps, Option.some.injEq] at h1
    refine ⟨_, by simp only [next, hpt], key (c := .done (.int n)) (c' := .done (.int n')) (sh' := s.sh) (th' := t.sh) h1.symm S.sh
      (.inr ⟨hop, _, _, .inr ⟨rfl, rfl⟩⟩) ?_ (.inl ⟨rfl, nofun⟩) fun hno => ?_⟩
    · simp only [event, hps, hpt]
      exact .cons (.inr ⟨i, n, n', hop, rfl, rfl⟩) .nil
    · obtain ⟨h2, h3, _⟩ := S.clean hno
      have h4 := h3 i hb'
      rw [hps, hpt] at h4
      cases h4
      exact ⟨h2, rfl, by simp [event, hps, hpt]⟩
  · simp [next, hps] at hn

theorem hexec_sim {h : List (Ev K V)} {s : State K V} (hx : HExec ok eqv prog h s) :
    ∃ hb t, Exec eqv prog hb t ∧ Sim ok prog h hb s t := by
  induction hx with
  | init =>
    refine ⟨[], State.init, .init, ?_⟩
    refine { sh := rfl, low := fun _ _ => rfl, pcs := fun _ _ => .inl rfl, hist := .nil, bads := fun _ _ => .inl rfl, binv := ?_, bret := ?_,
             count := ⟨[], .nil, by simp, rfl, ?_⟩, clean := fun _ => ⟨rfl, fun _ _ => rfl, rfl⟩ }
    · intro i _; simp [State.init]
    · intro i _ r; simp [State.init]
    · rintro _ i _ _ (h | h) <;> cases h
  | @step h s evs s' hx hs ih =>
    obtain ⟨hb, t, ht, S⟩ := ih
    obtain ⟨i, ord, go, hord, hn, rfl⟩ := hs
    cases hb' : (prog i).bad ok
    · rw [hnext_good hb'] at hn
      obtain ⟨t', hnt, S'⟩ := S.good_step ht hb' hord hn
      exact ⟨_, t', .step ht ⟨i, ord, go, hord, hnt, rfl⟩, S'⟩
    · exact ⟨hb, t, ht, S.bad_step hb' hn⟩

/-! ## C146 -/

theorem same_inv {l l' : List (Ev K V)} (h : List.Forall₂ (Same prog) l l') (i : Nat) : .inv i ∈ l ↔ .inv i ∈ l' := by
  induction h with
  | nil => rfl
  | @cons e e' l l' he _ ih =>
    rw [List.mem_cons, List.mem_cons, ih]
    rcases he with rfl | ⟨j, n, n', _, rfl, rfl⟩
    · rfl
    · simp

theorem mem_without {h : List (Ev K V)} {e : Ev K V} (hb : (prog e.call).bad ok = false) : e ∈ without ok prog h ↔ e ∈ h := by
  simp [without, hb]

theorem Sim.good_inv {h hb : List (Ev K V)} {s t : State K V} (S : Sim ok prog h hb s t) (hx : Exec eqv prog hb t) {i : Nat}
    (hb' : (prog i).bad ok = false) : .inv i ∈ h ↔ s.pc i ≠ .idle := by
  rw [← mem_without (ok := ok) (prog := prog) (e := .inv i) hb', same_inv S.hist, (exec_book hx).inv]
  rcases S.pcs i hb' with h | ⟨_, n, n', ⟨h1, h2⟩ | ⟨h1, h2⟩⟩
  · rw [h]
  · rw [h1, h2]; simp
  · rw [h1, h2]; simp

/-- **C146**, up to what `Len` returns. The full statement is `Harmless`, which fails (`rwmap_hash_false`). Here: without the calls whose keys
cannot be hashed, and up to what `Len` returns, the history is one of an execution without them, whatever they are, and the map is left as by
that execution; only `len` is greater, by one for each of some of the `Swap`, `Store` and `LoadOrStore` calls among them: for each that has panicked,
if `Clear` has not been called. -/
theorem rwmap_hash_partial {h : List (Ev K V)} {s : State K V} (hx : HExec ok eqv prog h s) : ∃ hb t, Exec eqv prog hb t ∧
    List.Forall₂ (Same prog) (without ok prog h) hb ∧ t.sh = { s.sh with len := t.sh.len } ∧
    ∃ bs : List Nat, bs.Nodup ∧ (∀ i ∈ bs, (prog i).bad ok = true ∧ (prog i).counts = true ∧ .inv i ∈ h) ∧ s.sh.len = t.sh.len + bs.length ∧
      ((∀ c, prog c = .clear → .inv c ∉ h) → ∀ i, (prog i).bad ok = true → (prog i).counts = true → .ret i .panicked ∈ h → i ∈ bs) := by
  obtain ⟨hb, t, ht, S⟩ := hexec_sim hx
  obtain ⟨bs, h1, h2, h3, h4⟩ := S.count
  refine ⟨hb, t, ht, S.hist, S.sh, bs, h1, fun i hi => ?_, h3, fun hcl i hbi hk hr => ?_⟩
  · obtain ⟨ha, hb2, hp⟩ := h2 i hi
    refine ⟨ha, hb2, (S.binv i ha).2 ?_⟩
    rcases hp with hp | hp <;> rw [hp] <;> simp
  · refine h4 (fun c hc => ?_) i hbi hk (.inr ((S.bret i hbi _).1 hr))
    by_contra hcon
    exact hcl c hc ((S.good_inv ht (by rw [hc]; rfl)).2 hcon)

/-- C146 holds if the calls whose keys cannot be hashed are neither `Swap` nor `Store` nor `LoadOrStore`. -/
theorem rwmap_hash_harmless (hno : ∀ i, (prog i).bad ok = true → (prog i).counts = false) : Harmless ok eqv prog := by
  intro h s hx
  obtain ⟨hb, t, ht, S⟩ := hexec_sim hx
  exact ⟨t, (S.clean hno).2.2 ▸ ht⟩

/-- C146 holds if `Len` is not called. -/
theorem rwmap_hash_no_len (hno : ∀ i, prog i ≠ .len) : Harmless ok eqv prog := by
  intro h s hx
  obtain ⟨hb, t, ht, S⟩ := hexec_sim hx
  have : without ok prog h = hb := by
    have hs := S.hist
    generalize without ok prog h = l at hs
    clear S hx ht
    induction hs with
    | nil => rfl
    | cons he _ ih =>
      rcases he with rfl | ⟨i, _, _, hl, _⟩
      · rw [ih]
      · exact absurd hl (hno i)
  exact ⟨t, this ▸ ht⟩

/-- A call whose key cannot be hashed panics; it never waits for the mutex or for another call, and its steps change nothing but `len`,
which is raised if the call is to store something. -/
theorem rwmap_hash_panics {h : List (Ev K V)} {s : State K V} (hx : HExec ok eqv prog h s) {i : Nat} (hb : (prog i).bad ok = true) :
    (∀ r, .ret i r ∈ h → r = .panicked) ∧
    (.ret i .panicked ∈ h ∨ ∀ ord go, ∃ s', hnext ok eqv prog ord go s i = some s') ∧
    ∀ ord go s', hnext ok eqv prog ord go s i = some s' → s'.sh = { s.sh with len := s'.sh.len } ∧
      (s'.sh.len = s.sh.len ∨ (prog i).counts = true ∧ s'.sh.len = s.sh.len + 1) := by
  obtain ⟨hbs, t, ht, S⟩ := hexec_sim hx
  have hp := S.bads i hb
  refine ⟨fun r hr => ?_, ?_, fun ord go s' hn => ?_⟩
  · have := (S.bret i hb r).1 hr
    rw [this] at hp
    rcases hp with h | h | ⟨_, h⟩ | h | h <;> cases h
    rfl
  · rw [S.bret i hb]
    rcases hp with h | h | ⟨_, h⟩ | h | h
    · exact .inr fun ord go => ⟨_, by simp only [hnext, next, h]; rfl⟩
    · exact .inr fun ord go => ⟨_, by simp only [hnext, h, hb, if_true]; rfl⟩
    · exact .inr fun ord go => ⟨_, by simp only [hnext, next, h]; rfl⟩
    · exact .inr fun ord go => ⟨_, by simp only [hnext, next, h]; rfl⟩
    · exact .inl h
  · rcases hnext_bad hb hp hn with ⟨_, rfl, _⟩ | ⟨_, _, rfl, _⟩ | ⟨_, _, rfl, _⟩ | ⟨hk, _, rfl, _⟩ | ⟨_, rfl, _⟩
    · exact ⟨rfl, .inl rfl⟩
    · exact ⟨rfl, .inl rfl⟩
    · exact ⟨rfl, .inl rfl⟩
    · exact ⟨rfl, .inr ⟨hk, rfl⟩⟩
    · exact ⟨rfl, .inl rfl⟩

/-- Run a schedule, cf. `sched`. -/
def hsched (ok : K → Bool) (eqv : V → V → Option Bool) (prog : Nat → Op K V) :
    List Nat → State K V → List (Ev K V) → Option (State K V × List (Ev K V))
  | [], s, h => some (s, h)
  | i :: is, s, h => match hnext ok eqv prog id true s i with
    | some s' => hsched ok eqv prog is s' (h ++ event prog s i)
    | none => none

theorem hsched_exec : ∀ {is : List Nat} {s : State K V} {h : List (Ev K V)}, HExec ok eqv prog h s → ∀ {s' h'},
    hsched ok eqv prog is s h = some (s', h') → HExec ok eqv prog h' s' := by
  intro is
  induction is with
  | nil => intro s h hx s' h' he; simp [hsched] at he; obtain ⟨rfl, rfl⟩ := he; exact hx
  | cons i is ih =>
    intro s h hx s' h' he
    simp only [hsched] at he
    split at he
    next t ht => exact ih (.step hx ⟨i, id, true, fun _ => .refl _, ht, rfl⟩) he
    next => cases he

/-- Whatever state the map is in, and whatever else is going on: such a call, made now and left alone, panics after three or four steps, and
the map is as before, except that `Len` is greater by one if the call was to store something. -/
theorem rwmap_hash_alone {s : State K V} {i : Nat} (hb : (prog i).bad ok = true) (hi : s.pc i = .idle) :
    ∃ s', hsched ok eqv prog (rep (if (prog i).counts then 4 else 3) i) s [] = some (s', [.inv i, .ret i .panicked]) ∧
      s'.sh = { s.sh with len := s.sh.len + if (prog i).counts then 1 else 0 } ∧ ∀ j, j ≠ i → s'.pc j = s.pc j := by
  have hr : raise (prog i) = if (prog i).counts then .add 1 .panicked else .fin .panicked := by cases prog i <;> rfl
  cases hk : (prog i).counts
  · simp only [hk] at hr
    simp only [Bool.false_eq_true, if_false, rep, List.replicate, hsched, hnext, next, hi, goto_self, hb, if_true, hr, event]
    exact ⟨_, rfl, by simp [State.goto], fun j hj => by simp [State.goto, hj]⟩
  · simp only [hk, if_true] at hr
    simp only [if_true, rep, List.replicate, hsched, hnext, next, hi, goto_self, hb, hr, event]
    exact ⟨_, rfl, by simp [State.goto], fun j hj => by simp [State.goto, hj]⟩

theorem only_len {h : List (Ev K V)} {s : State K V} (hx : Exec eqv prog h s) (hall : ∀ i, .inv i ∈ h → prog i = .len) :
    s.sh.len = 0 ∧ ∀ i v, (s.pc i = .fin (.int v) ∨ .ret i (.int v) ∈ h) → v = 0 := by
  induction hx with
  | init => exact ⟨rfl, fun i v hv => by rcases hv with hv | hv <;> cases hv⟩
  | @step h s evs s' hx hs ih =>
    obtain ⟨j, ord, go, hord, hn, rfl⟩ := hs
    obtain ⟨ih1, ih2⟩ := ih fun i hi => hall i (List.mem_append_left _ hi)
    have hop : prog j = .len := by
      by_cases hj : s.pc j = .idle
      · exact hall j (List.mem_append_right _ (by simp [event, hj]))
      · exact hall j (List.mem_append_left _ (((exec_book hx).inv j).2 hj))
    rcases exec_len_pc hx hop with hc | hc | ⟨r, hc⟩ | ⟨r, hc⟩ <;>
      simp only [next, hc, hop, startStep, reduceCtorEq, Option.some.injEq] at hn <;> subst hn
    · refine ⟨ih1, fun i v hv => ih2 i v ?_⟩
      by_cases hij : i = j
      · subst hij; simp [event, hc] at hv; exact .inr hv
      · simpa [event, hc, State.goto, hij] using hv
    · refine ⟨ih1, fun i v hv => ?_⟩
      by_cases hij : i = j
      · subst hij
        simp [event, hc] at hv
        rcases hv with rfl | hv
        · exact ih1
        · exact ih2 i v (.inr hv)
      · exact ih2 i v (by simpa [event, hc, State.goto, hij] using hv)
    · refine ⟨ih1, fun i v hv => ?_⟩
      by_cases hij : i = j
      · subst hij
        simp [event, hc] at hv
        rcases hv with hv | rfl
        · exact ih2 i v (.inr hv)
        · exact ih2 i _ (.inl hc)
      · exact ih2 i v (by simpa [event, hc, State.goto, hij] using hv)

/-- **C146** does not hold: whenever there is a key that cannot be hashed, and already without concurrency, `Len` tells that `Store` has been called with it:
1 for a map in which nothing has ever been stored. -/
theorem rwmap_hash_false {k : K} (hk : ok k = false) : ∃ prog : Nat → Op K V, ¬ Harmless ok eqv prog := by
  refine ⟨fun i => if i = 0 then .swap k default else .len, fun H => ?_⟩
  have h0 : (Op.swap k (default : V)).bad ok = true := by simp [Op.bad, Op.key?, hk]
  have key : ∃ s, hsched ok eqv (fun i => if i = 0 then .swap k (default : V) else .len) (rep 4 0 ++ rep 3 1) State.init [] =
      some (s, [.inv 0, .ret 0 .panicked, .inv 1, .ret 1 (.int 1)]) := by
    simp [rep, List.replicate, hsched, hnext, next, event, State.init, State.goto, raise, startStep, Op.bad, Op.key?, hk]
  obtain ⟨s, hs⟩ := key
  obtain ⟨t, ht⟩ := H _ s (hsched_exec .init hs)
  have hw : without ok (fun i => if i = 0 then .swap k (default : V) else .len) [.inv 0, .ret 0 .panicked, .inv 1, .ret 1 (.int 1)] =
      [.inv 1, .ret 1 (.int 1)] := by
    simp [without, Ev.call, Op.bad, Op.key?, hk]
  rw [hw] at ht
  have := (only_len ht fun i hi => by
    simp at hi
    subst hi
    rfl).2 1 1 (.inr (by simp))
  cases this

/-- Key 7 cannot be hashed. `Store(1, 5)`, `Store(7, 6)`, which panics, `Load(1)`, `Load(7)`, which panics, `Range` with one pair, and `Len`, which is 2. -/
def hashProg : Nat → Op Nat Nat
  | 0 => .swap 1 5
  | 1 => .swap 7 6
  | 2 => .load 1
  | 3 => .load 7
  | 4 => .range
  | _ => .len

example : ((hsched (fun k => k != 7) (fun a b => some (a == b)) hashProg (rep 10 0 ++ rep 4 1 ++ rep 8 2 ++ rep 3 3 ++ rep 5 4 ++ rep 3 5) State.init []).map (·.2)) =
    some [.inv 0, .ret 0 (.opt none), .inv 1, .ret 1 .panicked, .inv 2, .ret 2 (.opt (some 5)), .inv 3, .ret 3 .panicked, .inv 4, .visit 4 1 5,
      .ret 4 (.visited [(1, 5)] false), .inv 5, .ret 5 (.int 2)] := rfl

/-- Such a call panics also while another call has the mutex, here after `Store(1, 5)` has taken it. -/
example : ((hsched (fun k => k != 7) (fun a b => some (a == b)) hashProg (rep 3 0 ++ rep 4 1) State.init []).map fun x => (x.2, x.1.sh.mu)) =
    some ([.inv 0, .inv 1, .ret 1 .panicked], some 0) := rfl

end Verif.RWMap
