import Verif.RWMap.Steps7
/-!
# Every call can be completed
-/
namespace Verif.RWMap
variable {K V : Type} [DecidableEq K] [Inhabited V]
variable (eqv : V → V → Option Bool) (prog : Nat → Op K V)

/-- Only call `i` moves. -/
inductive Solo (i : Nat) : State K V → State K V → Prop
  | refl {s} : Solo i s s
  | step {s s' s'' ord go} : (∀ l, (ord l).Perm l) → next eqv prog ord go s i = some s' →
      Solo i s' s'' → Solo i s s''

/-- Steps of calls already in progress. -/
inductive Cont : State K V → State K V → Prop
  | refl {s} : Cont s s
  | step {s s' s'' i ord go} : s.pc i ≠ .idle → (∀ l, (ord l).Perm l) →
      next eqv prog ord go s i = some s' → Cont s' s'' → Cont s s''

/-- Call `i` can be completed on its own. -/
def CanFin (i : Nat) (s : State K V) : Prop :=
  ∃ s' r, Solo eqv prog i s s' ∧ s'.pc i = .done r

variable {eqv prog}
variable {i : Nat} {s s' : State K V}

theorem CanFin.step (h : next eqv prog id true s i = some s') (h' : CanFin eqv prog i s') :
    CanFin eqv prog i s := by
  obtain ⟨t, r, h1, h2⟩ := h'
  exact ⟨t, r, .step (fun _ => .refl _) h h1, h2⟩

theorem next_inv {ord : List (K × Nat) → List (K × Nat)} {go : Bool} {g : Ghost K V}
    (I : Inv eqv prog s g) (hord : ∀ l, (ord l).Perm l)
    (h : next eqv prog ord go s i = some s') : ∃ g', Inv eqv prog s' g' := by
  obtain ⟨g', h', _⟩ := I.step ⟨i, ord, go, hord, h, rfl⟩
  exact ⟨g', h'⟩

theorem solo_inv {g : Ghost K V} (I : Inv eqv prog s g) (h : Solo eqv prog i s s') :
    ∃ g', Inv eqv prog s' g' := by
  induction h generalizing g with
  | refl => exact ⟨g, I⟩
  | step h1 h2 _ ih =>
    obtain ⟨g', I'⟩ := next_inv I h1 h2
    exact ih I'

theorem next_other {ord : List (K × Nat) → List (K × Nat)} {go : Bool}
    (h : next eqv prog ord go s i = some s') {j : Nat} (hj : j ≠ i) : s'.pc j = s.pc j := by
  simp only [next] at h
  repeat' split at h
  all_goals first
    | cases h; done
    | (simp only [Option.some.injEq] at h; subst h; simp [State.goto, hj])

theorem solo_other (h : Solo eqv prog i s s') {j : Nat} (hj : j ≠ i) : s'.pc j = s.pc j := by
  induction h with
  | refl => rfl
  | step _ h1 _ ih => rw [ih, next_other h1 hj]

section
variable {g : Ghost K V}

theorem fin_fin {r : Res K V} (hc : s.pc i = .fin r) : CanFin eqv prog i s :=
  .step (s' := s.goto i (.done r)) (by simp [next, hc]) ⟨_, r, .refl, by simp⟩

theorem fin_add {d : Int} {r : Res K V} (hc : s.pc i = .add d r) : CanFin eqv prog i s :=
  .step (s' := { s with sh := { s.sh with len := s.sh.len + d } }.goto i (.fin r))
    (by simp [next, hc]) (fin_fin (by simp; rfl))

theorem fin_finish {op : Op K V} {r : Res K V} (hc : s.pc i = finish op r) :
    CanFin eqv prog i s := by
  unfold finish at hc
  split at hc
  all_goals first | exact fin_add hc | exact fin_fin hc

theorem fin_unlRes {r : Res K V} (hc : s.pc i = .unl (.res r)) : CanFin eqv prog i s :=
  .step (s' := { s with sh := { s.sh with mu := none } }.goto i (finish (prog i) r))
    (by simp [next, hc]) (fin_finish (by simp; rfl))

theorem fin_promoRes {r : Res K V} (hc : s.pc i = .promo (.res r)) : CanFin eqv prog i s :=
  .step (s' := { s with sh := _ }.goto i (.unl (.res r)))
    (by simp [next, hc]; rfl) (fin_unlRes (by simp; rfl))

theorem fin_zero (hc : s.pc i = .zero) : CanFin eqv prog i s :=
  .step (s' := { s with sh := _ }.goto i (.unl (.res .unit)))
    (by simp [next, hc]; rfl) (fin_unlRes (by simp; rfl))

theorem fin_wipe (hc : s.pc i = .wipe) : CanFin eqv prog i s :=
  .step (s' := { s with sh := _ }.goto i .zero)
    (by simp [next, hc]; rfl) (fin_zero (by simp))

theorem fin_after {op : Op K V} {lk : Lk} {r : Res K V} {h h' : Sh K} {c : PC K V}
    (he : after h op lk r = (h', c)) (hc : s.pc i = c) : CanFin eqv prog i s := by
  cases lk with
  | u =>
    simp only [after, Prod.mk.injEq] at he
    rw [← he.2] at hc; exact fin_finish hc
  | l =>
    simp only [after, Prod.mk.injEq] at he
    rw [← he.2] at hc; exact fin_unlRes hc
  | lm =>
    simp only [after, missLocked] at he
    split at he
    · simp only [Prod.mk.injEq] at he
      rw [← he.2] at hc; exact fin_unlRes hc
    · simp only [Prod.mk.injEq] at he
      rw [← he.2] at hc; exact fin_promoRes hc

/-- Replacing an entry that has the expected value. -/
theorem fin_casEq (I : Inv eqv prog s g) {e : Nat} {lk : Lk} {p : Ptr} (hc : s.pc i = .cas e lk p)
    (hp : s.sh.ent e = p) : CanFin eqv prog i s := by
  have hn : next eqv prog id true s i = some ({ s with sh := (casStep prog s.sh i (prog i) e lk p).1 }.goto i
      (casStep prog s.sh i (prog i) e lk p).2) := by simp [next, hc]
  refine .step hn ?_
  have ho := I.ops i
  simp only [OpOk, hc] at ho
  have hg := ho.2
  cases hop : prog i with
  | swap k v => simp only [casStep, hp, if_true]; exact fin_after rfl (by simp; rfl)
  | loadOrStore k v => simp only [casStep, hp, if_true]; exact fin_after rfl (by simp; rfl)
  | compareAndSwap k o n => simp only [casStep, hp, if_true]; exact fin_after rfl (by simp; rfl)
  | loadAndDelete k => simp only [casStep, hp, if_true]; exact fin_after rfl (by simp; rfl)
  | compareAndDelete k o => simp only [casStep, hp, if_true]; exact fin_after rfl (by simp; rfl)
  | _ => rw [hop] at hg; exact hg.elim

/-- Accessing an entry, unless it is expunged and has to be brought back. -/
theorem fin_ent (I : Inv eqv prog s g) {e : Nat} {lk : Lk} (hc : s.pc i = .ent e lk)
    (h : lk ≠ .u ∨ (prog i).adds = false ∨ s.sh.ent e ≠ .exp) : CanFin eqv prog i s := by
  have hn : next eqv prog id true s i = some ({ s with sh := (entStep eqv prog s.sh (prog i) e lk).1 }.goto i
      (entStep eqv prog s.sh (prog i) e lk).2) := by simp [next, hc]
  have hcas : ∀ p, s.sh.ent e = p → entStep eqv prog s.sh (prog i) e lk = (s.sh, .cas e lk p) →
      CanFin eqv prog i s := by
    intro p hp he
    obtain ⟨g', I'⟩ := next_inv I (fun _ => .refl _) hn
    refine .step hn ?_
    rw [he] at I' ⊢
    exact fin_casEq I' (goto_pc_self _ _ _) hp
  have haf' : ∀ lk' r, entStep eqv prog s.sh (prog i) e lk = after s.sh (prog i) lk' r →
      CanFin eqv prog i s := by
    intro lk' r he
    refine .step hn ?_
    rw [he]; exact fin_after rfl (by simp; rfl)
  have haf := haf' lk
  have ho := I.ops i
  simp only [OpOk, hc] at ho
  obtain ⟨k', hk'⟩ := ho
  cases hop : prog i with
  | load k => exact haf (.opt (deref prog (s.sh.ent e))) (by simp [entStep, hop])
  | swap k v =>
    by_cases hx : s.sh.ent e = .exp
    · rcases h with h | h | h
      · rcases (hk'.loc h).2 with ⟨v', h', _⟩ | ⟨o, n, h'⟩ <;> rw [hop] at h' <;> cases h'
      · rw [hop] at h; cases h
      · exact absurd hx h
    · exact hcas _ rfl (by simp [entStep, hop, hx])
  | loadOrStore k v =>
    cases hx : s.sh.ent e with
    | nil => exact hcas _ hx (by simp [entStep, hop, hx])
    | val b => exact haf _ (by simp only [entStep, hop, hx]; rfl)
    | exp =>
      by_cases hlk : lk = .u
      · rcases h with h | h | h
        · exact absurd hlk h
        · rw [hop] at h; cases h
        · exact absurd hx h
      · exact haf _ (by simp only [entStep, hop, hx, if_neg hlk]; rfl)
  | loadAndDelete k =>
    cases hx : s.sh.ent e with
    | val b => exact hcas _ hx (by simp [entStep, hop, hx])
    | nil => exact haf (.opt none) (by simp [entStep, hop, hx])
    | exp => exact haf (.opt none) (by simp [entStep, hop, hx])
  | compareAndSwap k o n =>
    cases hx : s.sh.ent e with
    | val b =>
      rcases heq : eqv (prog b).arg o with _ | _ | _
      · exact haf' lk.raise .panicked (by simp [entStep, hop, hx, heq])
      · exact haf (.bool false) (by simp [entStep, hop, hx, heq])
      · exact hcas _ hx (by simp [entStep, hop, hx, heq])
    | nil => exact haf (.bool false) (by simp [entStep, hop, hx])
    | exp => exact haf (.bool false) (by simp [entStep, hop, hx])
  | compareAndDelete k o =>
    cases hx : s.sh.ent e with
    | val b =>
      rcases heq : eqv (prog b).arg o with _ | _ | _
      · exact haf' lk.raise .panicked (by simp [entStep, hop, hx, heq])
      · exact haf (.bool false) (by simp [entStep, hop, hx, heq])
      · exact hcas _ hx (by simp [entStep, hop, hx, heq])
    | nil => exact haf (.bool false) (by simp [entStep, hop, hx])
    | exp => exact haf (.bool false) (by simp [entStep, hop, hx])
  | clear => have := hk'.key; rw [hop] at this; cases this
  | range => have := hk'.key; rw [hop] at this; cases this
  | len => have := hk'.key; rw [hop] at this; cases this

theorem fin_rng {es : List (K × Nat)} : ∀ {s : State K V} {acc : List (K × V)},
    s.pc i = .rng es acc → CanFin eqv prog i s := by
  induction es with
  | nil =>
    intro s acc hc
    exact .step (s' := s.goto i (.fin (.visited acc false))) (by simp [next, hc]) (fin_fin (by simp; rfl))
  | cons x es ih =>
    intro s acc hc
    obtain ⟨k, e⟩ := x
    cases hv : deref prog (s.sh.ent e) with
    | none =>
      exact .step (s' := s.goto i (.rng es acc)) (by simp [next, hc, hv]) (ih (by simp; rfl))
    | some v =>
      exact .step (s' := s.goto i (.rng es (acc ++ [(k, v)]))) (by simp [next, hc, hv]) (ih (by simp; rfl))

theorem adds_of_nx (h : (prog i).passive = true ∨ ∃ k, prog i = .loadAndDelete k) :
    (prog i).adds = false := by
  rcases h with h | ⟨k, h⟩
  · cases hop : prog i <;> simp_all [Op.passive, Op.adds]
  · rw [h]; rfl

theorem fin_unl (I : Inv eqv prog s g) {nx : Nx K V} (hc : s.pc i = .unl nx) :
    CanFin eqv prog i s := by
  cases nx with
  | res r => exact fin_unlRes hc
  | rng m =>
    exact .step (s' := { s with sh := { s.sh with mu := none } }.goto i (.rng m []))
      (by simp [next, hc]) (fin_rng (goto_pc_self _ _ _))
  | ent e =>
    have ho := I.ops i
    simp only [OpOk, hc, NxOk] at ho
    have hn : next eqv prog id true s i =
        some ({ s with sh := { s.sh with mu := none } }.goto i (.ent e .u)) := by simp [next, hc]
    obtain ⟨g', I'⟩ := next_inv I (fun _ => .refl _) hn
    exact .step hn (fin_ent I' (goto_pc_self _ _ _) (Or.inr (Or.inl (adds_of_nx ho.1))))

theorem fin_promo (I : Inv eqv prog s g) {nx : Nx K V} (hc : s.pc i = .promo nx) :
    CanFin eqv prog i s := by
  have hn : next eqv prog id true s i = some ({ s with sh := { s.sh with read := ⟨s.sh.dirty.getD [], false⟩, dirty := none, misses := 0 } }.goto i
      (.unl nx)) := by simp [next, hc]
  obtain ⟨g', I'⟩ := next_inv I (fun _ => .refl _) hn
  exact .step hn (fin_unl I' (goto_pc_self _ _ _))

theorem not_panic (I : Inv eqv prog s g) : s.pc i ≠ .panic := by
  intro hc
  have ho := I.ops i
  simp only [OpOk, hc] at ho

theorem fin_swp (I : Inv eqv prog s g) {e : Nat} (hc : s.pc i = .swp e) : CanFin eqv prog i s := by
  have hn : next eqv prog id true s i = some ({ s with sh := (swpStep prog s.sh i e).1 }.goto i
      (swpStep prog s.sh i e).2) := by simp [next, hc]
  refine .step hn ?_
  have ho := I.ops i
  simp only [OpOk, hc] at ho
  cases hx : s.sh.ent e with
  | exp => exact absurd hx ho.1
  | nil => simp only [swpStep, hx]; exact fin_unlRes (by simp; rfl)
  | val b => simp only [swpStep, hx]; exact fin_unlRes (by simp; rfl)

theorem fin_unexp (I : Inv eqv prog s g) {e : Nat} (hc : s.pc i = .unexp e) :
    CanFin eqv prog i s := by
  have hn : next eqv prog id true s i = some ({ s with sh := (unexpStep s.sh (prog i) e).1 }.goto i
      (unexpStep s.sh (prog i) e).2) := by simp [next, hc]
  obtain ⟨g', I'⟩ := next_inv I (fun _ => .refl _) hn
  refine .step hn ?_
  have ho := I.ops i
  simp only [OpOk, hc] at ho
  have hnp := not_panic (i := i) I'
  simp only [goto_pc_self] at hnp
  cases hop : prog i with
  | swap k v =>
    rw [hop] at I' hnp
    have : (unexpStep (V := V) s.sh (.swap k v) e).2 = .swp e ∨
        (unexpStep (V := V) s.sh (.swap k v) e).2 = .panic := by
      simp only [unexpStep]
      repeat' split
      all_goals simp
    rcases this with h | h
    · exact fin_swp I' (by rw [goto_pc_self, h])
    · exact absurd h hnp
  | loadOrStore k v =>
    rw [hop] at I' hnp
    have : (unexpStep (V := V) s.sh (.loadOrStore k v) e).2 = .ent e .l ∨
        (unexpStep (V := V) s.sh (.loadOrStore k v) e).2 = .panic := by
      simp only [unexpStep]
      repeat' split
      all_goals simp
    rcases this with h | h
    · exact fin_ent I' (lk := .l) (by rw [goto_pc_self, h]) (Or.inl (by simp))
    · exact absurd h hnp
  | _ => rw [hop] at ho; cases ho.1

theorem fin_amend (I : Inv eqv prog s g) {rm : List (K × Nat)} (hc : s.pc i = .amend rm) :
    CanFin eqv prog i s := by
  have ho := I.ops i
  simp only [OpOk, hc, Adding] at ho
  obtain ⟨⟨k, _, hk, _⟩, hd⟩ := ho
  obtain ⟨d, hd⟩ := Option.ne_none_iff_exists'.1 hd
  refine .step (s' := { s with sh := (putNew { s.sh with read := ⟨rm, true⟩ } i k
    (newRes (prog i))).1 }.goto i (.unl (.res (newRes (prog i))))) ?_ (fin_unlRes (goto_pc_self _ _ _))
  simp [next, hc, hk, putNew, hd]

theorem fin_copy {es : List (K × Nat)} {rm : List (K × Nat)} : ∀ {s : State K V} {g : Ghost K V},
    Inv eqv prog s g → s.pc i = .copy es rm → CanFin eqv prog i s := by
  induction es with
  | nil =>
    intro s g I hc
    have hn : next eqv prog id true s i = some (s.goto i (.amend rm)) := by simp [next, hc]
    obtain ⟨g', I'⟩ := next_inv I (fun _ => .refl _) hn
    exact .step hn (fin_amend I' (goto_pc_self _ _ _))
  | cons x es ih =>
    intro s g I hc
    obtain ⟨k, e⟩ := x
    cases hx : s.sh.ent e with
    | exp =>
      have hn : next eqv prog id true s i = some (s.goto i (.copy es rm)) := by simp [next, hc, hx]
      obtain ⟨g', I'⟩ := next_inv I (fun _ => .refl _) hn
      exact .step hn (ih I' (goto_pc_self _ _ _))
    | val b =>
      have hn : next eqv prog id true s i =
          some ({ s with sh := dirtyPut s.sh k e }.goto i (.copy es rm)) := by simp [next, hc, hx]
      obtain ⟨g', I'⟩ := next_inv I (fun _ => .refl _) hn
      exact .step hn (ih I' (goto_pc_self _ _ _))
    | nil =>
      have hn : next eqv prog id true s i = some (s.goto i (.expunge ((k, e) :: es) rm)) := by
        simp [next, hc, hx]
      obtain ⟨g', I'⟩ := next_inv I (fun _ => .refl _) hn
      refine .step hn ?_
      have hn' : next eqv prog id true (s.goto i (.expunge ((k, e) :: es) rm)) i =
          some ({ s.goto i (.expunge ((k, e) :: es) rm) with sh := s.sh.setEnt e .exp }.goto i (.copy es rm)) := by
        simp [next, hx]
      obtain ⟨g'', I''⟩ := next_inv I' (fun _ => .refl _) hn'
      exact .step hn' (ih I'' (goto_pc_self _ _ _))

theorem fin_expunge (I : Inv eqv prog s g) {es rm : List (K × Nat)}
    (hc : s.pc i = .expunge es rm) : CanFin eqv prog i s := by
  have ho := I.ops i
  simp only [OpOk, hc] at ho
  cases es with
  | nil => exact absurd rfl ho.2.2.2.2
  | cons x es =>
    obtain ⟨k, e⟩ := x
    by_cases hx : s.sh.ent e = .nil
    · have hn : next eqv prog id true s i =
          some ({ s with sh := s.sh.setEnt e .exp }.goto i (.copy es rm)) := by simp [next, hc, hx]
      obtain ⟨g', I'⟩ := next_inv I (fun _ => .refl _) hn
      exact .step hn (fin_copy I' (goto_pc_self _ _ _))
    · have hn : next eqv prog id true s i = some (s.goto i (.copy ((k, e) :: es) rm)) := by
        simp [next, hc, hx]
      obtain ⟨g', I'⟩ := next_inv I (fun _ => .refl _) hn
      exact .step hn (fin_copy I' (goto_pc_self _ _ _))

theorem fin_copy0 (I : Inv eqv prog s g) {rm : List (K × Nat)} (hc : s.pc i = .copy0 rm) :
    CanFin eqv prog i s := by
  by_cases hd : s.sh.dirty.isSome = true
  · have hn : next eqv prog id true s i = some (s.goto i (.amend rm)) := by simp [next, hc, hd]
    obtain ⟨g', I'⟩ := next_inv I (fun _ => .refl _) hn
    exact .step hn (fin_amend I' (goto_pc_self _ _ _))
  · have hn : next eqv prog id true s i =
        some ({ s with sh := { s.sh with dirty := some [] } }.goto i (.copy s.sh.read.m rm)) := by
      simp [next, hc, hd]
    obtain ⟨g', I'⟩ := next_inv I (fun _ => .refl _) hn
    exact .step hn (fin_copy I' (goto_pc_self _ _ _))

theorem fin_missLocked {h h' : Sh K} {nx : Nx K V} {c : PC K V} (I : Inv eqv prog s g)
    (he : missLocked h nx = (h', c)) (hc : s.pc i = c) : CanFin eqv prog i s := by
  simp only [missLocked] at he
  split at he
  · simp only [Prod.mk.injEq] at he
    rw [← he.2] at hc; exact fin_unl I hc
  · simp only [Prod.mk.injEq] at he
    rw [← he.2] at hc; exact fin_promo I hc

/-- The critical section continues with one of these. -/
theorem fin_critOut (I : Inv eqv prog s g)
    (h : (∃ nx, s.pc i = .unl nx) ∨ (∃ nx, s.pc i = .promo nx) ∨ (∃ e, s.pc i = .unexp e) ∨
      (∃ e, s.pc i = .swp e) ∨ (∃ e lk, s.pc i = .ent e lk ∧ lk ≠ .u) ∨ (∃ rm, s.pc i = .copy0 rm) ∨
      s.pc i = .wipe ∨ s.pc i = .zero ∨ s.pc i = .panic) : CanFin eqv prog i s := by
  rcases h with ⟨_, h⟩ | ⟨_, h⟩ | ⟨_, h⟩ | ⟨_, h⟩ | ⟨_, _, h, hl⟩ | ⟨_, h⟩ | h | h | h
  · exact fin_unl I h
  · exact fin_promo I h
  · exact fin_unexp I h
  · exact fin_swp I h
  · exact fin_ent I h (Or.inl hl)
  · exact fin_copy0 I h
  · exact fin_wipe h
  · exact fin_zero h
  · exact absurd h (not_panic I)

theorem fin_crit (I : Inv eqv prog s g) (hc : s.pc i = .crit) : CanFin eqv prog i s := by
  have hn : next eqv prog id true s i = some ({ s with sh := (critStep (V := V) s.sh i (prog i)).1 }.goto i
      (critStep s.sh i (prog i)).2) := by simp [next, hc]
  obtain ⟨g', I'⟩ := next_inv I (fun _ => .refl _) hn
  refine .step hn (fin_critOut I' ?_)
  simp only [goto_pc_self]
  generalize s.sh = h
  simp only [critStep, missLocked, putNew]
  repeat' split
  all_goals simp

theorem fin_acq (I : Inv eqv prog s g) (hc : s.pc i = .acq) (hmu : s.sh.mu = none) :
    CanFin eqv prog i s := by
  have hn : next eqv prog id true s i =
      some ({ s with sh := { s.sh with mu := some i } }.goto i .crit) := by simp [next, hc, hmu]
  obtain ⟨g', I'⟩ := next_inv I (fun _ => .refl _) hn
  exact .step hn (fin_crit I' (goto_pc_self _ _ _))

theorem fin_entU (I : Inv eqv prog s g) {e : Nat} (hc : s.pc i = .ent e .u)
    (hmu : s.sh.mu = none) : CanFin eqv prog i s := by
  by_cases h : (prog i).adds = false ∨ s.sh.ent e ≠ .exp
  · exact fin_ent I hc (Or.inr h)
  · simp only [not_or, Bool.not_eq_false, not_not, ne_eq] at h
    have hn : next eqv prog id true s i = some (s.goto i .acq) := by
      cases hop : prog i with
      | swap k v => simp [next, hc, hop, entStep, h.2]
      | loadOrStore k v => simp [next, hc, hop, entStep, h.2]
      | _ => rw [hop] at h; cases h.1
    obtain ⟨g', I'⟩ := next_inv I (fun _ => .refl _) hn
    exact .step hn (fin_acq I' (goto_pc_self _ _ _) hmu)

theorem fin_start (I : Inv eqv prog s g) (hc : s.pc i = .start) (hmu : s.sh.mu = none) :
    CanFin eqv prog i s := by
  have hn : next eqv prog id true s i = some (s.goto i (startStep id s.sh (prog i))) := by
    simp [next, hc]
  obtain ⟨g', I'⟩ := next_inv I (fun _ => .refl _) hn
  refine .step hn ?_
  have hout : (∃ e, startStep id s.sh (prog i) = PC.ent e .u) ∨ startStep id s.sh (prog i) = .acq ∨
      (∃ r, startStep id s.sh (prog i) = .fin r) ∨
      ∃ es acc, startStep id s.sh (prog i) = .rng es acc := by
    generalize s.sh = h
    simp only [startStep]
    repeat' split
    all_goals simp
  rcases hout with ⟨e, h⟩ | h | ⟨r, h⟩ | ⟨es, acc, h⟩
  · exact fin_entU I' (by rw [goto_pc_self, h]) hmu
  · exact fin_acq I' (by rw [goto_pc_self, h]) hmu
  · exact fin_fin (by rw [goto_pc_self, h])
  · exact fin_rng (by rw [goto_pc_self, h])

/-- A call in progress can be completed alone, if the mutex is free or held by it. -/
theorem canFin (I : Inv eqv prog s g) (hmu : s.sh.mu = none ∨ s.sh.mu = some i)
    (hi : s.pc i ≠ .idle) : CanFin eqv prog i s := by
  have hfree : (s.pc i).locked = false → s.sh.mu = none := by
    intro h
    rcases hmu with h' | h'
    · exact h'
    · rw [(I.str.mu i).2 h'] at h; cases h
  cases hc : s.pc i with
  | idle => exact absurd hc hi
  | start => exact fin_start I hc (hfree (by rw [hc]; rfl))
  | acq => exact fin_acq I hc (hfree (by rw [hc]; rfl))
  | crit => exact fin_crit I hc
  | ent e lk =>
    cases lk with
    | u => exact fin_entU I hc (hfree (by rw [hc]; rfl))
    | l => exact fin_ent I hc (Or.inl (by simp))
    | lm => exact fin_ent I hc (Or.inl (by simp))
  | cas e lk p =>
    by_cases hp : s.sh.ent e = p
    · exact fin_casEq I hc hp
    · have hn : next eqv prog id true s i = some (s.goto i (.ent e lk)) := by
        simp [next, hc, casStep, hp]
      obtain ⟨g', I'⟩ := next_inv I (fun _ => .refl _) hn
      refine .step hn ?_
      cases lk with
      | u => exact fin_entU I' (goto_pc_self _ _ _) (hfree (by rw [hc]; rfl))
      | l => exact fin_ent I' (goto_pc_self _ _ _) (Or.inl (by simp))
      | lm => exact fin_ent I' (goto_pc_self _ _ _) (Or.inl (by simp))
  | unexp e => exact fin_unexp I hc
  | swp e => exact fin_swp I hc
  | copy0 rm => exact fin_copy0 I hc
  | copy es rm => exact fin_copy I hc
  | expunge es rm => exact fin_expunge I hc
  | amend rm => exact fin_amend I hc
  | promo nx => exact fin_promo I hc
  | wipe => exact fin_wipe hc
  | zero => exact fin_zero hc
  | unl nx => exact fin_unl I hc
  | rng es acc => exact fin_rng hc
  | add d r => exact fin_add hc
  | fin r => exact fin_fin hc
  | done r => exact ⟨s, r, .refl, hc⟩
  | panic => exact absurd hc (not_panic I)

/-- Afterwards the mutex is free. -/
theorem solo_mu (I : Inv eqv prog s g) (hmu : s.sh.mu = none ∨ s.sh.mu = some i)
    (h : Solo eqv prog i s s') {r : Res K V} (hd : s'.pc i = .done r) : s'.sh.mu = none := by
  obtain ⟨g', I'⟩ := solo_inv I h
  cases hm : s'.sh.mu with
  | none => rfl
  | some j =>
    have hl := (I'.str.mu j).2 hm
    by_cases hj : j = i
    · subst hj; rw [hd] at hl; cases hl
    · rw [solo_other h hj] at hl
      have := (I.str.mu j).1 hl
      rcases hmu with h' | h' <;> rw [h'] at this <;> cases this
      exact absurd rfl hj
end

theorem Cont.trans {s s' s'' : State K V} (h : Cont eqv prog s s')
    (h' : Cont eqv prog s' s'') : Cont eqv prog s s'' := by
  induction h with
  | refl => exact h'
  | step h1 h2 h3 _ ih => exact .step h1 h2 h3 (ih h')

theorem next_ne_idle {ord : List (K × Nat) → List (K × Nat)} {go : Bool} {g : Ghost K V}
    (I : Inv eqv prog s g) (hord : ∀ l, (ord l).Perm l)
    (h : next eqv prog ord go s i = some s') (hi : s.pc i ≠ .idle) : s'.pc i ≠ .idle := by
  intro hd
  obtain ⟨g', I', hg⟩ := I.step ⟨i, ord, go, hord, h, rfl⟩
  have h1 : Ev.inv i ∈ hist g.L := by
    by_contra hno
    have hp : TE.inv i ∉ proj i g.L := by
      intro hx
      exact hno (List.mem_filterMap.2 ⟨_, (mem_proj.1 hx).1, rfl⟩)
    exact hp (mem_proj.2 ⟨I.inv_mem hi, rfl⟩)
  have h2 : Ev.inv i ∈ hist g'.L := by rw [hg]; simp [h1]
  obtain ⟨x, hx, hxe⟩ := List.mem_filterMap.1 h2
  have hx' : TE.inv i ∈ proj i g'.L := by
    cases x <;> simp only [TE.ev?, Option.some.injEq, reduceCtorEq, Ev.inv.injEq] at hxe
    subst hxe
    exact mem_proj.2 ⟨hx, rfl⟩
  have ht := I'.tl.tl i
  rw [hd] at ht
  unfold OpTL at ht
  split at ht
  · simp only [RngTL] at ht; rw [ht] at hx'; cases hx'
  · simp only at ht; rw [ht] at hx'; cases hx'
  · simp only [evs] at ht; rw [ht] at hx'; cases hx'

theorem Solo.cont {g : Ghost K V} (I : Inv eqv prog s g) (h : Solo eqv prog i s s')
    (hi : s.pc i ≠ .idle) : Cont eqv prog s s' := by
  induction h generalizing g with
  | refl => exact .refl
  | step h1 h2 _ ih =>
    obtain ⟨g', I'⟩ := next_inv I h1 h2
    exact .step hi h1 h2 (ih I' (next_ne_idle I h1 h2 hi))

/-- Completing all calls of a list, one after another. -/
theorem complete_list (is : List Nat) : ∀ {s : State K V} {g : Ghost K V}, Inv eqv prog s g →
    s.sh.mu = none → ∃ s', Cont eqv prog s s' ∧ s'.sh.mu = none ∧
      (∀ i, (s.pc i = .idle ∨ ∃ r, s.pc i = .done r) → s'.pc i = s.pc i) ∧
      ∀ i ∈ is, s'.pc i = .idle ∨ ∃ r, s'.pc i = .done r := by
  induction is with
  | nil => intro s g I hmu; exact ⟨s, .refl, hmu, fun _ _ => rfl, by simp⟩
  | cons a is ih =>
    intro s g I hmu
    by_cases ha : s.pc a = .idle ∨ ∃ r, s.pc a = .done r
    · obtain ⟨s', h1, h2, h3, h4⟩ := ih I hmu
      refine ⟨s', h1, h2, h3, ?_⟩
      intro i hi
      simp only [List.mem_cons] at hi
      rcases hi with rfl | hi
      · rw [h3 _ ha]; exact ha
      · exact h4 i hi
    · have hni : s.pc a ≠ .idle := fun h => ha (Or.inl h)
      obtain ⟨t, r, hsolo, hdone⟩ := canFin I (Or.inl hmu) hni
      obtain ⟨gt, It⟩ := solo_inv I hsolo
      obtain ⟨s', h1, h2, h3, h4⟩ := ih It (solo_mu I (Or.inl hmu) hsolo hdone)
      refine ⟨s', (hsolo.cont I hni).trans h1, h2, ?_, ?_⟩
      · intro i hi
        have hia : i ≠ a := by rintro rfl; exact ha hi
        have e := solo_other hsolo hia
        rw [h3 i (by rw [e]; exact hi), e]
      · intro i hi
        simp only [List.mem_cons] at hi
        rcases hi with rfl | hi
        · rw [h3 _ (Or.inr ⟨r, hdone⟩)]; exact Or.inr ⟨r, hdone⟩
        · exact h4 i hi

/-- Only finitely many calls are in progress. -/
theorem exec_finite {h : List (Ev K V)} {s : State K V} (hx : Exec eqv prog h s) :
    ∃ is : List Nat, ∀ i, i ∉ is → s.pc i = .idle := by
  induction hx with
  | init => exact ⟨[], fun _ _ => rfl⟩
  | step _ hs ih =>
    obtain ⟨is, his⟩ := ih
    obtain ⟨j, ord, go, _, hn, _⟩ := hs
    refine ⟨j :: is, ?_⟩
    intro i hi
    simp only [List.mem_cons, not_or] at hi
    rw [next_other hn hi.1]
    exact his i hi.2

/-- From every reachable state all calls in progress can be completed. -/
theorem complete {h : List (Ev K V)} {s : State K V} (hx : Exec eqv prog h s) :
    ∃ s', Cont eqv prog s s' ∧ s'.sh.mu = none ∧
      (∀ i, (s.pc i = .idle ∨ ∃ r, s.pc i = .done r) → s'.pc i = s.pc i) ∧
      ∀ i, s'.pc i = .idle ∨ ∃ r, s'.pc i = .done r := by
  obtain ⟨is, his⟩ := exec_finite hx
  obtain ⟨g, I, _⟩ := exec_inv hx
  have hall : ∀ {t : State K V} {g' : Ghost K V}, Inv eqv prog t g' → t.sh.mu = none →
      (∀ i, i ∉ is → t.pc i = .idle) →
      ∃ s', Cont eqv prog t s' ∧ s'.sh.mu = none ∧
      (∀ i, (t.pc i = .idle ∨ ∃ r, t.pc i = .done r) → s'.pc i = t.pc i) ∧
      ∀ i, s'.pc i = .idle ∨ ∃ r, s'.pc i = .done r := by
    intro t g' I' hmu hi
    obtain ⟨s', h1, h2, h3, h4⟩ := complete_list is I' hmu
    refine ⟨s', h1, h2, h3, ?_⟩
    intro i
    by_cases h : i ∈ is
    · exact h4 i h
    · exact Or.inl (by rw [h3 i (Or.inl (hi i h)), hi i h])
  cases hm : s.sh.mu with
  | none => exact hall I hm his
  | some j =>
    have hl := (I.str.mu j).2 hm
    have hj : s.pc j ≠ .idle := by intro hj; rw [hj] at hl; cases hl
    obtain ⟨t, r, hsolo, hdone⟩ := canFin I (Or.inr hm) hj
    obtain ⟨gt, It⟩ := solo_inv I hsolo
    have hjis : j ∈ is := by
      by_contra hno; exact hj (his j hno)
    obtain ⟨s', h1, h2, h3, h4⟩ := hall It (solo_mu I (Or.inr hm) hsolo hdone) (by
      intro i hi
      rw [solo_other hsolo (by rintro rfl; exact hi hjis)]
      exact his i hi)
    refine ⟨s', (hsolo.cont I hj).trans h1, h2, ?_, h4⟩
    intro i hi
    have hij : i ≠ j := by
      rintro rfl
      rcases hi with hi | ⟨r, hi⟩ <;> rw [hi] at hl <;> cases hl
    have e := solo_other hsolo hij
    rw [h3 i (by rw [e]; exact hi), e]
end Verif.RWMap
