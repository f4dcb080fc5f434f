import Verif.RWMap.Quiet
/-!
# Keys that have been seen, and settled maps: no locking (C101, C102)
-/
namespace Verif.RWMap
variable {K V : Type} [DecidableEq K] [Inhabited V]
variable {eqv : V → V → Option Bool} {prog : Nat → Op K V}
variable {h : List (Ev K V)} {s s' : State K V} {g : Ghost K V} {i j : Nat} {ord : List (K × Nat) → List (K × Nat)} {go : Bool} {k : K}

/-- Since the invocation of `j`, all calls in progress have been `P`. -/
def Since (j : Nat) (h : List (Ev K V)) (P : List (Ev K V) → Nat → Prop) : Prop :=
  ∀ h1 h2, h = h1 ++ h2 → .inv j ∈ h1 → ∀ c, pendingIn h1 c → P h1 c

theorem Since.prefix {P : List (Ev K V) → Nat → Prop} {evs : List (Ev K V)} (hs : Since j (h ++ evs) P) : Since j h P :=
  fun h1 h2 he hi => hs h1 (h2 ++ evs) (by rw [he, List.append_assoc]) hi

theorem Since.now {P : List (Ev K V) → Nat → Prop} (hs : Since j h P) (hj : .inv j ∈ h) {c : Nat} (hc : pendingIn h c) : P h c :=
  hs h [] (by simp) hj c hc

theorem Book.pending (B : Book prog h s) (h1 : s.pc i ≠ .idle) (h2 : ∀ r, s.pc i ≠ .done r) : pendingIn h i :=
  ⟨(B.inv i).2 h1, fun r hr => h2 r ((B.ret i r).1 hr)⟩

/-- Call `i` is in progress without the mutex, and need not wait for it. -/
def LockFree (eqv : V → V → Option Bool) (prog : Nat → Op K V) (s : State K V) (i : Nat) : Prop :=
  s.sh.mu ≠ some i ∧ s.pc i ≠ .acq ∧ ∃ s', next eqv prog id true s i = some s'

/-! ## A key in `read` -/

/-- The key has an entry in `read`, with a value. -/
def InRead (s : State K V) (k : K) (e : Nat) : Prop := aget s.sh.read.m k = some e ∧ ∃ b, s.sh.ent e = .val b

/-- `read` keeps an entry that is not expunged, unless the map is cleared. -/
theorem keep_read (I : Inv eqv prog s g) (hn : next eqv prog ord go s i = some s') (hcl : prog i ≠ .clear) {e : Nat}
    (he : aget s.sh.read.m k = some e) (hx : s.sh.ent e ≠ .exp) : aget s'.sh.read.m k = some e := by
  have hO := I.ops i
  rcases next_read I hn with h | ⟨rm, _, h⟩ | ⟨nx, hp, h⟩ | ⟨hp, h⟩
  · rw [h]; exact he
  · rw [h]; exact he
  · rw [h]
    simp only [OpOk, hp] at hO
    have hmu := (I.str.mu i).1 (by rw [hp]; rfl)
    have hrem : remaining s = [] := by simp [remaining, hmu, hp, PC.remaining]
    have hC := I.str.core
    rw [hrem] at hC
    cases hd : s.sh.dirty with
    | none => exact absurd hd (hC.amd hO.1)
    | some d =>
      have := hC.con d hd k e he (by simp)
      rw [if_neg hx] at this
      simpa using this
  · simp only [OpOk, hp] at hO
    exact absurd hO hcl

theorem keep_inRead (I : Inv eqv prog s g) (hn : next eqv prog ord go s i = some s') (hcl : prog i ≠ .clear) (hdl : ¬ (prog i).deletes k)
    {e : Nat} (he : InRead s k e) : InRead s' k e := by
  obtain ⟨h1, b, h2⟩ := he
  refine ⟨keep_read I hn hcl h1 (by rw [h2]; simp), ?_⟩
  rcases next_ent I hn e with h | ⟨b', h, _⟩ | ⟨_, _, h⟩ | ⟨_, _, lk, p, k', _, hd, hk'⟩ | ⟨_, h, _⟩
  · exact ⟨b, by rw [h]; exact h2⟩
  · exact ⟨b', h⟩
  · rw [h2] at h; cases h
  · have := (I.str.core.rkey k e h1).1
    rw [hk'] at this
    cases this
    exact absurd hd hdl
  · rw [h2] at h; cases h

/-- The entries Range has still to look at: those of `read`, or expunged. -/
def RestOk (s : State K V) (j : Nat) : Prop :=
  ∀ es, ((∃ acc, s.pc j = .rng es acc) ∨ s.pc j = .unl (.rng es)) → ∀ k e, (k, e) ∈ es → aget s.sh.read.m k = some e ∨ s.sh.ent e = .exp

theorem keep_rest (I : Inv eqv prog s g) (hn : next eqv prog ord go s i = some s') (hcl : prog i ≠ .clear) {e : Nat}
    (hk : g.key e = some k) (hlt : e < s.sh.fresh) (he : aget s.sh.read.m k = some e ∨ s.sh.ent e = .exp) :
    aget s'.sh.read.m k = some e ∨ s'.sh.ent e = .exp := by
  by_cases hx : s.sh.ent e = .exp
  · rcases next_ent I hn e with h | ⟨b', _, h⟩ | ⟨_, hp, _⟩ | ⟨_, h, _⟩ | ⟨_, h, _⟩
    · right; rw [h]; exact hx
    · rcases h with h | h
      · exact absurd hx h
      · omega
    · have hO := I.ops i
      simp only [OpOk, hp] at hO
      obtain ⟨_, k', _, hr⟩ := hO
      have := (I.str.core.rkey k' e hr).1
      rw [hk] at this
      cases this
      left
      rcases next_read I hn with h | ⟨rm, h, _⟩ | ⟨nx, h, _⟩ | ⟨h, _⟩
      · rw [h]; exact hr
      all_goals rw [hp] at h; cases h
    · exact absurd hx h
    · rw [hx] at h; cases h
  · left
    exact keep_read I hn hcl (he.resolve_right hx) hx

/-- What an iterating Range has still to look at is known to be entries of the keys. -/
theorem rest_key (I : Inv eqv prog s g) {es : List (K × Nat)} (hp : (∃ acc, s.pc j = .rng es acc) ∨ s.pc j = .unl (.rng es)) {e : Nat}
    (he : (k, e) ∈ es) : g.key e = some k ∧ e < s.sh.fresh := by
  have hO := I.ops j
  rcases hp with ⟨acc, hp⟩ | hp
  · simp only [OpOk, hp] at hO
    exact ⟨(hO.2.2 k e he).1, (hO.2.2 k e he).2.1⟩
  · simp only [OpOk, hp, NxOk] at hO
    exact ⟨(hO.2.2 k e he).1, (hO.2.2 k e he).2.1⟩

/-- A list that has just been read. -/
theorem rest_new (I : Inv eqv prog s g) (hord : ∀ l, (ord l).Perm l) (hop : prog j = .range) (hn : next eqv prog ord go s j = some s') :
    ∀ es, ((∃ acc, s'.pc j = .rng es acc) ∨ s'.pc j = .unl (.rng es)) → ∀ k e, (k, e) ∈ es →
      (aget s'.sh.read.m k = some e) ∨
      ∃ es', ((∃ acc, s.pc j = .rng es' acc) ∨ s.pc j = .unl (.rng es')) ∧ (k, e) ∈ es' := by
  intro es hes k e he
  have hO := I.ops j
  simp only [next] at hn
  cases hc : s.pc j with
  | start =>
    simp only [hc, hop, startStep, Option.some.injEq] at hn; subst hn
    simp only [goto_pc_self] at hes
    left
    by_cases ha : s.sh.read.amended = true
    · simp [ha] at hes
    · simp [ha] at hes
      rw [← hes] at he
      exact aget_of_mem I.str.core.rwf ((hord _).mem_iff.1 he)
  | crit =>
    simp only [hc, hop, critStep, Option.some.injEq] at hn; subst hn
    simp only [goto_pc_self] at hes
    left
    by_cases ha : s.sh.read.amended = true
    · simp [ha] at hes
    · simp [ha] at hes
      rw [← hes] at he
      simp only [goto_sh, ha, Bool.false_eq_true, if_false]
      exact aget_of_mem I.str.core.rwf he
  | promo nx =>
    simp only [hc, Option.some.injEq] at hn; subst hn
    simp only [goto_pc_self] at hes
    left
    simp only [OpOk, hc] at hO
    rcases hes with ⟨_, h⟩ | h
    · cases h
    · injection h with h
      have hd := hO.2.2 es h
      simp only [goto_sh, hd, Option.getD_some]
      exact aget_of_mem (I.str.core.dwf es hd) he
  | unl nx =>
    right
    cases nx with
    | rng m =>
      simp only [hc, Option.some.injEq] at hn; subst hn
      simp only [goto_pc_self] at hes
      rcases hes with ⟨_, h⟩ | h
      · injection h with h _
        subst h
        exact ⟨m, Or.inr rfl, (hord _).mem_iff.1 he⟩
      · cases h
    | ent e' => simp only [hc, Option.some.injEq] at hn; subst hn; simp at hes
    | res r =>
      simp only [OpOk, hc, NxOk] at hO
      exact absurd hop hO
  | rng es' acc =>
    right
    refine ⟨es', Or.inl ⟨acc, rfl⟩, ?_⟩
    simp only [hc] at hn
    cases es' with
    | nil => simp only [Option.some.injEq] at hn; subst hn; simp at hes
    | cons x es' =>
      simp only at hn
      repeat' split at hn
      all_goals simp only [Option.some.injEq] at hn; subst hn; simp at hes
      all_goals exact List.mem_cons_of_mem _ (hes ▸ he)
  | ent e lk => simp only [OpOk, hc] at hO; obtain ⟨k', hE⟩ := hO; have := hE.key; rw [hop] at this; cases this
  | cas e lk p => simp only [OpOk, hc] at hO; obtain ⟨⟨k', hE⟩, _⟩ := hO; have := hE.key; rw [hop] at this; cases this
  | unexp e => simp only [OpOk, hc, hop] at hO; exact absurd hO.1 (by simp [Op.adds])
  | swp e => simp only [OpOk, hc] at hO; obtain ⟨_, _, _, h, _⟩ := hO; rw [hop] at h; cases h
  | copy0 rm => simp only [OpOk, hc] at hO; obtain ⟨_, h, _⟩ := hO; rw [hop] at h; cases h
  | copy es rm => simp only [OpOk, hc] at hO; obtain ⟨⟨_, h, _⟩, _⟩ := hO; rw [hop] at h; cases h
  | expunge es rm => simp only [OpOk, hc] at hO; obtain ⟨⟨_, h, _⟩, _⟩ := hO; rw [hop] at h; cases h
  | amend rm => simp only [OpOk, hc] at hO; obtain ⟨⟨_, h, _⟩, _⟩ := hO; rw [hop] at h; cases h
  | wipe => simp only [OpOk, hc] at hO; rw [hop] at hO; cases hO
  | zero => simp only [OpOk, hc] at hO; rw [hop] at hO; cases hO
  | acq =>
    simp only [hc] at hn
    split at hn <;> simp only [Option.some.injEq, reduceCtorEq] at hn
    subst hn; simp at hes
  | idle => simp only [hc, Option.some.injEq] at hn; subst hn; simp at hes
  | add d r => simp only [hc, Option.some.injEq] at hn; subst hn; simp at hes
  | fin r => simp only [hc, Option.some.injEq] at hn; subst hn; simp at hes
  | done r => rw [hc] at hn; cases hn
  | panic => rw [hc] at hn; cases hn

theorem next_restOk (I : Inv eqv prog s g) (hord : ∀ l, (ord l).Perm l) (hop : prog j = .range) (hn : next eqv prog ord go s i = some s')
    (hcl : prog i ≠ .clear) (hR : RestOk s j) : RestOk s' j := by
  intro es hes k e he
  by_cases hij : j = i
  · subst hij
    rcases rest_new I hord hop hn es hes k e he with h | ⟨es', h1, h2⟩
    · exact Or.inl h
    · have hk := rest_key I h1 h2
      exact keep_rest I hn hcl hk.1 hk.2 (hR es' h1 k e h2)
  · rw [next_other hn hij] at hes
    have hk := rest_key I hes he
    exact keep_rest I hn hcl hk.1 hk.2 (hR es hes k e he)

/-- The step before a Range calls its function. -/
theorem event_visit {v : V} (h : .visit j k v ∈ event prog s i) : j = i ∧ ∃ e es acc b, s.pc i = .rng ((k, e) :: es) acc ∧ s.sh.ent e = .val b := by
  rcases event_cases (prog := prog) s i with ⟨_, h'⟩ | ⟨r, _, h'⟩ | ⟨k', e, es, acc, v', hp, hd, h'⟩ | h' <;> rw [h'] at h <;> simp at h
  obtain ⟨rfl, rfl, rfl⟩ := h
  refine ⟨rfl, e, es, acc, ?_⟩
  cases he : s.sh.ent e <;> simp [he, deref] at hd
  exact ⟨_, hp, rfl⟩

/-- A step that calls the function of a Range changes nothing. -/
theorem next_rng_sh {es : List (K × Nat)} {acc : List (K × V)} (hp : s.pc i = .rng es acc) (hn : next eqv prog ord go s i = some s') : s'.sh = s.sh := by
  simp only [next, hp] at hn
  repeat' split at hn
  all_goals first
    | cases hn; done
    | contradiction
    | (simp only [Option.some.injEq] at hn; subst hn; rfl)

theorem pending_step (B : Book prog h s) (hn : next eqv prog ord go s i = some s') (hi : s.pc i ≠ .idle) : pendingIn h i := by
  refine B.pending hi fun r hr => ?_
  simp [next, hr] at hn

/-- Nothing removes `k`, and nothing clears the map. -/
def Keeps (prog : Nat → Op K V) (k : K) (_ : List (Ev K V)) (c : Nat) : Prop := prog c ≠ .clear ∧ ¬ (prog c).deletes k

theorem event_idle (hi : s.pc i = .idle) : event prog s i = [.inv i] := by simp [event, hi]

/-- A key seen by a Range stays in `read`. -/
theorem exec_seen (hx : Exec eqv prog h s) (hop : prog j = .range) : Since j h (Keeps prog k) →
    RestOk s j ∧ ((∃ v, .visit j k v ∈ h) → ∃ e, InRead s k e) := by
  induction hx with
  | init =>
    intro _
    refine ⟨?_, ?_⟩
    · rintro es (⟨_, h⟩ | h) <;> cases h
    · rintro ⟨v, h⟩; cases h
  | @step h s evs s' hx hs ih =>
    intro hS
    obtain ⟨i, ord, go, hord, hn, rfl⟩ := hs
    obtain ⟨g, I, _⟩ := exec_inv hx
    have B := exec_book hx
    obtain ⟨hR, hV⟩ := ih hS.prefix
    by_cases hj : .inv j ∈ h
    · by_cases hi : s.pc i = .idle
      · -- an invocation
        have hi' := hi
        have hsh : s'.sh = s.sh := by simp only [next, hi, Option.some.injEq] at hn; rw [← hn]; rfl
        refine ⟨?_, ?_⟩
        · intro es hes k e he
          rw [hsh]
          by_cases hij : j = i
          · subst hij; exact absurd hi ((B.inv j).1 hj)
          · rw [next_other hn hij] at hes
            exact hR es hes k e he
        · rintro ⟨v, hv⟩
          rw [event_idle hi] at hv
          simp at hv
          obtain ⟨e, he⟩ := hV ⟨v, hv⟩
          exact ⟨e, by rw [InRead, hsh]; exact he⟩
      · have hK := hS.prefix.now hj (pending_step B hn hi)
        refine ⟨next_restOk I hord hop hn hK.1 hR, ?_⟩
        rintro ⟨v, hv⟩
        rw [List.mem_append] at hv
        rcases hv with hv | hv
        · obtain ⟨e, he⟩ := hV ⟨v, hv⟩
          exact ⟨e, keep_inRead I hn hK.1 hK.2 he⟩
        · obtain ⟨rfl, e, es, acc, b, hp, hb⟩ := event_visit hv
          have hsh := next_rng_sh hp hn
          refine ⟨e, ?_, b, by rw [hsh]; exact hb⟩
          rw [hsh]
          exact (hR _ (Or.inl ⟨acc, hp⟩) k e (by simp)).resolve_right (by rw [hb]; simp)
    · -- `j` has not been invoked yet
      have hji : s.pc j = .idle := by by_contra h; exact hj ((B.inv j).2 h)
      refine ⟨?_, ?_⟩
      · intro es hes
        exfalso
        by_cases hij : j = i
        · subst hij
          simp only [next, hji, Option.some.injEq] at hn
          subst hn
          simp at hes
        · rw [next_other hn hij, hji] at hes
          simp at hes
      · rintro ⟨v, hv⟩
        exfalso
        rw [List.mem_append] at hv
        rcases hv with hv | hv
        · have := exec_visits hx j
          rw [hji] at this
          have h2 : (k, v) ∈ visitsOf j h := by
            simp only [visitsOf, List.mem_filterMap]
            exact ⟨_, hv, by simp⟩
          rw [this] at h2
          simp [PC.pairs] at h2
        · obtain ⟨rfl, e, es, acc, b, hp, hb⟩ := event_visit hv
          rw [hji] at hp; cases hp

theorem visit_mem {v : V} (hv : .visit j k v ∈ h) : (k, v) ∈ visitsOf j h := by
  simp only [visitsOf, List.mem_filterMap]
  exact ⟨_, hv, by simp⟩

theorem inv_of_visit (hx : Exec eqv prog h s) {v : V} (hv : .visit j k v ∈ h) : .inv j ∈ h := by
  rw [(exec_book hx).inv]
  intro hji
  have h2 := visit_mem hv
  rw [exec_visits hx j, hji] at h2
  simp [PC.pairs] at h2

/-- Where a call is that finds its key in `read`. -/
def FastPc (s : State K V) (k : K) (i : Nat) : Prop :=
  match s.pc i with
  | .idle | .start | .add _ _ | .fin _ | .done _ => True
  | .ent e .u | .cas e .u _ => aget s.sh.read.m k = some e
  | _ => False

theorem fastPc_finish {op : Op K V} {r : Res K V} (hp : s.pc i = finish op r) : FastPc s k i := by
  unfold FastPc
  unfold finish at hp
  split at hp <;> rw [hp] <;> trivial

theorem next_fastPc (I : Inv eqv prog s g) (hn : next eqv prog ord go s i = some s') (hkey : (prog i).key? = some k)
    {e : Nat} (hE : InRead s k e) (hE' : InRead s' k e) (hF : FastPc s k i) : FastPc s' k i := by
  obtain ⟨h1, b, h2⟩ := hE
  have h3 := hE'.1
  have hO := I.ops i
  cases hc : s.pc i with
  | idle => simp only [next, hc, Option.some.injEq] at hn; subst hn; simp [FastPc]
  | start =>
    simp only [next, hc, Option.some.injEq] at hn
    unfold FastPc
    rw [← hn]
    simp only [goto_pc_self, goto_sh]
    cases hop : prog i <;> rw [hop] at hkey <;> simp only [Op.key?, Option.some.injEq, reduceCtorEq] at hkey <;> subst hkey <;>
      simp [startStep, h1]
  | ent e' lk =>
    rw [FastPc, hc] at hF
    cases lk <;> try exact hF.elim
    simp only at hF
    rw [h1] at hF
    cases hF
    simp only [next, hc, Option.some.injEq] at hn
    have hp : s'.pc i = (entStep eqv prog s.sh (prog i) e .u).2 := by rw [← hn]; simp
    have hcas : ∀ p, s'.pc i = .cas e .u p → FastPc s' k i := by
      intro p h; unfold FastPc; rw [h]; exact h3
    simp only [OpOk, hc] at hO
    cases hop : prog i <;> rw [hop] at hkey <;> simp only [Op.key?, Option.some.injEq, reduceCtorEq] at hkey <;> subst hkey <;>
      simp only [entStep, hop, h2, after, Lk.raise] at hp
    · exact fastPc_finish hp
    · simp only [reduceCtorEq, if_false] at hp; exact hcas _ hp
    · exact fastPc_finish hp
    · exact hcas _ hp
    · split at hp
      · exact hcas _ hp
      · simp only at hp; exact fastPc_finish hp
      · simp only at hp; exact fastPc_finish hp
    · split at hp
      · exact hcas _ hp
      · simp only at hp; exact fastPc_finish hp
      · simp only at hp; exact fastPc_finish hp
  | cas e' lk p =>
    rw [FastPc, hc] at hF
    cases lk <;> try exact hF.elim
    simp only at hF
    rw [h1] at hF
    cases hF
    simp only [next, hc, Option.some.injEq] at hn
    have hp : s'.pc i = (casStep prog s.sh i (prog i) e .u p).2 := by rw [← hn]; simp
    simp only [OpOk, hc] at hO
    by_cases hpe : s.sh.ent e = p
    · cases hop : prog i <;> rw [hop] at hkey <;> simp only [Op.key?, Option.some.injEq, reduceCtorEq] at hkey <;> subst hkey <;>
        simp only [casStep, hop, if_pos hpe, after] at hp
      · rw [hop] at hO; exact hO.2.elim
      all_goals exact fastPc_finish hp
    · simp only [casStep, if_neg hpe] at hp
      unfold FastPc; rw [hp]; exact h3
  | add d r => simp only [next, hc, Option.some.injEq] at hn; subst hn; simp [FastPc]
  | fin r => simp only [next, hc, Option.some.injEq] at hn; subst hn; simp [FastPc]
  | done r => simp [next, hc] at hn
  | _ => rw [FastPc, hc] at hF; exact hF.elim

theorem exec_fastPc (hx : Exec eqv prog h s) (hop : prog j = .range) (hkey : (prog i).key? = some k) : Since j h (Keeps prog k) →
    ∀ h1 h2, h = h1 ++ h2 → (∃ v, .visit j k v ∈ h1) → .inv i ∉ h1 → FastPc s k i := by
  induction hx with
  | init => intro _ _ _ _ _ _; trivial
  | @step h s evs s' hx hs ih =>
    intro hS h1 h2 he hv hi
    have hx' := hx.step hs
    obtain ⟨c, ord, go, hord, hn, rfl⟩ := hs
    obtain ⟨g, I, _⟩ := exec_inv hx
    have B := exec_book hx
    by_cases hid : s.pc i = .idle
    · by_cases hc : i = c
      · subst hc
        simp only [next, hid, Option.some.injEq] at hn; subst hn; simp [FastPc]
      · simp [FastPc, next_other hn hc, hid]
    have hinv := (B.inv i).2 hid
    rcases List.append_eq_append_iff.1 he with ⟨a', ha, _⟩ | ⟨c', hc', _⟩
    · exact absurd (by rw [ha]; simp [hinv]) hi
    have hF := ih hS.prefix h1 c' hc' hv hi
    obtain ⟨v, hv⟩ := hv
    have hvh : .visit j k v ∈ h := by rw [hc']; simp [hv]
    obtain ⟨e, hE⟩ := (exec_seen hx hop hS.prefix).2 ⟨v, hvh⟩
    have hE' : InRead s' k e := by
      by_cases hcid : s.pc c = .idle
      · have hsh : s'.sh = s.sh := by simp only [next, hcid, Option.some.injEq] at hn; rw [← hn]; rfl
        rw [InRead, hsh]; exact hE
      · have hK := hS.prefix.now (inv_of_visit hx hvh) (pending_step B hn hcid)
        exact keep_inRead I hn hK.1 hK.2 hE
    by_cases hc : i = c
    · subst hc; exact next_fastPc I hn hkey hE hE' hF
    · unfold FastPc at hF ⊢
      rw [next_other hn hc]
      split at hF <;> simp_all [hE'.1, hE.1]

theorem fast_lockFree (I : Inv eqv prog s g) (hF : FastPc s k i) (hd : ∀ r, s.pc i ≠ .done r) : LockFree eqv prog s i := by
  have hl : (s.pc i).locked = false ∧ s.pc i ≠ .acq ∧ ∃ s', next eqv prog id true s i = some s' := by
    unfold FastPc at hF
    split at hF
    all_goals first
      | exact hF.elim
      | (rename_i hp; exact absurd hp (hd _))
      | (rename_i hp; rw [hp]; refine ⟨rfl, by simp, ?_⟩; simp only [next, hp]; exact ⟨_, rfl⟩)
  exact ⟨fun h => by rw [(I.str.mu i).2 h] at hl; exact absurd hl.1 (by simp), hl.2⟩

/-- C101: a call on a key that a Range has called its function with before the call is invoked takes no lock and waits for none, if since the
invocation of the Range nothing that removes the key or clears the map has been in progress. -/
theorem rwmap_seen (hx : Exec eqv prog h s) (hop : prog j = .range) (hkey : (prog i).key? = some k) {h1 h2 : List (Ev K V)} (he : h = h1 ++ h2)
    {v : V} (hv : .visit j k v ∈ h1) (hi : .inv i ∉ h1)
    (hS : Since j h fun _ c => prog c ≠ .clear ∧ prog c ≠ .loadAndDelete k ∧ ∀ o, prog c ≠ .compareAndDelete k o)
    (hp : pendingIn h i) : LockFree eqv prog s i := by
  obtain ⟨g, I, _⟩ := exec_inv hx
  refine fast_lockFree I (exec_fastPc hx hop hkey (fun a b hab hj c hc => ?_) h1 h2 he ⟨v, hv⟩ hi) fun r hr => hp.2 r (((exec_book hx).ret i r).2 hr)
  obtain ⟨x1, x2, x3⟩ := hS a b hab hj c hc
  exact ⟨x1, by rintro (h | ⟨o, h⟩); exacts [x2 h, x3 o h]⟩

/-- Call 5 (Range) has called its function with key 7 and goes on; call 3 stores another key and holds the mutex; call 4 (Load of key 7) returns. -/
example : ((sched (fun a b => some (a == b)) exProg true (rep 10 0 ++ rep 7 5 ++ rep 4 3 ++ rep 4 4) State.init []).map fun x => (x.2, x.1.sh.mu)) =
    some ([.inv 0, .ret 0 (.opt none), .inv 5, .visit 5 7 1, .inv 3, .inv 4, .ret 4 (.opt (some 1))], some 3) := rfl

/-! ## A settled map -/

/-- The map is not cleared, and values are only stored for keys that the Range `j` has seen. -/
def Overwrites (prog : Nat → Op K V) (j : Nat) (h : List (Ev K V)) (c : Nat) : Prop :=
  prog c ≠ .clear ∧ ((prog c).adds = true → ∃ k v, (prog c).key? = some k ∧ .visit j k v ∈ h)

/-- Range has loaded `read`, or stored it. -/
def PC.hasRead : PC K V → Bool
  | .unl (.rng _) | .rng _ _ | .fin _ | .done _ => true
  | _ => false

/-- From when the Range has loaded or stored `read`. -/
structure SettledAt (h : List (Ev K V)) (s : State K V) (j : Nat) : Prop where
  am : s.sh.read.amended = false
  seen : ∀ k v, .visit j k v ∈ h → ∃ e, aget s.sh.read.m k = some e
  rest : ∀ es, ((∃ acc, s.pc j = .rng es acc) ∨ s.pc j = .unl (.rng es)) → ∀ k e, (k, e) ∈ es → aget s.sh.read.m k = some e

/-- Nothing copies in a settled map. -/
theorem SettledAt.not_copying (hS : SettledAt h s j) (I : Inv eqv prog s g) (hO : ∀ c, pendingIn h c → Overwrites prog j h c) (B : Book prog h s)
    (c : Nat) : (s.pc c).copying = false ∧ ∀ rm, s.pc c ≠ .copy0 rm := by
  have hno : ∀ rm, ¬ (Adding prog s c rm ∧ pendingIn h c) := by
    rintro rm ⟨⟨k, h1, h2, _, _, h3⟩, hp⟩
    obtain ⟨k', v, h4, h5⟩ := (hO c hp).2 h1
    rw [h2] at h4
    cases h4
    obtain ⟨e, he⟩ := hS.seen k v h5
    rw [h3] at he; cases he
  have hI := I.ops c
  have hp : s.pc c ≠ .idle → (∀ r, s.pc c ≠ .done r) → pendingIn h c := B.pending
  cases hc : s.pc c with
  | copy0 rm => simp only [OpOk, hc] at hI; exact absurd ⟨hI, hp (by simp [hc]) (by simp [hc])⟩ (hno rm)
  | copy es rm => simp only [OpOk, hc] at hI; exact absurd ⟨hI.1, hp (by simp [hc]) (by simp [hc])⟩ (hno rm)
  | expunge es rm => simp only [OpOk, hc] at hI; exact absurd ⟨hI.1, hp (by simp [hc]) (by simp [hc])⟩ (hno rm)
  | amend rm => simp only [OpOk, hc] at hI; exact absurd ⟨hI.1, hp (by simp [hc]) (by simp [hc])⟩ (hno rm)
  | _ => exact ⟨rfl, by simp⟩

/-- `read` of a settled map does not change. -/
theorem SettledAt.read_eq (hS : SettledAt h s j) (I : Inv eqv prog s g) (hO : ∀ c, pendingIn h c → Overwrites prog j h c) (B : Book prog h s)
    (hn : next eqv prog ord go s i = some s') : s'.sh.read = s.sh.read := by
  rcases next_read I hn with h | ⟨rm, h, _⟩ | ⟨nx, h, _⟩ | ⟨h, _⟩
  · exact h
  · have := (hS.not_copying I hO B i).1
    rw [h] at this; cases this
  · have := I.ops i
    simp only [OpOk, h] at this
    rw [hS.am] at this
    exact absurd this.1 (by simp)
  · have := I.ops i
    simp only [OpOk, h] at this
    exact absurd this (hO i (B.pending (by simp [h]) (by simp [h]))).1

/-- The Range comes to know `read`. -/
theorem next_hasRead (I : Inv eqv prog s g) (hop : prog j = .range) (hn : next eqv prog ord go s j = some s')
    (hh : (s'.pc j).hasRead = true) : (s.pc j).hasRead = true ∨ s'.sh.read.amended = false := by
  have hO := I.ops j
  simp only [next] at hn
  cases hc : s.pc j with
  | start =>
    simp only [hc, hop, startStep, Option.some.injEq] at hn; subst hn
    by_cases ha : s.sh.read.amended = true
    · simp [ha, PC.hasRead] at hh
    · right; simpa using ha
  | crit =>
    simp only [hc, hop, critStep, Option.some.injEq] at hn; subst hn
    by_cases ha : s.sh.read.amended = true
    · simp [ha, PC.hasRead] at hh
    · right; simp [ha]
  | promo nx => simp only [hc, Option.some.injEq] at hn; subst hn; right; rfl
  | unl nx =>
    cases nx with
    | rng m => left; rfl
    | ent e => simp only [hc, Option.some.injEq] at hn; subst hn; simp [PC.hasRead] at hh
    | res r => simp only [OpOk, hc, NxOk] at hO; exact absurd hop hO
  | rng es acc => left; rfl
  | fin r => left; rfl
  | done r => left; rfl
  | ent e lk => simp only [OpOk, hc] at hO; obtain ⟨k', hE⟩ := hO; have := hE.key; rw [hop] at this; cases this
  | cas e lk p => simp only [OpOk, hc] at hO; obtain ⟨⟨k', hE⟩, _⟩ := hO; have := hE.key; rw [hop] at this; cases this
  | unexp e => simp only [OpOk, hc, hop] at hO; exact absurd hO.1 (by simp [Op.adds])
  | swp e => simp only [OpOk, hc] at hO; obtain ⟨_, _, _, h, _⟩ := hO; rw [hop] at h; cases h
  | copy0 rm => simp only [OpOk, hc] at hO; obtain ⟨_, h, _⟩ := hO; rw [hop] at h; cases h
  | copy es rm => simp only [OpOk, hc] at hO; obtain ⟨⟨_, h, _⟩, _⟩ := hO; rw [hop] at h; cases h
  | expunge es rm => simp only [OpOk, hc] at hO; obtain ⟨⟨_, h, _⟩, _⟩ := hO; rw [hop] at h; cases h
  | amend rm => simp only [OpOk, hc] at hO; obtain ⟨⟨_, h, _⟩, _⟩ := hO; rw [hop] at h; cases h
  | wipe => simp only [OpOk, hc] at hO; rw [hop] at hO; cases hO
  | zero => simp only [OpOk, hc] at hO; rw [hop] at hO; cases hO
  | acq =>
    simp only [hc] at hn
    split at hn <;> simp only [Option.some.injEq, reduceCtorEq] at hn
    subst hn; simp [PC.hasRead] at hh
  | idle => simp only [hc, Option.some.injEq] at hn; subst hn; simp [PC.hasRead] at hh
  | add d r =>
    have := I.tl.tl j
    rw [opTL_range hop, hc] at this
    exact this.elim
  | panic => rw [hc] at hn; cases hn

theorem no_visit_yet (hx : Exec eqv prog h s) (hop : prog j = .range) (hh : (s.pc j).hasRead = false) {v : V} : .visit j k v ∉ h := by
  intro hv
  have h2 := visit_mem hv
  rw [exec_visits hx j] at h2
  obtain ⟨g, I, _⟩ := exec_inv hx
  have hO := I.ops j
  cases hc : s.pc j <;> rw [hc] at h2 hh
  case rng => cases hh
  case fin => cases hh
  case done => cases hh
  case add d r =>
    have := I.tl.tl j
    rw [opTL_range hop, hc] at this
    exact this.elim
  case unl nx =>
    simp only [OpOk, hc] at hO
    cases nx with
    | res r => exact absurd hop hO
    | _ => simp [PC.pairs] at h2
  case promo nx =>
    simp only [OpOk, hc] at hO
    cases nx with
    | res r => exact absurd hop hO.2.1
    | _ => simp [PC.pairs] at h2
  all_goals simp [PC.pairs] at h2

theorem exec_settled (hx : Exec eqv prog h s) (hop : prog j = .range) : Since j h (Overwrites prog j) → (s.pc j).hasRead = true →
    SettledAt h s j := by
  induction hx with
  | init => intro _ h; cases h
  | @step h s evs s' hx hs ih =>
    intro hS hh
    obtain ⟨i, ord, go, hord, hn, rfl⟩ := hs
    obtain ⟨g, I, _⟩ := exec_inv hx
    have B := exec_book hx
    by_cases hh0 : (s.pc j).hasRead = true
    · have hT := ih hS.prefix hh0
      have hj : .inv j ∈ h := (B.inv j).2 (by intro h; rw [h] at hh0; cases hh0)
      have hO : ∀ c, pendingIn h c → Overwrites prog j h c := fun c hc => hS.prefix.now hj hc
      have hr := hT.read_eq I hO B hn
      refine ⟨by rw [hr]; exact hT.am, ?_, ?_⟩
      · intro k v hv
        rw [hr]
        rw [List.mem_append] at hv
        rcases hv with hv | hv
        · exact hT.seen k v hv
        · obtain ⟨rfl, e, es, acc, b, hp, _⟩ := event_visit hv
          exact ⟨e, hT.rest _ (Or.inl ⟨acc, hp⟩) k e (by simp)⟩
      · intro es hes k e he
        by_cases hij : j = i
        · subst hij
          rcases rest_new I hord hop hn es hes k e he with h | ⟨es', h1, h2⟩
          · exact h
          · rw [hr]; exact hT.rest es' h1 k e h2
        · rw [next_other hn hij] at hes
          rw [hr]; exact hT.rest es hes k e he
    · have hij : j = i := by
        by_contra hij
        rw [next_other hn hij] at hh
        exact hh0 hh
      subst hij
      have hnh : (s.pc j).hasRead = false := by simpa using hh0
      refine ⟨(next_hasRead I hop hn hh).resolve_left hh0, ?_, ?_⟩
      · intro k v hv
        exfalso
        rw [List.mem_append] at hv
        rcases hv with hv | hv
        · exact no_visit_yet hx hop hnh hv
        · obtain ⟨_, e, es, acc, b, hp, _⟩ := event_visit hv
          rw [hp] at hnh; cases hnh
      · intro es hes k e he
        rcases rest_new I hord hop hn es hes k e he with h | ⟨es', h1, _⟩
        · exact h
        · rcases h1 with ⟨_, h1⟩ | h1 <;> rw [h1] at hnh <;> cases hnh

/-- Where a call is that does not lock. -/
def FreePc (s : State K V) (i : Nat) : Prop :=
  match s.pc i with
  | .idle | .start | .add _ _ | .fin _ | .done _ | .rng _ _ => True
  | .ent e .u | .cas e .u _ => ∃ k, aget s.sh.read.m k = some e
  | _ => False

theorem freePc_finish {op : Op K V} {r : Res K V} (hp : s.pc i = finish op r) : FreePc s i := by
  unfold FreePc
  unfold finish at hp
  split at hp <;> rw [hp] <;> trivial

theorem free_lockFree (I : Inv eqv prog s g) (hF : FreePc s i) (hd : ∀ r, s.pc i ≠ .done r) : LockFree eqv prog s i := by
  have hl : (s.pc i).locked = false ∧ s.pc i ≠ .acq ∧ ∃ s', next eqv prog id true s i = some s' := by
    unfold FreePc at hF
    split at hF
    all_goals first
      | exact hF.elim
      | (rename_i hp; exact absurd hp (hd _))
      | (rename_i hp; rw [hp]; refine ⟨rfl, by simp, ?_⟩; simp only [next, hp]; exact ⟨_, rfl⟩)
      | skip
    · rename_i es acc hp
      rw [hp]; refine ⟨rfl, by simp, ?_⟩
      simp only [next, hp]
      cases es with
      | nil => exact ⟨_, rfl⟩
      | cons x es => simp only; split <;> exact ⟨_, rfl⟩
  exact ⟨fun h => by rw [(I.str.mu i).2 h] at hl; exact absurd hl.1 (by simp), hl.2⟩

/-- A step of a call in a map that is not amended, whose entries are not expunged, and that has the keys to be stored. -/
theorem next_freePc (I : Inv eqv prog s g) (hn : next eqv prog ord go s i = some s') (ham : s.sh.read.amended = false)
    (hne : ∀ k e, aget s.sh.read.m k = some e → s.sh.ent e ≠ .exp) (hr : s'.sh.read = s.sh.read)
    (hcl : prog i = .clear → s.sh.read.m = []) (had : (prog i).adds = true → ∃ k e, (prog i).key? = some k ∧ aget s.sh.read.m k = some e)
    (hF : FreePc s i) : FreePc s' i := by
  have hO := I.ops i
  cases hc : s.pc i with
  | idle => simp only [next, hc, Option.some.injEq] at hn; subst hn; simp [FreePc]
  | start =>
    simp only [next, hc, Option.some.injEq] at hn
    unfold FreePc
    rw [hr, ← hn]
    simp only [goto_pc_self]
    cases hop : prog i with
    | clear => simp [startStep, ham, hcl hop]
    | range => simp [startStep, ham]
    | len => simp [startStep]
    | swap k v =>
      obtain ⟨k', e, h1, h2⟩ := had (by simp [hop, Op.adds])
      simp only [hop, Op.key?, Option.some.injEq] at h1
      subst h1
      simp only [startStep, h2]
      exact ⟨_, h2⟩
    | loadOrStore k v =>
      obtain ⟨k', e, h1, h2⟩ := had (by simp [hop, Op.adds])
      simp only [hop, Op.key?, Option.some.injEq] at h1
      subst h1
      simp only [startStep, h2]
      exact ⟨_, h2⟩
    | load k | loadAndDelete k | compareAndSwap k o n | compareAndDelete k o =>
      cases hk : aget s.sh.read.m k with
      | none => simp [startStep, hk, ham]
      | some e => simp only [startStep, hk]; exact ⟨_, hk⟩
  | ent e lk =>
    rw [FreePc, hc] at hF
    cases lk <;> try exact hF.elim
    obtain ⟨k, hk⟩ := hF
    have hx := hne k e hk
    simp only [next, hc, Option.some.injEq] at hn
    have hp : s'.pc i = (entStep eqv prog s.sh (prog i) e .u).2 := by rw [← hn]; simp
    have hcas : ∀ p, s'.pc i = .cas e .u p → FreePc s' i := by
      intro p h; unfold FreePc; rw [h, hr]; exact ⟨k, hk⟩
    simp only [OpOk, hc] at hO
    obtain ⟨k', hE⟩ := hO
    have hkey := hE.key
    cases hop : prog i <;> rw [hop] at hkey <;> simp only [Op.key?, reduceCtorEq] at hkey <;> simp only [entStep, hop, after, Lk.raise] at hp
    · exact freePc_finish hp
    · rw [if_neg hx] at hp; exact hcas _ hp
    · cases hv : s.sh.ent e with
      | exp => exact absurd hv hx
      | nil => rw [hv] at hp; exact hcas _ hp
      | val b => rw [hv] at hp; simp only at hp; exact freePc_finish hp
    · cases hv : s.sh.ent e <;> rw [hv] at hp <;> simp only at hp <;> first | exact hcas _ hp | exact freePc_finish hp
    all_goals
      cases hv : s.sh.ent e <;> rw [hv] at hp <;> simp only at hp
      all_goals first
        | exact freePc_finish hp
        | (split at hp
           · exact hcas _ hp
           · simp only at hp; exact freePc_finish hp
           · simp only at hp; exact freePc_finish hp)
  | cas e lk p =>
    rw [FreePc, hc] at hF
    cases lk <;> try exact hF.elim
    obtain ⟨k, hk⟩ := hF
    simp only [next, hc, Option.some.injEq] at hn
    have hp : s'.pc i = (casStep prog s.sh i (prog i) e .u p).2 := by rw [← hn]; simp
    simp only [OpOk, hc] at hO
    by_cases hpe : s.sh.ent e = p
    · cases hop : prog i <;> simp only [casStep, hop, if_pos hpe, after] at hp <;>
        first | exact freePc_finish hp | (rw [hop] at hO; exact hO.2.elim)
    · simp only [casStep, if_neg hpe] at hp
      unfold FreePc; rw [hp, hr]; exact ⟨k, hk⟩
  | rng es acc =>
    simp only [next, hc] at hn
    cases es with
    | nil => simp only [Option.some.injEq] at hn; subst hn; simp [FreePc]
    | cons x es =>
      simp only at hn
      repeat' split at hn
      all_goals simp only [Option.some.injEq] at hn; subst hn; simp [FreePc]
  | add d r => simp only [next, hc, Option.some.injEq] at hn; subst hn; simp [FreePc]
  | fin r => simp only [next, hc, Option.some.injEq] at hn; subst hn; simp [FreePc]
  | done r => simp [next, hc] at hn
  | _ => rw [FreePc, hc] at hF; exact hF.elim

theorem exec_freePc (hx : Exec eqv prog h s) (hop : prog j = .range) : Since j h (Overwrites prog j) →
    ∀ h1 h2, h = h1 ++ h2 → (∃ r, .ret j r ∈ h1) → .inv i ∉ h1 → FreePc s i := by
  induction hx with
  | init => intro _ _ _ _ _ _; trivial
  | @step h s evs s' hx hs ih =>
    intro hS h1 h2 he hv hi
    obtain ⟨c, ord, go, hord, hn, rfl⟩ := hs
    obtain ⟨g, I, _⟩ := exec_inv hx
    have B := exec_book hx
    by_cases hid : s.pc i = .idle
    · by_cases hc : i = c
      · subst hc
        simp only [next, hid, Option.some.injEq] at hn; subst hn; simp [FreePc]
      · simp [FreePc, next_other hn hc, hid]
    have hinv := (B.inv i).2 hid
    rcases List.append_eq_append_iff.1 he with ⟨a', ha, _⟩ | ⟨c', hc', _⟩
    · exact absurd (by rw [ha]; simp [hinv]) hi
    have hF := ih hS.prefix h1 c' hc' hv hi
    obtain ⟨r, hr⟩ := hv
    have hd : s.pc j = .done r := (B.ret j r).1 (by rw [hc']; simp [hr])
    have hT := exec_settled hx hop hS.prefix (by rw [hd]; rfl)
    have hj : .inv j ∈ h := (B.inv j).2 (by rw [hd]; simp)
    have hO : ∀ c, pendingIn h c → Overwrites prog j h c := fun c hc => hS.prefix.now hj hc
    have hrd := hT.read_eq I hO B hn
    by_cases hc : i = c
    · subst hc
      have hov := hO i (pending_step B hn hid)
      refine next_freePc I hn hT.am (exec_noExp hx hT.am fun c => (hT.not_copying I hO B c).1) hrd (fun h => absurd h hov.1) (fun h => ?_) hF
      obtain ⟨k, v, h1, h2⟩ := hov.2 h
      obtain ⟨e, he⟩ := hT.seen k v h2
      exact ⟨k, e, h1, he⟩
    · unfold FreePc at hF ⊢
      rw [next_other hn hc, hrd]
      exact hF

/-- C102: after a Range has returned, if since its invocation the map has not been cleared and values have been stored only for keys the Range
has called its function with, no call takes the lock or waits for it. -/
theorem rwmap_settled (hx : Exec eqv prog h s) (hop : prog j = .range) {h1 h2 : List (Ev K V)} (he : h = h1 ++ h2)
    {r : Res K V} (hr : .ret j r ∈ h1) (hi : .inv i ∉ h1)
    (hS : Since j h fun h' c => prog c ≠ .clear ∧ ∀ k v, prog c = .swap k v ∨ prog c = .loadOrStore k v → ∃ w, .visit j k w ∈ h')
    (hp : pendingIn h i) : LockFree eqv prog s i := by
  obtain ⟨g, I, _⟩ := exec_inv hx
  refine free_lockFree I (exec_freePc hx hop (fun a b hab hj c hc => ?_) h1 h2 he ⟨r, hr⟩ hi) fun r hr => hp.2 r (((exec_book hx).ret i r).2 hr)
  obtain ⟨x1, x2⟩ := hS a b hab hj c hc
  refine ⟨x1, fun hadd => ?_⟩
  cases hop : prog c <;> rw [hop] at hadd <;> simp only [Op.adds, Bool.false_eq_true] at hadd
  · next k v => obtain ⟨w, hw⟩ := x2 k v (Or.inl hop); exact ⟨k, w, rfl, hw⟩
  · next k v => obtain ⟨w, hw⟩ := x2 k v (Or.inr hop); exact ⟨k, w, rfl, hw⟩

/-- Two keys are stored and seen by a Range; then a LoadAndDelete of key 7 and two Loads of it return, whoever has the mutex: nobody. -/
example : ((sched (fun a b => some (a == b)) exProg true (rep 10 0 ++ rep 7 3 ++ rep 10 5 ++ rep 3 1 ++ rep 6 2 ++ rep 1 1 ++ rep 4 4) State.init []).map
    fun x => (x.2, x.1.sh.mu)) =
    some ([.inv 0, .ret 0 (.opt none), .inv 3, .ret 3 (.opt none), .inv 5, .visit 5 7 1, .visit 5 8 2, .ret 5 (.visited [(7, 1), (8, 2)] false),
      .inv 1, .inv 2, .ret 2 (.opt (some 1)), .ret 1 (.opt (some 1)), .inv 4, .ret 4 (.opt none)], none) := rfl

/-! ## A map that has been cleared -/

/-- Clear has emptied `read`, or found it empty. -/
def PC.cleared : PC K V → Bool
  | .zero | .unl _ | .fin _ | .done _ | .add _ _ => true
  | _ => false

theorem exec_clearPc (hx : Exec eqv prog h s) (hop : prog j = .clear) : s.pc j = .idle ∨ preClear (s.pc j) = true ∨ postClear (s.pc j) = true := by
  induction hx with
  | init => exact Or.inl rfl
  | @step h s evs s' hx hs ih =>
    obtain ⟨i, ord, go, hord, hn, rfl⟩ := hs
    by_cases hij : j = i
    swap
    · rw [next_other hn hij]; exact ih
    subst hij
    obtain ⟨h1, h2⟩ := next_clear hop hn
    rcases ih with h | h | h
    · simp only [next, h, Option.some.injEq] at hn; subst hn; simp [preClear]
    · by_cases hz : s.pc j = .zero
      · simp only [next, hz, Option.some.injEq] at hn; subst hn; simp [postClear]
      · rcases h1 h hz with ⟨_, _, _, h⟩ | h
        · rw [h]; simp [postClear]
        · exact Or.inr (Or.inl h)
    · exact Or.inr (Or.inr (h2 h))

theorem exec_cleared (hx : Exec eqv prog h s) (hop : prog j = .clear) : Since j h (fun _ c => (prog c).adds = false) → (s.pc j).cleared = true →
    s.sh.read = ⟨[], false⟩ := by
  induction hx with
  | init => intro _ _; rfl
  | @step h s evs s' hx hs ih =>
    intro hS hh
    obtain ⟨i, ord, go, hord, hn, rfl⟩ := hs
    obtain ⟨g, I, _⟩ := exec_inv hx
    have B := exec_book hx
    by_cases hh0 : (s.pc j).cleared = true
    · have hT := ih hS.prefix hh0
      have hj : .inv j ∈ h := (B.inv j).2 (by intro h; rw [h] at hh0; cases hh0)
      have hO := I.ops i
      rcases next_read I hn with h | ⟨rm, h, _⟩ | ⟨nx, h, _⟩ | ⟨_, h⟩
      · rw [h]; exact hT
      · simp only [OpOk, h] at hO
        obtain ⟨⟨k, h1, _⟩, _⟩ := hO
        rw [hS.prefix.now hj (B.pending (by simp [h]) (by simp [h]))] at h1
        cases h1
      · simp only [OpOk, h] at hO
        rw [hT] at hO
        exact absurd hO.1 (by simp)
      · exact h
    · have hij : j = i := by
        by_contra hij
        rw [next_other hn hij] at hh
        exact hh0 hh
      subst hij
      have hO := I.ops j
      simp only [next] at hn
      cases hc : s.pc j with
      | start =>
        simp only [hc, hop, startStep, Option.some.injEq] at hn; subst hn
        by_cases ha : s.sh.read.m = [] ∧ s.sh.read.amended = false
        · simp only [goto_sh]
          cases hr : s.sh.read with
          | mk m a => rw [hr] at ha; simp only at ha; rw [ha.1, ha.2]
        · simp [ha, PC.cleared] at hh
      | crit =>
        simp only [hc, hop, critStep, Option.some.injEq] at hn; subst hn
        by_cases ha : s.sh.read.m ≠ [] ∨ s.sh.read.amended = true
        · simp [ha, PC.cleared] at hh
        · simp only [goto_sh, if_neg ha]
          cases hr : s.sh.read with
          | mk m a =>
            rw [hr] at ha; simp only [not_or, ne_eq, not_not, Bool.not_eq_true] at ha
            rw [ha.1, ha.2]
      | wipe => simp only [hc, Option.some.injEq] at hn; subst hn; rfl
      | promo nx =>
        simp only [OpOk, hc] at hO
        cases nx with
        | ent e => obtain ⟨_, ⟨h, _⟩, _⟩ := hO; rcases h with h | ⟨k, h⟩ <;> rw [hop] at h <;> cases h
        | rng m => obtain ⟨_, ⟨h, _⟩, _⟩ := hO; rw [hop] at h; cases h
        | res r =>
          rcases exec_clearPc hx hop with h | h | h
          all_goals rw [hc] at h; cases h
      | rng es acc => simp only [OpOk, hc] at hO; rw [hop] at hO; cases hO.1
      | zero => rw [hc] at hh0; exact absurd rfl hh0
      | unl nx => rw [hc] at hh0; exact absurd rfl hh0
      | fin r => rw [hc] at hh0; exact absurd rfl hh0
      | done r => rw [hc] at hh0; exact absurd rfl hh0
      | add d r => rw [hc] at hh0; exact absurd rfl hh0
      | ent e lk => simp only [OpOk, hc] at hO; obtain ⟨k', hE⟩ := hO; have := hE.key; rw [hop] at this; cases this
      | cas e lk p => simp only [OpOk, hc] at hO; obtain ⟨⟨k', hE⟩, _⟩ := hO; have := hE.key; rw [hop] at this; cases this
      | unexp e => simp only [OpOk, hc, hop] at hO; exact absurd hO.1 (by simp [Op.adds])
      | swp e => simp only [OpOk, hc] at hO; obtain ⟨_, _, _, h, _⟩ := hO; rw [hop] at h; cases h
      | copy0 rm => simp only [OpOk, hc] at hO; obtain ⟨_, h, _⟩ := hO; rw [hop] at h; cases h
      | copy es rm => simp only [OpOk, hc] at hO; obtain ⟨⟨_, h, _⟩, _⟩ := hO; rw [hop] at h; cases h
      | expunge es rm => simp only [OpOk, hc] at hO; obtain ⟨⟨_, h, _⟩, _⟩ := hO; rw [hop] at h; cases h
      | amend rm => simp only [OpOk, hc] at hO; obtain ⟨⟨_, h, _⟩, _⟩ := hO; rw [hop] at h; cases h
      | acq =>
        simp only [hc] at hn
        split at hn <;> simp only [Option.some.injEq, reduceCtorEq] at hn
        subst hn; simp [PC.cleared] at hh
      | idle => simp only [hc, Option.some.injEq] at hn; subst hn; simp [PC.cleared] at hh
      | panic => rw [hc] at hn; cases hn

theorem exec_emptyPc (hx : Exec eqv prog h s) (hop : prog j = .clear) : Since j h (fun _ c => (prog c).adds = false) →
    ∀ h1 h2, h = h1 ++ h2 → (∃ r, .ret j r ∈ h1) → .inv i ∉ h1 → FreePc s i := by
  induction hx with
  | init => intro _ _ _ _ _ _; trivial
  | @step h s evs s' hx hs ih =>
    intro hS h1 h2 he hv hi
    have hx' := hx.step hs
    obtain ⟨c, ord, go, hord, hn, rfl⟩ := hs
    obtain ⟨g, I, _⟩ := exec_inv hx
    have B := exec_book hx
    by_cases hid : s.pc i = .idle
    · by_cases hc : i = c
      · subst hc
        simp only [next, hid, Option.some.injEq] at hn; subst hn; simp [FreePc]
      · simp [FreePc, next_other hn hc, hid]
    have hinv := (B.inv i).2 hid
    rcases List.append_eq_append_iff.1 he with ⟨a', ha, _⟩ | ⟨c', hc', _⟩
    · exact absurd (by rw [ha]; simp [hinv]) hi
    have hF := ih hS.prefix h1 c' hc' hv hi
    obtain ⟨r, hr⟩ := hv
    have hrh : .ret j r ∈ h := by rw [hc']; simp [hr]
    have hd : s.pc j = .done r := (B.ret j r).1 hrh
    have hd' : s'.pc j = .done r := ((exec_book hx').ret j r).1 (by simp [hrh])
    have hT := exec_cleared hx hop hS.prefix (by rw [hd]; rfl)
    have hT' := exec_cleared hx' hop hS (by rw [hd']; rfl)
    have hj : .inv j ∈ h := (B.inv j).2 (by rw [hd]; simp)
    by_cases hc : i = c
    · subst hc
      have ha := hS.prefix.now hj (pending_step B hn hid)
      refine next_freePc I hn (by rw [hT]) (by rw [hT]; intro k e h; simp [aget] at h) (hT'.trans hT.symm) (fun _ => by rw [hT]) (fun h => ?_) hF
      rw [ha] at h; cases h
    · unfold FreePc at hF ⊢
      rw [next_other hn hc, hT', ← hT]
      exact hF

/-- C102: after a Clear has returned, if since its invocation no Swap or LoadOrStore has been in progress, no call takes the lock or waits for it. -/
theorem rwmap_cleared (hx : Exec eqv prog h s) (hop : prog j = .clear) {h1 h2 : List (Ev K V)} (he : h = h1 ++ h2)
    {r : Res K V} (hr : .ret j r ∈ h1) (hi : .inv i ∉ h1)
    (hS : Since j h fun _ c => ∀ k v, prog c ≠ .swap k v ∧ prog c ≠ .loadOrStore k v)
    (hp : pendingIn h i) : LockFree eqv prog s i := by
  obtain ⟨g, I, _⟩ := exec_inv hx
  refine free_lockFree I (exec_emptyPc hx hop (fun a b hab hj c hc => ?_) h1 h2 he ⟨r, hr⟩ hi) fun r hr => hp.2 r (((exec_book hx).ret i r).2 hr)
  have := hS a b hab hj c hc
  cases hop : prog c with
  | swap k v => exact absurd hop (this k v).1
  | loadOrStore k v => exact absurd hop (this k v).2
  | _ => show (prog c).adds = false; rw [hop]; rfl

/-- A key is stored, the map is cleared, then a Load and a LoadAndDelete return without the mutex. -/
example : ((sched (fun a b => some (a == b)) exProg true (rep 10 0 ++ rep 8 6 ++ rep 3 1 ++ rep 3 2) State.init []).map fun x => (x.2, x.1.sh.mu)) =
    some ([.inv 0, .ret 0 (.opt none), .inv 6, .ret 6 .unit, .inv 1, .ret 1 (.opt none), .inv 2, .ret 2 (.opt none)], none) := rfl
end Verif.RWMap
