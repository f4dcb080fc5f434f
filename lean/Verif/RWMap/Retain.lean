import Verif.RWMap.Miss
import Verif.RWMap.Props
/-!
# What `RWMap` keeps of removed keys and values (C149)
-/
namespace Verif.RWMap
variable {K V : Type} [DecidableEq K] [Inhabited V]
variable {eqv : V → V → Option Bool} {prog : Nat → Op K V}
variable {h : List (Ev K V)} {s s0 s' : State K V} {g : Ghost K V} {i j : Nat} {k : K} {ord : List (K × Nat) → List (K × Nat)} {go : Bool}

/-- One of the two maps of the `RWMap` has an entry for `k`, and that entry holds `p`. -/
def Kept (h : Sh K) (k : K) (p : Ptr) : Prop :=
  ∃ e, ((k, e) ∈ h.read.m ∨ ∃ d, h.dirty = some d ∧ (k, e) ∈ d) ∧ h.ent e = p

theorem Core.dirty_is_cur {rm : List (K × Nat)} (c : Core s.sh rm g) (hrm : s.sh.read.amended = true → rm = []) {d : List (K × Nat)}
    (hd : s.sh.dirty = some d) {e : Nat} (hk : aget d k = some e) : cur s.sh k = some e := by
  cases ha : s.sh.read.amended with
  | true => obtain rfl := hrm ha; exact c.dirty_cur hd hk ha
  | false => unfold cur; rw [c.sub ha d hd k e hk]

theorem Inv.remaining_nil (I : Inv eqv prog s g) (ha : s.sh.read.amended = true) : remaining s = [] := by
  unfold remaining
  split
  · next i hi =>
    have := I.ops i
    cases hc : s.pc i <;> simp only [PC.remaining] <;> simp only [OpOk, hc] at this
    all_goals
      obtain ⟨⟨_, _, _, _, h, _⟩, _⟩ := this
      rw [ha] at h; cases h
  · rfl

/-- Each entry in one of the maps is the one a lookup finds. -/
theorem Inv.kept_cur (I : Inv eqv prog s g) {e : Nat} (hk : (k, e) ∈ s.sh.read.m ∨ ∃ d, s.sh.dirty = some d ∧ (k, e) ∈ d) : cur s.sh k = some e := by
  have c := I.str.core
  rcases hk with hk | ⟨d, hd, hk⟩
  · unfold cur; rw [aget_of_mem c.rwf hk]
  · exact c.dirty_is_cur I.remaining_nil hd (aget_of_mem (c.dwf d hd) hk)

theorem kept_iff (I : Inv eqv prog s g) {p : Ptr} : Kept s.sh k p ↔ ∃ e, (aget s.sh.read.m k = some e ∨ aget s.sh.dl k = some e) ∧ s.sh.ent e = p := by
  have c := I.str.core
  constructor
  · rintro ⟨e, he | ⟨d, hd, he⟩, hp⟩
    · exact ⟨e, Or.inl (aget_of_mem c.rwf he), hp⟩
    · exact ⟨e, Or.inr (by rw [Sh.dl, hd]; exact aget_of_mem (c.dwf d hd) he), hp⟩
  · rintro ⟨e, he | he, hp⟩
    · exact ⟨e, Or.inl ((mem_iff_aget c.rwf).2 he), hp⟩
    · cases hd : s.sh.dirty with
      | none => rw [Sh.dl, hd] at he; cases he
      | some d => rw [Sh.dl, hd] at he; exact ⟨e, Or.inr ⟨d, hd, (mem_iff_aget (c.dwf d hd)).2 he⟩, hp⟩

/-- **C149**, values: at every moment there is a linearization of the calls so far such that the values `RWMap` refers to are those of the map, each key having
one; so a value that was removed or overwritten is not kept. -/
theorem rwmap_keeps_no_value (hx : Exec eqv prog h s) : ∃ L, Linearizes eqv prog L h ∧
    (∀ k b, Kept s.sh k (.val b) → effects eqv prog L AMap.empty k = some (prog b).arg) ∧
    (∀ k v, effects eqv prog L AMap.empty k = some v → ∃ b, Kept s.sh k (.val b) ∧ (prog b).arg = v) ∧
    ∀ k p p', Kept s.sh k p → Kept s.sh k p' → p = p' := by
  obtain ⟨g, I, rfl⟩ := exec_inv hx
  have hcur : ∀ k, effects eqv prog (levs g.L) AMap.empty k = curv prog s.sh k := fun k => by rw [effects_levs]; exact I.tl.st k
  refine ⟨_, I.linearizes, ?_, ?_, ?_⟩
  · rintro k b ⟨e, he, hb⟩
    rw [hcur, curv, I.kept_cur he]
    simp [vl, hb, deref]
  · intro k v hv
    rw [hcur, curv] at hv
    obtain ⟨e, he, hv⟩ := Option.bind_eq_some_iff.1 hv
    cases hp : s.sh.ent e with
    | val b =>
      refine ⟨b, (kept_iff I).2 ⟨e, ?_, hp⟩, by simpa [vl, hp, deref] using hv⟩
      unfold cur at he
      split at he
      · next h => cases he; exact Or.inl h
      · split at he
        · exact Or.inr he
        · cases he
    | _ => simp [vl, hp, deref] at hv
  · rintro k p p' ⟨e, he, rfl⟩ ⟨e', he', rfl⟩
    have := I.kept_cur he
    rw [I.kept_cur he'] at this
    cases this; rfl

/-! ## Keys -/

/-- The call puts values under `k`, if there is none. -/
def Op.puts (k : K) (op : Op K V) : Prop := op.adds = true ∧ op.key? = some k

/-- Steps from `s0` to `s`, of calls that do not put values under `k`; `n` times `dirty` has become `read`. -/
inductive Without (eqv : V → V → Option Bool) (prog : Nat → Op K V) (k : K) (s0 : State K V) : Nat → State K V → Prop
  | refl : Without eqv prog k s0 0 s0
  | step {n s s' i ord go} : Without eqv prog k s0 n s → (∀ l, (ord l).Perm l) → next eqv prog ord go s i = some s' → ¬ (prog i).puts k →
      Without eqv prog k s0 (match s.pc i with | .promo _ => n + 1 | _ => n) s'

theorem Without.exec {n : Nat} (hx : Exec eqv prog h s0) (hw : Without eqv prog k s0 n s) : ∃ h', Exec eqv prog h' s := by
  induction hw with
  | refl => exact ⟨h, hx⟩
  | step _ ho hn _ ih => obtain ⟨h', ih⟩ := ih; exact ⟨_, ih.step ⟨_, _, _, ho, hn, rfl⟩⟩

/-- Who gives an entry its first value. -/
theorem next_val (I : Inv eqv prog s g) (hn : next eqv prog ord go s i = some s') {e b : Nat} (h1 : s'.sh.ent e = .val b)
    (h0 : ∀ b, s.sh.ent e ≠ .val b) : e = s.sh.fresh ∨ ∃ k, (prog i).puts k ∧ g.key e = some k := by
  have hO := I.ops i
  rcases next_ent I hn e with h | ⟨b', h, h'⟩ | ⟨h, _⟩ | ⟨h, _⟩ | ⟨h, _⟩
  · rw [h] at h1; exact absurd h1 (h0 _)
  · rcases h' with h' | h'
    · simp only [next] at hn
      cases hc : s.pc i with
      | start => simp only [hc, Option.some.injEq] at hn; subst hn; exact absurd h1 (h0 _)
      | crit =>
        simp only [hc, Option.some.injEq] at hn; subst hn
        rcases crit_ent s.sh i (prog i) e with h | ⟨_, h⟩
        · simp only [goto_sh] at h1; rw [h] at h1; exact absurd h1 (h0 _)
        · exact Or.inl h
      | ent e' lk =>
        simp only [hc, Option.some.injEq] at hn; subst hn
        simp only [goto_sh, ent_ent] at h1; exact absurd h1 (h0 _)
      | cas e' lk p =>
        simp only [OpOk, hc] at hO
        obtain ⟨⟨k, hE⟩, hG⟩ := hO
        simp only [hc, Option.some.injEq] at hn; subst hn
        by_cases he : e = e'
        · subst he
          refine Or.inr ⟨k, ⟨?_, hE.key⟩, hE.ekey⟩
          cases hop : prog i <;> simp only [hop, Guard] at hG <;> simp only [Op.adds]
          all_goals
            exfalso
            simp only [goto_sh, casStep, hop] at h1
            split at h1
            · next hp =>
              obtain ⟨b, rfl⟩ : ∃ b, p = .val b := by
                first | exact hG | exact ⟨_, hG.choose_spec.1⟩
              exact h0 _ hp
            · exact h0 _ h1
        · exfalso
          refine h0 b ?_
          rw [← h1]
          simp only [goto_sh, casStep]
          repeat' split
          all_goals simp [after_ent, Sh.setEnt, he]
      | unexp e' =>
        exfalso
        simp only [hc, Option.some.injEq] at hn; subst hn
        simp only [goto_sh, unexpStep] at h1
        repeat' split at h1
        all_goals first
          | exact h0 _ h1
          | (simp only [Sh.setEnt] at h1; split at h1; · cases h1
             exact h0 _ h1)
      | swp e' =>
        simp only [OpOk, hc] at hO
        obtain ⟨_, k, v, hop, hcur⟩ := hO
        simp only [hc, Option.some.injEq] at hn; subst hn
        by_cases he : e = e'
        · subst he
          exact Or.inr ⟨k, ⟨by rw [hop]; rfl, by rw [hop]; rfl⟩, (I.str.core.cur_key hcur).1⟩
        · exfalso
          refine h0 b ?_
          rw [← h1]
          simp only [goto_sh, swpStep]
          repeat' split
          all_goals simp [Sh.setEnt, he]
      | amend rm =>
        simp only [OpOk, hc] at hO
        obtain ⟨⟨k, _, hk, _⟩, _⟩ := hO
        simp only [hc, hk, Option.some.injEq] at hn; subst hn
        rcases putNew_ent { s.sh with read := ⟨rm, true⟩ } i k (newRes (prog i)) e with h | ⟨_, h⟩
        · simp only [goto_sh] at h1; rw [h] at h1; exact absurd h1 (h0 _)
        · exact Or.inl h
      | expunge es rm =>
        exfalso
        cases es with
        | nil => simp only [hc] at hn; cases hn
        | cons x es =>
          simp only [hc] at hn
          split at hn <;> simp only [Option.some.injEq] at hn <;> subst hn
          · simp only [goto_sh, Sh.setEnt] at h1
            split at h1
            · cases h1
            · exact h0 _ h1
          · exact h0 _ h1
      | _ =>
        exfalso
        simp only [hc] at hn
        repeat' split at hn
        all_goals first
          | cases hn; done
          | contradiction
          | (simp only [Option.some.injEq] at hn; subst hn; exact h0 _ h1)
    · exact Or.inl h'
  · rw [h] at h1; cases h1
  · rw [h] at h1; cases h1
  · rw [h] at h1; cases h1

/-- `k` is not in the map. -/
def Absent (h : Sh K) (k : K) : Prop := ∀ b, ¬ Kept h k (.val b)

theorem absent_next (I : Inv eqv prog s g) (I' : ∃ g', Inv eqv prog s' g') (ho : ∀ l, (ord l).Perm l) (hn : next eqv prog ord go s i = some s')
    (hp : ¬ (prog i).puts k) (ha : Absent s.sh k) : Absent s'.sh k := by
  obtain ⟨g', I'⟩ := I'
  intro b hb
  obtain ⟨e, he, hb⟩ := (kept_iff I').1 hb
  -- the entry was there before
  have hold : aget s.sh.read.m k = some e ∨ aget s.sh.dl k = some e := by
    rcases he with he | he
    · rcases next_read I hn with h | ⟨_, _, h⟩ | ⟨_, _, h⟩ | ⟨_, h⟩
      · rw [h] at he; exact Or.inl he
      · rw [h] at he; exact Or.inl he
      · rw [h] at he; exact Or.inr he
      · rw [h] at he; cases he
    · rcases next_keys I ho hn k e he with h | ⟨h, _⟩ | h
      · exact Or.inr h
      · exact Or.inl h
      · exact absurd h hp
  have hnv : ∀ b, s.sh.ent e ≠ .val b := fun b hb => ha b ((kept_iff I).2 ⟨e, hold, hb⟩)
  have hkey : g.key e = some k ∧ e < s.sh.fresh := by
    rcases hold with h | h
    · exact ⟨(I.str.core.rkey k e h).1, (I.str.core.rkey k e h).2.1⟩
    · cases hd : s.sh.dirty with
      | none => rw [Sh.dl, hd] at h; cases h
      | some d =>
        rw [Sh.dl, hd] at h
        exact ⟨(I.str.core.dkey d hd k e h).1, (I.str.core.dkey d hd k e h).2.1⟩
  rcases next_val I hn hb hnv with h | ⟨k', h, h'⟩
  · omega
  · rw [hkey.1] at h'; cases h'; exact hp h

theorem no_dirty_next (I : Inv eqv prog s g) (ho : ∀ l, (ord l).Perm l) (hn : next eqv prog ord go s i = some s')
    (hp : ¬ (prog i).puts k) (ha : Absent s.sh k) (hd : aget s.sh.dl k = none) : aget s'.sh.dl k = none := by
  cases h : aget s'.sh.dl k with
  | none => rfl
  | some e =>
    rcases next_keys I ho hn k e h with h | ⟨h, b, hb⟩ | h
    · rw [hd] at h; cases h
    · exact absurd ((kept_iff I).2 ⟨e, Or.inl h, hb⟩) (ha b)
    · exact absurd h hp

theorem no_read_next (I : Inv eqv prog s g) (hn : next eqv prog ord go s i = some s') (hd : aget s.sh.dl k = none) (hr : aget s.sh.read.m k = none) :
    aget s'.sh.read.m k = none := by
  rcases next_read I hn with h | ⟨_, _, h⟩ | ⟨_, _, h⟩ | ⟨_, h⟩ <;> rw [h]
  · exact hr
  · exact hr
  · exact hd
  · rfl

/-- **C149**, keys: a key that is not in the map and not put into it again is forgotten after `dirty` has become `read` twice. -/
theorem rwmap_forgets {n : Nat} (hx : Exec eqv prog h s0) (ha : Absent s0.sh k) (hw : Without eqv prog k s0 n s) (hn : 2 ≤ n) (p : Ptr) :
    ¬ Kept s.sh k p := by
  have key : Absent s.sh k ∧ (1 ≤ n → aget s.sh.dl k = none) ∧ (2 ≤ n → aget s.sh.read.m k = none) := by
    clear hn
    induction hw with
    | refl => exact ⟨ha, by omega, by omega⟩
    | @step n s s' i ord go hw ho hn hp ih =>
      obtain ⟨h', hx'⟩ := hw.exec hx
      obtain ⟨g, I, _⟩ := exec_inv hx'
      obtain ⟨g', I', _⟩ := exec_inv (hx'.step ⟨_, _, _, ho, hn, rfl⟩)
      obtain ⟨h1, h2, h3⟩ := ih
      refine ⟨absent_next I ⟨g', I'⟩ ho hn hp h1, ?_⟩
      split
      · next nx hc =>
        simp only [next, hc, Option.some.injEq] at hn
        subst hn
        exact ⟨fun _ => rfl, fun h => h2 (by omega)⟩
      · exact ⟨fun h => no_dirty_next I ho hn hp h1 (h2 h), fun h => no_read_next I hn (h2 (by omega)) (h3 h)⟩
  obtain ⟨h', hx'⟩ := hw.exec hx
  obtain ⟨g, I, _⟩ := exec_inv hx'
  intro hk
  obtain ⟨e, he | he, _⟩ := (kept_iff I).1 hk
  · rw [key.2.2 hn] at he; cases he
  · rw [key.2.1 (by omega)] at he; cases he

/-- Steps of calls that are not Clear and put values only under the keys `ks`. -/
inductive Within (eqv : V → V → Option Bool) (prog : Nat → Op K V) (ks : List K) (s0 : State K V) : State K V → Prop
  | refl : Within eqv prog ks s0 s0
  | step {s s' : State K V} {i ord go} : Within eqv prog ks s0 s → (∀ l, (ord l).Perm l) → next eqv prog ord go s i = some s' → prog i ≠ .clear →
      (∀ k, (prog i).puts k → k ∈ ks) → Within eqv prog ks s0 s'

theorem Within.exec {ks : List K} (hx : Exec eqv prog h s0) (hw : Within eqv prog ks s0 s) : ∃ h', Exec eqv prog h' s := by
  induction hw with
  | refl => exact ⟨h, hx⟩
  | step _ ho hn _ _ ih => obtain ⟨h', ih⟩ := ih; exact ⟨_, ih.step ⟨_, _, _, ho, hn, rfl⟩⟩

/-- **C149**, keys: while `read` is complete, no key in it is forgotten, removed or not, until a key not in it is put into the map, or Clear is called. -/
theorem rwmap_keeps_keys (hx : Exec eqv prog h s0) (ha : s0.sh.read.amended = false) (hw : Within eqv prog (s0.sh.read.m.map Prod.fst) s0 s) :
    s.sh.read = s0.sh.read ∧ ∀ k p, Kept s0.sh k p → ∃ p', Kept s.sh k p' := by
  have key : s.sh.read = s0.sh.read := by
    induction hw with
    | refl => rfl
    | @step s s' i ord go hw ho hn hcl hks ih =>
      obtain ⟨h', hx'⟩ := hw.exec hx
      obtain ⟨g, I, _⟩ := exec_inv hx'
      have hO := I.ops i
      rcases next_read I hn with h | ⟨rm, hc, h⟩ | ⟨nx, hc, h⟩ | ⟨hc, h⟩
      · exact h.trans ih
      · simp only [OpOk, hc] at hO
        obtain ⟨⟨k, h1, h2, h3, h4, h5⟩, _⟩ := hO
        rw [ih] at h5
        exact absurd (hks k ⟨h1, h2⟩) (aget_eq_none.1 h5)
      · simp only [OpOk, hc] at hO
        rw [ih, ha] at hO
        exact absurd hO.1 (by simp)
      · simp only [OpOk, hc] at hO
        exact absurd hO hcl
  refine ⟨key, ?_⟩
  rintro k p ⟨e, he | ⟨d, hd, he⟩, _⟩
  · exact ⟨_, e, Or.inl (by rw [key]; exact he), rfl⟩
  · obtain ⟨g, I, _⟩ := exec_inv hx
    have := I.str.core.sub ha d hd k e (aget_of_mem (I.str.core.dwf d hd) he)
    exact ⟨_, e, Or.inl (by rw [key]; exact (mem_iff_aget I.str.core.rwf).2 this), rfl⟩

/-- **C149**, keys: Clear returns without effect only when nothing is kept; otherwise its step that clears the maps, with `mu` held, leaves nothing. -/
theorem rwmap_clear_forgets (hx : Exec eqv prog h s) (hn : next eqv prog ord go s i = some s') (hc : prog i = .clear)
    (hz : s.pc i = .start ∧ s'.pc i = .fin .unit ∨ s.pc i = .crit ∧ s'.pc i = .zero ∨ s.pc i = .wipe) (p : Ptr) : ¬ Kept s'.sh k p := by
  have emp : ∀ h : Sh K, h.read.m = [] → h.dl = [] → ¬ Kept h k p := by
    rintro h h1 h2 ⟨e, he | ⟨d, hd, he⟩, _⟩
    · rw [h1] at he; cases he
    · rw [Sh.dl, hd] at h2; simp only [Option.getD_some] at h2; rw [h2] at he; cases he
  obtain ⟨g, I, _⟩ := exec_inv hx
  have dmap : ∀ o : Option (List (K × Nat)), (o.map fun _ => ([] : List (K × Nat))).getD [] = [] := by intro o; cases o <;> rfl
  rcases hz with ⟨h1, h2⟩ | ⟨h1, h2⟩ | h1
  · simp only [next, h1, Option.some.injEq] at hn
    subst hn
    simp only [State.goto, if_true, hc, startStep] at h2
    split at h2
    · next he =>
      refine emp _ he.1 ?_
      cases hd : s.sh.dirty with
      | none => simp [State.goto, Sh.dl, hd]
      | some d =>
        have := I.str.core.sub he.2 d hd
        simp only [State.goto, Sh.dl, hd, Option.getD_some]
        cases d with
        | nil => rfl
        | cons x d => have := this x.1 x.2 (by simp [aget]); rw [he.1] at this; cases this
    · cases h2
  · simp only [next, h1, Option.some.injEq] at hn
    subst hn
    simp only [hc, critStep] at h2 ⊢
    split at h2
    · simp [State.goto] at h2
    · next he =>
      simp only [not_or, Decidable.not_not] at he
      rw [if_neg (by simp [he.1, he.2])]
      exact emp _ he.1 (by simp [State.goto, Sh.dl, dmap])
  · simp only [next, h1, Option.some.injEq] at hn
    subst hn
    exact emp _ rfl (by simp [State.goto, Sh.dl, dmap])

/-! ## Examples -/

instance (op : Op K V) : Decidable (op.puts k) := inferInstanceAs (Decidable (_ ∧ _))

/-- How often `dirty` becomes `read` in a run. -/
def promos (eqv : V → V → Option Bool) (prog : Nat → Op K V) (go : Bool) : List Nat → State K V → Nat → Nat
  | [], _, n => n
  | i :: is, s, n => match next eqv prog id go s i with
    | some s' => promos eqv prog go is s' (match s.pc i with | .promo _ => n + 1 | _ => n)
    | none => n

theorem sched_without {go : Bool} {is : List Nat} : ∀ {s : State K V} {n h}, Without eqv prog k s0 n s → (∀ i ∈ is, ¬ (prog i).puts k) →
    ∀ {s' h'}, sched eqv prog go is s h = some (s', h') → Without eqv prog k s0 (promos eqv prog go is s n) s' := by
  induction is with
  | nil => intro s n h hw _ s' h' he; simp only [sched, Option.some.injEq, Prod.mk.injEq] at he; obtain ⟨rfl, rfl⟩ := he; exact hw
  | cons i is ih =>
    intro s n h hw hp s' h' he
    simp only [sched, promos] at he ⊢
    cases hn : next eqv prog id go s i with
    | none => rw [hn] at he; cases he
    | some s1 =>
      rw [hn] at he
      exact ih (hw.step (fun _ => List.Perm.refl _) hn (hp i (by simp))) (fun j hj => hp j (by simp [hj])) he

theorem sched_within {go : Bool} {is : List Nat} {ks : List K} : ∀ {s : State K V} {h}, Within eqv prog ks s0 s →
    (∀ i ∈ is, prog i ≠ .clear ∧ ∀ k, (prog i).puts k → k ∈ ks) →
    ∀ {s' h'}, sched eqv prog go is s h = some (s', h') → Within eqv prog ks s0 s' := by
  induction is with
  | nil => intro s h hw _ s' h' he; simp only [sched, Option.some.injEq, Prod.mk.injEq] at he; obtain ⟨rfl, rfl⟩ := he; exact hw
  | cons i is ih =>
    intro s h hw hp s' h' he
    simp only [sched] at he
    cases hn : next eqv prog id go s i with
    | none => rw [hn] at he; cases he
    | some s1 =>
      rw [hn] at he
      exact ih (hw.step (fun _ => List.Perm.refl _) hn (hp i (by simp)).1 (hp i (by simp)).2) (fun j hj => hp j (by simp [hj])) he

/-- Store 7, Range, Store 8, Delete 7, Range, Store 9, Range, and another Store 8. -/
def retProg : Nat → Op Nat Nat
  | 0 => .swap 7 1
  | 2 => .swap 8 2
  | 3 => .loadAndDelete 7
  | 5 => .swap 9 3
  | 7 => .swap 8 4
  | _ => .range

abbrev retEqv : Nat → Nat → Option Bool := fun a b => some (a == b)

/-- The calls up to Delete 7, one after the other. -/
def retSched : List Nat := rep 10 0 ++ rep 9 1 ++ rep 11 2 ++ rep 6 3

/-- The state after a schedule. -/
def retRun (s : State Nat Nat) (is : List Nat) : State Nat Nat := ((sched retEqv retProg true is s []).getD (s, [])).1

theorem retRun_sched {s : State Nat Nat} {is : List Nat} (hs : (sched retEqv retProg true is s []).isSome) :
    ∃ h, sched retEqv retProg true is s [] = some (retRun s is, h) := by
  unfold retRun
  cases h : sched retEqv retProg true is s [] with
  | none => rw [h] at hs; cases hs
  | some x => exact ⟨x.2, rfl⟩

/-- After Delete 7. -/
def ret0 : State Nat Nat := retRun .init retSched

theorem ret0_exec : ∃ h, Exec retEqv retProg h ret0 := by
  obtain ⟨h, he⟩ := retRun_sched (s := .init) (is := retSched) (by decide +kernel)
  exact ⟨h, sched_exec .init he⟩

theorem kept_mem {h : Sh K} {p : Ptr} : Kept h k p ↔ ∃ x ∈ h.read.m ++ h.dl, x.1 = k ∧ h.ent x.2 = p := by
  constructor
  · rintro ⟨e, he | ⟨d, hd, he⟩, hp⟩
    · exact ⟨(k, e), List.mem_append_left _ he, rfl, hp⟩
    · exact ⟨(k, e), List.mem_append_right _ (by rw [Sh.dl, hd]; exact he), rfl, hp⟩
  · rintro ⟨⟨k', e⟩, he, rfl, hp⟩
    rcases List.mem_append.1 he with he | he
    · exact ⟨e, Or.inl he, hp⟩
    · cases hd : h.dirty with
      | none => rw [Sh.dl, hd] at he; cases he
      | some d => rw [Sh.dl, hd] at he; exact ⟨e, Or.inr ⟨d, hd, he⟩, hp⟩

theorem absent_mem {h : Sh K} (ha : ∀ x ∈ h.read.m ++ h.dl, x.1 = k → h.ent x.2 = .nil ∨ h.ent x.2 = .exp) : Absent h k := by
  intro b hk
  obtain ⟨x, hx, h1, h2⟩ := kept_mem.1 hk
  rcases ha x hx h1 with h | h <;> rw [h2] at h <;> cases h

instance {h : Sh K} {p : Ptr} : Decidable (Kept h k p) := decidable_of_iff _ kept_mem.symm

theorem ret_absent : Absent ret0.sh 7 := absent_mem (by decide +kernel)

/-- **C149**, refuted: removed keys are not forgotten; 7 is not in the map, and there is an entry for it. -/
theorem rwmap_forgets_removed_false :
    ¬ ∀ (h : List (Ev Nat Nat)) (s : State Nat Nat), Exec retEqv retProg h s → Absent s.sh 7 → ∀ p, ¬ Kept s.sh 7 p := by
  intro hall
  obtain ⟨h, hx⟩ := ret0_exec
  exact hall h _ hx ret_absent .nil (by decide +kernel)

/-- Range, Store 9, Range: after the first time the key is still there; after the second time it is not, but 8 is. -/
example : ∃ s1 s2, Without retEqv retProg 7 ret0 1 s1 ∧ Kept s1.sh 7 .nil ∧ Without retEqv retProg 7 ret0 2 s2 ∧ (∀ p, ¬ Kept s2.sh 7 p) ∧
    Kept s2.sh 8 (.val 2) := by
  obtain ⟨h, hx⟩ := ret0_exec
  obtain ⟨_, h1⟩ := retRun_sched (s := ret0) (is := rep 10 4) (by decide +kernel)
  obtain ⟨_, h2⟩ := retRun_sched (s := ret0) (is := rep 10 4 ++ rep 13 5 ++ rep 10 6) (by decide +kernel)
  have w1 := sched_without (k := 7) .refl (by decide +kernel) h1
  have w2 := sched_without (k := 7) .refl (by decide +kernel) h2
  rw [show promos retEqv retProg true (rep 10 4) ret0 0 = 1 by decide +kernel] at w1
  rw [show promos retEqv retProg true (rep 10 4 ++ rep 13 5 ++ rep 10 6) ret0 0 = 2 by decide +kernel] at w2
  exact ⟨_, _, w1, by decide +kernel, w2, rwmap_forgets hx ret_absent w2 (by omega), by decide +kernel⟩

/-- Range, Store 8: nothing changes in `read`, and 7 stays. -/
example : (retRun (retRun ret0 (rep 10 4)) (rep 5 7)).sh.read = (retRun ret0 (rep 10 4)).sh.read ∧ ∃ p, Kept (retRun (retRun ret0 (rep 10 4)) (rep 5 7)).sh 7 p := by
  obtain ⟨h, hx⟩ := ret0_exec
  obtain ⟨_, h1⟩ := retRun_sched (s := ret0) (is := rep 10 4) (by decide +kernel)
  obtain ⟨_, h2⟩ := retRun_sched (s := retRun ret0 (rep 10 4)) (is := rep 5 7) (by decide +kernel)
  obtain ⟨h', hx'⟩ := (sched_without (k := 7) .refl (by decide +kernel) h1).exec hx
  have hk : (retRun ret0 (rep 10 4)).sh.read.m.map Prod.fst = [7, 8] := by decide +kernel
  have w := sched_within (ks := [7, 8]) .refl (by
    intro i hi
    obtain rfl := List.eq_of_mem_replicate hi
    exact ⟨by simp [retProg], fun k hk => by cases hk.2; simp⟩) h2
  rw [← hk] at w
  have := rwmap_keeps_keys hx' (by decide +kernel) w
  exact ⟨this.1, this.2 7 .nil (by decide +kernel)⟩

/-- Only 8 has a value. -/
example : Kept ret0.sh 8 (.val 2) ∧ ¬ Kept ret0.sh 7 (.val 0) := by decide +kernel

/-- Clear, called after a Store. -/
def retClear : Nat → Op Nat Nat
  | 0 => .swap 7 1
  | _ => .clear

example : ∃ h s s', Exec retEqv retClear h s ∧ s.pc 1 = .wipe ∧ Kept s.sh 7 (.val 0) ∧ next retEqv retClear id true s 1 = some s' ∧ ∀ k p, ¬ Kept s'.sh k p := by
  have hs : (sched retEqv retClear true (rep 10 0 ++ rep 4 1) .init []).isSome := by decide +kernel
  obtain ⟨⟨s, h⟩, he⟩ := Option.isSome_iff_exists.1 hs
  have hx := sched_exec .init he
  have hs' : s = ((sched retEqv retClear true (rep 10 0 ++ rep 4 1) .init []).getD (.init, [])).1 := by rw [he]; rfl
  have hp : s.pc 1 = .wipe := by rw [hs']; rfl
  obtain ⟨s', hn⟩ : ∃ s', next retEqv retClear id true s 1 = some s' := ⟨_, by simp only [next, hp]; rfl⟩
  exact ⟨h, s, s', hx, hp, by rw [hs']; decide +kernel, hn, fun k p => rwmap_clear_forgets hx hn rfl (Or.inr (Or.inr hp)) p⟩

end Verif.RWMap
