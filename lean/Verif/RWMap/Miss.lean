import Verif.RWMap.Fast
/-!
# What locking and copying cost (C103, C104)
-/
namespace Verif.RWMap
variable {K V : Type} [DecidableEq K] [Inhabited V]
variable {eqv : V → V → Option Bool} {prog : Nat → Op K V}
variable {h : List (Ev K V)} {s s' : State K V} {g : Ghost K V} {i j : Nat} {ord : List (K × Nat) → List (K × Nat)} {go : Bool} {k : K}

/-- What has been done so far: how often the mutex was locked, how many entries `dirtyLocked` went over (rwmap.go:558-563), and how many entries
the maps had that a Range promoted (rwmap.go:488-492). -/
structure Cost where
  locks : Nat := 0
  copied : Nat := 0
  ranged : Nat := 0

/-- The cost of a step of call `i`. -/
def Cost.add (c : Cost) (s : State K V) (i : Nat) : Cost :=
  match s.pc i with
  | .acq => { c with locks := c.locks + 1 }
  | .copy0 _ => if s.sh.dirty.isSome then c else { c with copied := c.copied + s.sh.read.m.length }
  | .promo (.rng m) => { c with ranged := c.ranged + m.length }
  | _ => c

/-- The executions from `s0`, with what they cost. -/
inductive Costs (eqv : V → V → Option Bool) (prog : Nat → Op K V) (s0 : State K V) : List (Ev K V) → Cost → State K V → Prop
  | refl : Costs eqv prog s0 [] {} s0
  | step {h c s i ord go s'} : Costs eqv prog s0 h c s → (∀ l, (ord l).Perm l) → next eqv prog ord go s i = some s' →
      Costs eqv prog s0 (h ++ event prog s i) (c.add s i) s'

theorem Costs.exec {s0 : State K V} {h0 : List (Ev K V)} {c : Cost} (hx : Exec eqv prog h0 s0) (hc : Costs eqv prog s0 h c s) :
    Exec eqv prog (h0 ++ h) s := by
  induction hc with
  | refl => simpa using hx
  | step _ hord hn ih => rw [← List.append_assoc]; exact ih.step ⟨_, _, _, hord, hn, rfl⟩

/-! ## The number of misses -/

/-- Where the holder of the mutex is. -/
def holderPc (s : State K V) : PC K V :=
  match s.sh.mu with
  | some i => s.pc i
  | none => .idle

/-- The holder of the mutex may yet count a miss, or promotes for a Range. -/
def PC.toMiss : PC K V → Nat
  | .crit | .ent _ .lm | .cas _ .lm _ | .promo (.rng _) => 1
  | _ => 0

/-- `dirty`, as a list. -/
def Sh.dl (h : Sh K) : List (K × Nat) := h.dirty.getD []

/-- What copying `read` would cost. -/
def Sh.pot (h : Sh K) : Nat := if h.dirty.isSome then 0 else h.read.m.length

/-- The invariant on the number of misses; `c` is where the holder of the mutex is. -/
structure MI (h : Sh K) (c : PC K V) : Prop where
  zero : h.read.amended = false → h.misses = 0
  lt : h.read.amended = true → (∃ nx, c = .promo nx) ∨ h.misses < max 1 h.dl.length
  promo : ∀ nx, c = .promo nx → (∀ m, nx ≠ .rng m) → h.dl.length ≤ h.misses
  rng : ∀ m, c = .promo (.rng m) → h.dl = m
  am : h.read.amended = true → h.dirty.isSome = true

theorem MI.of {h h' : Sh K} {c c' : PC K V} (H : MI h c) (h1 : h'.read = h.read) (h2 : h'.dirty = h.dirty) (h3 : h'.misses = h.misses)
    (hc : ∀ nx, c ≠ .promo nx) (hc' : ∀ nx, c' ≠ .promo nx) : MI h' c' := by
  refine ⟨by rw [h1, h3]; exact H.zero, fun ha => ?_, fun nx h => absurd h (hc' _), fun m h => absurd h (hc' _), by rw [h1, h2]; exact H.am⟩
  rw [h1] at ha
  rcases H.lt ha with ⟨nx, h⟩ | h
  · exact absurd h (hc _)
  · right; unfold Sh.dl at h ⊢; rw [h2, h3]; exact h

theorem miss_mi {h : Sh K} (ha : h.read.amended = true) (hd : h.dirty.isSome = true) (nx : Nx K V) (hnx : ∀ m, nx ≠ .rng m) :
    MI (missLocked h nx).1 (missLocked h nx).2 := by
  unfold missLocked
  simp only
  split
  · next hlt =>
    exact ⟨fun h => (by rw [ha] at h; cases h), fun _ => Or.inr (Nat.lt_of_lt_of_le hlt (Nat.le_max_right _ _)), fun _ h => (by cases h),
      fun _ h => (by cases h), fun _ => hd⟩
  · next hlt =>
    refine ⟨fun h => (by rw [ha] at h; cases h), fun _ => Or.inl ⟨_, rfl⟩, fun _ h _ => Nat.le_of_not_lt hlt, fun m h => ?_, fun _ => hd⟩
    cases h; exact absurd rfl (hnx m)

theorem miss_val (h : Sh K) (nx : Nx K V) (hnx : ∀ m, nx ≠ .rng m) :
    (missLocked h nx).1.pot + (missLocked h nx).1.misses + (missLocked h nx).2.toMiss = h.pot + h.misses + 1 := by
  unfold missLocked
  simp only
  split
  · rfl
  · cases nx <;> first | rfl | exact absurd rfl (hnx _)

theorem pot_adel (h : Sh K) (k : K) : Sh.pot { h with dirty := h.dirty.map (adel · k) } = h.pot := by
  unfold Sh.pot; cases h.dirty <;> rfl

theorem finish_toMiss (op : Op K V) (r : Res K V) : (finish op r).toMiss = 0 := by
  unfold finish; split <;> rfl

theorem finish_promo (op : Op K V) (r : Res K V) (nx : Nx K V) : finish op r ≠ .promo nx := by
  unfold finish; split <;> simp

theorem after_val (h : Sh K) (op : Op K V) (lk : Lk) (r : Res K V) :
    (after h op lk r).1.pot + (after h op lk r).1.misses + (after h op lk r).2.toMiss = h.pot + h.misses + (if lk = .lm then 1 else 0) := by
  cases lk
  · simp only [after, finish_toMiss]; rfl
  · rfl
  · simp only [after, miss_val h (.res r) (by simp)]; rfl

theorem aput_length (d : List (K × Nat)) (k : K) (e : Nat) : d.length ≤ (aput d k e).length ∧ 0 < (aput d k e).length := by
  induction d with
  | nil => simp [aput]
  | cons x d ih => simp only [aput]; split <;> simp [ih.1]

/-- `dirty` grows. -/
theorem MI.grow {h h' : Sh K} {c c' : PC K V} {d : List (K × Nat)} (H : MI h c) (h1 : h'.read = h.read) (hd : h.dirty = some d)
    (h2 : h'.dirty = some (aput d k n)) (h3 : h'.misses = h.misses) (hc : ∀ nx, c ≠ .promo nx) (hc' : ∀ nx, c' ≠ .promo nx) : MI h' c' := by
  refine ⟨by rw [h1, h3]; exact H.zero, fun ha => ?_, fun nx h => absurd h (hc' _), fun m h => absurd h (hc' _), fun _ => by rw [h2]; rfl⟩
  rw [h1] at ha
  rcases H.lt ha with ⟨nx, h⟩ | h
  · exact absurd h (hc _)
  · right
    have := (aput_length d k n).1
    unfold Sh.dl at h ⊢
    rw [h2, h3]
    rw [hd] at h
    simp only [Option.getD_some] at h ⊢
    omega

theorem after_mi {h : Sh K} (H : MI (V := V) h .crit) (op : Op K V) {lk : Lk} (hlm : lk = .lm → h.read.amended = true) (r : Res K V) :
    MI (after h op lk r).1 (after h op lk r).2 := by
  cases lk
  · exact H.of rfl rfl rfl (by simp) (finish_promo _ _)
  · exact H.of rfl rfl rfl (by simp) (by simp [after])
  · exact miss_mi (hlm rfl) (H.am (hlm rfl)) _ (by simp)

theorem MI.crit {h : Sh K} {c : PC K V} (H : MI h c) (hc : ∀ nx, c ≠ .promo nx) : MI (V := V) h .crit := H.of rfl rfl rfl hc (by simp)

theorem putNew_mi {h : Sh K} (H : MI (V := V) h .crit) (r : Res K V) : MI (putNew h i k r).1 (putNew h i k r).2 := by
  unfold putNew
  split
  · exact H.of rfl rfl rfl (by simp) (by simp)
  · next d hd => exact H.grow rfl hd rfl rfl (by simp) (by simp)

theorem putNew_val (h : Sh K) (r : Res K V) : (putNew h i k r).1.pot + (putNew h i k r).1.misses + (putNew h i k r).2.toMiss = h.pot + h.misses := by
  unfold putNew
  split
  · rfl
  · next d hd => simp [Sh.pot, hd, PC.toMiss]

theorem crit_mi {h : Sh K} (H : MI (V := V) h .crit) (op : Op K V) : MI (critStep h i op).1 (critStep h i op).2 := by
  cases op with
  | clear =>
    simp only [critStep]
    split
    · exact H.of rfl rfl rfl (by simp) (by simp)
    · next hn =>
      refine ⟨fun _ => rfl, fun h => absurd (Or.inr h) hn, fun _ h => (by cases h), fun _ h => (by cases h), fun h => absurd (Or.inr h) hn⟩
  | range =>
    simp only [critStep]
    split
    · next ha => exact ⟨H.zero, fun _ => Or.inl ⟨_, rfl⟩, fun _ h h' => (by cases h; exact absurd rfl (h' _)), fun _ h => (by cases h; rfl), H.am⟩
    · exact H.of rfl rfl rfl (by simp) (by simp)
  | loadAndDelete k =>
    simp only [critStep]
    (repeat' split) <;> first
      | exact H.of rfl rfl rfl (by simp) nofun
      | exact miss_mi (h := { h with dirty := h.dirty.map (adel · _) }) (by assumption) (by simpa using H.am (by assumption)) _ (by simp)
  | _ =>
    simp only [critStep]
    (repeat' split) <;> first
      | exact H.of rfl rfl rfl (by simp) nofun
      | exact putNew_mi H _
      | exact miss_mi (by assumption) (H.am (by assumption)) _ (by simp)

theorem crit_val (h : Sh K) (i : Nat) (op : Op K V) :
    (critStep h i op).1.pot + (critStep h i op).1.misses + (critStep h i op).2.toMiss ≤ h.pot + h.misses + 1 := by
  cases op with
  | clear =>
    simp only [critStep]
    split
    · simp only [PC.toMiss]; omega
    · simp only [PC.toMiss, Sh.pot, Option.isSome_map]; omega
  | _ =>
    simp only [critStep]
    (repeat' split) <;> first
      | (simp only [PC.toMiss]; omega)
      | (rw [putNew_val]; omega)
      | (rw [miss_val _ _ (by simp)]; first | omega | (simp only [pot_adel]; omega))

theorem ent_mi {h : Sh K} (H : MI (V := V) h .crit) (op : Op K V) (e : Nat) {lk : Lk} (hlm : lk = .lm → h.read.amended = true) :
    MI (entStep eqv prog h op e lk).1 (entStep eqv prog h op e lk).2 := by
  have hr : lk.raise = .lm → h.read.amended = true := by cases lk <;> simp [Lk.raise]
  simp only [entStep]
  (repeat' split) <;> first
    | exact after_mi H _ hlm _
    | exact after_mi H _ hr _
    | exact H.of rfl rfl rfl (by simp) nofun

theorem ent_val (h : Sh K) (op : Op K V) (e : Nat) (lk : Lk) :
    (entStep eqv prog h op e lk).1.pot + (entStep eqv prog h op e lk).1.misses + (entStep eqv prog h op e lk).2.toMiss ≤
      h.pot + h.misses + (PC.ent (K := K) (V := V) e lk).toMiss := by
  have he : (PC.ent (K := K) (V := V) e lk).toMiss = if lk = .lm then 1 else 0 := by cases lk <;> rfl
  have hc : ∀ p, (PC.cas (K := K) (V := V) e lk p).toMiss = if lk = .lm then 1 else 0 := by intro p; cases lk <;> rfl
  have ha := fun (op : Op K V) r => after_val h op lk r
  have hr : ∀ (op : Op K V) r, (after h op lk.raise r).1.pot + (after h op lk.raise r).1.misses + (after h op lk.raise r).2.toMiss ≤
      h.pot + h.misses + if lk = .lm then 1 else 0 := by
    intro op r; rw [after_val]; cases lk <;> simp [Lk.raise]
  rw [he]
  generalize (if lk = Lk.lm then 1 else 0) = b at *
  simp only [entStep]
  (repeat' split) <;> first
    | exact Nat.le_of_eq (ha _ _)
    | exact hr _ _
    | (simp only [hc]; exact Nat.le_refl _)
    | exact Nat.le_add_right _ _

theorem cas_mi {h : Sh K} (H : MI (V := V) h .crit) (op : Op K V) (e : Nat) (p : Ptr) {lk : Lk} (hlm : lk = .lm → h.read.amended = true) :
    MI (casStep prog h i op e lk p).1 (casStep prog h i op e lk p).2 := by
  have hset : ∀ q, MI (V := V) (h.setEnt e q) .crit := fun q => H.of rfl rfl rfl (by simp) (by simp)
  simp only [casStep]
  (repeat' split) <;> first
    | exact after_mi (hset _) _ hlm _
    | exact H.of rfl rfl rfl (by simp) nofun

theorem cas_val (h : Sh K) (op : Op K V) (e : Nat) (lk : Lk) (p : Ptr) :
    (casStep prog h i op e lk p).1.pot + (casStep prog h i op e lk p).1.misses + (casStep prog h i op e lk p).2.toMiss ≤
      h.pot + h.misses + (PC.cas (K := K) (V := V) e lk p).toMiss := by
  have he : (PC.ent (K := K) (V := V) e lk).toMiss = if lk = .lm then 1 else 0 := by cases lk <;> rfl
  have hc : (PC.cas (K := K) (V := V) e lk p).toMiss = if lk = .lm then 1 else 0 := by cases lk <;> rfl
  have ha := fun q (op : Op K V) r => after_val (h.setEnt e q) op lk r
  rw [hc]
  generalize (if lk = Lk.lm then 1 else 0) = b at *
  simp only [casStep]
  (repeat' split) <;> first
    | exact Nat.le_of_eq (ha _ _ _)
    | (simp only [he]; exact Nat.le_refl _)
    | exact Nat.le_add_right _ _

theorem unexp_mi {h : Sh K} (H : MI (V := V) h .crit) (op : Op K V) (e : Nat) : MI (unexpStep h op e).1 (unexpStep h op e).2 := by
  simp only [unexpStep]
  (repeat' split) <;> first
    | exact H.of rfl rfl rfl (by simp) nofun
    | exact H.grow rfl (by assumption) rfl rfl (by simp) nofun

theorem unexp_val (h : Sh K) (op : Op K V) (e : Nat) :
    (unexpStep h op e).1.pot + (unexpStep h op e).1.misses + (unexpStep h op e).2.toMiss ≤ h.pot + h.misses := by
  simp only [unexpStep]
  (repeat' split) <;> first
    | exact Nat.le_refl _
    | (simp only [Sh.pot, PC.toMiss, Option.isSome_some, if_true]; omega)
    | (simp [Sh.pot, PC.toMiss, Sh.setEnt])

/-- What is counted. -/
def State.val (s : State K V) : Nat := s.sh.pot + s.sh.misses + (holderPc s).toMiss

/-- A step of the holder of the mutex. -/
theorem holder_next (I : Inv eqv prog s g) (hn : next eqv prog ord go s i = some s') (hl : (s.pc i).locked = true)
    (H : MI s.sh (s.pc i)) (c : Cost) : MI s'.sh (s'.pc i) ∧
    ((c.add s i).copied + (s'.sh.pot + s'.sh.misses + (s'.pc i).toMiss) + (c.locks + c.ranged) ≤
      c.copied + (s.sh.pot + s.sh.misses + (s.pc i).toMiss) + ((c.add s i).locks + (c.add s i).ranged)) := by
  have hO := I.ops i
  simp only [next] at hn
  unfold Cost.add
  cases hc : s.pc i with
  | crit =>
    rw [hc] at H
    simp only [hc, Option.some.injEq] at hn; subst hn
    simp only [goto_sh, goto_pc_self]
    have := crit_val s.sh i (prog i)
    refine ⟨crit_mi H _, ?_⟩
    simp only [PC.toMiss] at this ⊢
    omega
  | ent e lk =>
    rw [hc] at H
    simp only [hc, Option.some.injEq] at hn; subst hn
    simp only [OpOk, hc] at hO
    obtain ⟨k, hE⟩ := hO
    simp only [goto_sh, goto_pc_self]
    have := ent_val (eqv := eqv) (prog := prog) s.sh (prog i) e lk
    exact ⟨ent_mi (H.crit (by simp)) _ _ hE.lm, by omega⟩
  | cas e lk p =>
    rw [hc] at H
    simp only [hc, Option.some.injEq] at hn; subst hn
    simp only [OpOk, hc] at hO
    obtain ⟨⟨k, hE⟩, _⟩ := hO
    simp only [goto_sh, goto_pc_self]
    have := cas_val (prog := prog) (i := i) s.sh (prog i) e lk p
    exact ⟨cas_mi (H.crit (by simp)) _ _ _ hE.lm, by omega⟩
  | unexp e =>
    rw [hc] at H
    simp only [hc, Option.some.injEq] at hn; subst hn
    simp only [goto_sh, goto_pc_self]
    have := unexp_val (V := V) s.sh (prog i) e
    exact ⟨unexp_mi (H.crit (by simp)) _ _, by rw [show (PC.unexp (K := K) (V := V) e).toMiss = 0 from rfl]; omega⟩
  | swp e =>
    rw [hc] at H
    simp only [OpOk, hc] at hO
    simp only [hc, Option.some.injEq] at hn; subst hn
    simp only [goto_sh, goto_pc_self, swpStep]
    split
    · exact absurd (by assumption) hO.1
    · exact ⟨H.of rfl rfl rfl (by simp) nofun, by simp only [PC.toMiss]; exact Nat.le_refl _⟩
  | copy0 rm =>
    rw [hc] at H
    simp only [OpOk, hc] at hO
    obtain ⟨k, _, _, _, ha, _⟩ := hO
    simp only [hc] at hn
    by_cases hd : s.sh.dirty.isSome = true
    · simp only [hd, if_true, Option.some.injEq] at hn ⊢; subst hn
      simp only [goto_sh, goto_pc_self]
      exact ⟨H.of rfl rfl rfl (by simp) nofun, Nat.le_refl _⟩
    · simp only [if_neg hd, Option.some.injEq] at hn ⊢; subst hn
      simp only [goto_sh, goto_pc_self]
      refine ⟨⟨H.zero, fun h => ?_, fun _ h => (by cases h), fun _ h => (by cases h), fun _ => rfl⟩, ?_⟩
      · rw [ha] at h; cases h
      · simp only [Sh.pot, if_neg hd, PC.toMiss, Option.isSome_some, if_true]; omega
  | copy es rm =>
    rw [hc] at H
    simp only [OpOk, hc] at hO
    obtain ⟨_, hd, _⟩ := hO
    cases es with
    | nil =>
      simp only [hc, Option.some.injEq] at hn; subst hn
      exact ⟨H.of rfl rfl rfl (by simp) (by simp), by simp only [goto_sh, goto_pc_self]; exact Nat.le_refl _⟩
    | cons x es =>
      simp only [hc] at hn
      split at hn <;> simp only [Option.some.injEq] at hn <;> subst hn <;> simp only [goto_sh, goto_pc_self]
      · exact ⟨H.of rfl rfl rfl (by simp) (by simp), Nat.le_refl _⟩
      · exact ⟨H.of rfl rfl rfl (by simp) (by simp), Nat.le_refl _⟩
      · cases hdd : s.sh.dirty with
        | none => exact absurd hdd hd
        | some d =>
          refine ⟨H.grow (h' := dirtyPut s.sh x.1 x.2) (k := x.1) (n := x.2) rfl hdd (by simp only [dirtyPut, hdd, Option.map_some]) rfl (by simp) (by simp), ?_⟩
          simp only [Sh.pot, dirtyPut, hdd, Option.map_some, Option.isSome_some, if_true, PC.toMiss]
          omega
  | expunge es rm =>
    rw [hc] at H
    cases es with
    | nil => simp only [hc] at hn; cases hn
    | cons x es =>
      simp only [hc] at hn
      split at hn <;> simp only [Option.some.injEq] at hn <;> subst hn <;> simp only [goto_sh, goto_pc_self]
      · exact ⟨H.of rfl rfl rfl (by simp) (by simp), Nat.le_refl _⟩
      · exact ⟨H.of rfl rfl rfl (by simp) (by simp), Nat.le_refl _⟩
  | amend rm =>
    rw [hc] at H
    simp only [OpOk, hc] at hO
    obtain ⟨⟨k, _, hk, hrm, ha, _⟩, hd⟩ := hO
    simp only [hc, hk, Option.some.injEq] at hn; subst hn
    simp only [goto_sh, goto_pc_self, putNew]
    have hz := H.zero ha
    cases hdd : s.sh.dirty with
    | none => exact absurd hdd hd
    | some d =>
      simp only
      refine ⟨⟨fun h => (by cases h), fun _ => Or.inr ?_, fun _ h => (by cases h), fun _ h => (by cases h), fun _ => rfl⟩, ?_⟩
      · simp only [hz]; omega
      · simp only [Sh.pot, hdd, Option.isSome_some, if_true, PC.toMiss]; omega
  | promo nx =>
    rw [hc] at H
    simp only [hc, Option.some.injEq] at hn; subst hn
    simp only [goto_sh, goto_pc_self]
    refine ⟨⟨fun _ => rfl, fun h => (by cases h), fun _ h => (by cases h), fun _ h => (by cases h), fun h => (by cases h)⟩, ?_⟩
    have hpot : ∀ h : Sh K, h.dirty = none → h.pot = h.read.m.length := by intro h hh; simp [Sh.pot, hh]
    rw [hpot _ rfl]
    cases nx with
    | rng m =>
      have := H.rng m rfl
      simp only [Sh.dl] at this
      simp only [this, PC.toMiss]; omega
    | ent e =>
      have := H.promo _ rfl (by simp)
      simp only [Sh.dl] at this
      simp only [PC.toMiss]; omega
    | res r =>
      have := H.promo _ rfl (by simp)
      simp only [Sh.dl] at this
      simp only [PC.toMiss]; omega
  | wipe =>
    simp only [hc, Option.some.injEq] at hn; subst hn
    simp only [goto_sh, goto_pc_self]
    refine ⟨⟨fun _ => rfl, fun h => (by cases h), fun _ h => (by cases h), fun _ h => (by cases h), fun h => (by cases h)⟩, ?_⟩
    simp only [Sh.pot, List.length_nil, ite_self, PC.toMiss]; omega
  | zero =>
    rw [hc] at H
    simp only [hc, Option.some.injEq] at hn; subst hn
    simp only [goto_sh, goto_pc_self]
    exact ⟨H.of rfl rfl rfl (by simp) (by simp), Nat.le_refl _⟩
  | unl nx =>
    rw [hc] at H
    cases nx <;> simp only [hc, Option.some.injEq] at hn <;> subst hn <;> simp only [goto_sh, goto_pc_self]
    · exact ⟨H.of rfl rfl rfl (by simp) (by simp), Nat.le_refl _⟩
    · exact ⟨H.of rfl rfl rfl (by simp) (by simp), Nat.le_refl _⟩
    · refine ⟨H.of rfl rfl rfl (by simp) (finish_promo _ _), ?_⟩
      rw [finish_toMiss]; exact Nat.le_refl _
  | _ => rw [hc] at hl; cases hl

/-- A step of a call without the mutex. -/
theorem other_next (I : Inv eqv prog s g) (hn : next eqv prog ord go s i = some s') (hl : (s.pc i).locked = false) :
    s'.sh.read = s.sh.read ∧ s'.sh.dirty = s.sh.dirty ∧ s'.sh.misses = s.sh.misses ∧
    ((s.sh.mu = none ∧ s.pc i = .acq ∧ s'.sh.mu = some i ∧ s'.pc i = .crit) ∨ (s.pc i ≠ .acq ∧ s'.sh.mu = s.sh.mu)) := by
  have hO := I.ops i
  simp only [next] at hn
  cases hc : s.pc i with
  | ent e lk =>
    simp only [hc, Option.some.injEq] at hn; subst hn
    have hlk : lk = .u := by cases lk <;> first | rfl | (rw [hc] at hl; cases hl)
    subst hlk
    simp only [goto_sh, entStep]
    (repeat' split) <;> simp [after, Lk.raise]
  | cas e lk p =>
    simp only [hc, Option.some.injEq] at hn; subst hn
    have hlk : lk = .u := by cases lk <;> first | rfl | (rw [hc] at hl; cases hl)
    subst hlk
    simp only [goto_sh, casStep]
    (repeat' split) <;> simp [after, Sh.setEnt]
  | acq =>
    simp only [hc] at hn
    split at hn <;> simp only [Option.some.injEq, reduceCtorEq] at hn
    next hm => subst hn; exact ⟨rfl, rfl, rfl, Or.inl ⟨hm, rfl, rfl, by simp⟩⟩
  | rng es acc =>
    cases es with
    | nil => simp only [hc, Option.some.injEq] at hn; subst hn; simp
    | cons x es =>
      simp only [hc] at hn
      (repeat' split at hn) <;> simp only [Option.some.injEq] at hn <;> subst hn <;> simp
  | idle => simp only [hc, Option.some.injEq] at hn; subst hn; simp
  | start => simp only [hc, Option.some.injEq] at hn; subst hn; simp
  | add d r => simp only [hc, Option.some.injEq] at hn; subst hn; simp
  | fin r => simp only [hc, Option.some.injEq] at hn; subst hn; simp
  | done r => simp only [hc] at hn; cases hn
  | panic => simp only [hc] at hn; cases hn
  | _ => rw [hc] at hl; cases hl

theorem toMiss_locked {c : PC K V} (hl : c.locked = false) : c.toMiss = 0 ∧ ∀ nx, c ≠ .promo nx := by
  constructor
  · unfold PC.toMiss; split <;> first | rfl | cases hl
  · rintro nx rfl; cases hl

theorem step_mi (I : Inv eqv prog s g) (hord : ∀ l, (ord l).Perm l) (hn : next eqv prog ord go s i = some s') (H : MI s.sh (holderPc s))
    (c : Cost) (hc : c.copied + s.val ≤ c.locks + c.ranged) :
    MI s'.sh (holderPc s') ∧ (c.add s i).copied + s'.val ≤ (c.add s i).locks + (c.add s i).ranged := by
  obtain ⟨g', I', _⟩ := I.step ⟨i, ord, go, hord, hn, rfl⟩
  cases hl : (s.pc i).locked with
  | true =>
    have hmu := (I.str.mu i).1 hl
    have hh : holderPc s = s.pc i := by simp [holderPc, hmu]
    rw [hh] at H
    obtain ⟨h1, h2⟩ := holder_next I hn hl H c
    have hval : s.val = s.sh.pot + s.sh.misses + (s.pc i).toMiss := by rw [State.val, hh]
    cases hl' : (s'.pc i).locked with
    | true =>
      have hh' : holderPc s' = s'.pc i := by simp [holderPc, (I'.str.mu i).1 hl']
      have hval' : s'.val = s'.sh.pot + s'.sh.misses + (s'.pc i).toMiss := by rw [State.val, hh']
      rw [hh']
      exact ⟨h1, by omega⟩
    | false =>
      have hmu' : s'.sh.mu = none := by
        cases hm : s'.sh.mu with
        | none => rfl
        | some j =>
          have hj := (I'.str.mu j).2 hm
          by_cases hij : j = i
          · subst hij; rw [hl'] at hj; cases hj
          · rw [next_other hn hij] at hj
            rw [(I.str.mu j).1 hj] at hmu
            exact absurd (Option.some.inj hmu) hij
      have hh' : holderPc s' = .idle := by simp [holderPc, hmu']
      obtain ⟨t1, t2⟩ := toMiss_locked hl'
      have hval' : s'.val = s'.sh.pot + s'.sh.misses := by rw [State.val, hh']; rfl
      rw [hh']
      exact ⟨h1.of rfl rfl rfl t2 (by simp), by omega⟩
  | false =>
    obtain ⟨h1, h2, h3, h4⟩ := other_next I hn hl
    have hp : s'.sh.pot = s.sh.pot := by unfold Sh.pot; rw [h1, h2]
    rcases h4 with ⟨a1, a2, a3, a4⟩ | ⟨a1, a2⟩
    · have hh : holderPc s = .idle := by simp [holderPc, a1]
      have hh' : holderPc s' = .crit := by simp [holderPc, a3, a4]
      rw [hh'] 
      rw [hh] at H
      refine ⟨H.of h1 h2 h3 (by simp) (by simp), ?_⟩
      simp only [State.val, hh, hh', hp, h3, Cost.add, a2, PC.toMiss] at hc ⊢
      omega
    · have hh : holderPc s' = holderPc s := by
        simp only [holderPc, a2]
        cases hm : s.sh.mu with
        | none => rfl
        | some j =>
          simp only
          refine next_other hn ?_
          rintro rfl
          rw [(I.str.mu j).2 hm] at hl; cases hl
      have hca : c.add s i = c := by
        unfold Cost.add
        split
        · next h => exact absurd h a1
        · next h => rw [h] at hl; cases hl
        · next h => rw [h] at hl; cases hl
        · rfl
      rw [hh, hca]
      refine ⟨⟨by rw [h1, h3]; exact H.zero, ?_, ?_, ?_, by rw [h1, h2]; exact H.am⟩, ?_⟩
      · rw [h1, h3]; unfold Sh.dl; rw [h2]; exact H.lt
      · rw [h3]; unfold Sh.dl; rw [h2]; exact H.promo
      · unfold Sh.dl; rw [h2]; exact H.rng
      · simpa only [State.val, hp, h3, hh] using hc

theorem init_mi : MI (State.init (K := K) (V := V)).sh (holderPc (State.init (K := K) (V := V))) :=
  ⟨fun _ => rfl, fun h => (by cases h), fun _ h => (by cases h), fun _ h => (by cases h), fun h => (by cases h)⟩

theorem costs_mi {c : Cost} (hc : Costs eqv prog State.init h c s) : MI s.sh (holderPc s) ∧ c.copied + s.val ≤ c.locks + c.ranged := by
  induction hc with
  | refl => exact ⟨init_mi, Nat.le_refl _⟩
  | step hc hord hn ih =>
    obtain ⟨g, I, _⟩ := exec_inv (Costs.exec .init hc)
    exact step_mi I hord hn ih.1 _ ih.2

theorem exec_mi (hx : Exec eqv prog h s) : MI s.sh (holderPc s) := by
  induction hx with
  | init => exact init_mi
  | @step h s evs s' hx hs ih =>
    obtain ⟨g, I, _⟩ := exec_inv hx
    obtain ⟨i, ord, go, hord, hn, rfl⟩ := hs
    exact (step_mi I hord hn ih { locks := s.val } (by simp)).1

/-- C104: the number of entries that `dirtyLocked` goes over, in all calls together, is at most the number of times the mutex has been locked plus
the number of entries that the Ranges took over under the lock. -/
theorem rwmap_copying {c : Cost} (hc : Costs eqv prog State.init h c s) : c.copied ≤ c.locks + c.ranged := by
  have := (costs_mi hc).2
  omega

/-- C104: without Range, at most the number of times the mutex has been locked. -/
theorem rwmap_copying_noRange {c : Cost} (hc : Costs eqv prog State.init h c s) (hr : ∀ i, .inv i ∈ h → prog i ≠ .range) : c.copied ≤ c.locks := by
  have h0 : c.ranged = 0 := by
    clear * - hc hr
    induction hc with
    | refl => rfl
    | @step h c s i ord go s' hc hord hn ih =>
      have := ih (fun i hi => hr i (by simp [hi]))
      have hx := Costs.exec .init hc
      obtain ⟨g, I, _⟩ := exec_inv hx
      unfold Cost.add
      split
      · exact this
      · split <;> exact this
      · next m hp =>
        have hO := I.ops i
        simp only [OpOk, hp] at hO
        exact absurd hO.2.1.1 (hr i (by simpa using Or.inl (((exec_book hx).inv i).2 (by rw [hp]; simp))))
      · exact this
  have := rwmap_copying hc
  omega

/-! ## The number of lookups that lock -/

theorem miss_dirty (h : Sh K) (nx : Nx K V) : (missLocked h nx).1.dirty = h.dirty := by
  unfold missLocked; simp only; split <;> rfl

theorem after_dirty (h : Sh K) (op : Op K V) (lk : Lk) (r : Res K V) : (after h op lk r).1.dirty = h.dirty := by
  cases lk <;> simp only [after, miss_dirty]

/-- The entries of `dirty` after a step: those it had, those of `read` that have a value, and one for the key of the call. -/
def NewKeys (prog : Nat → Op K V) (i : Nat) (h h' : Sh K) : Prop :=
  ∀ k e, aget h'.dl k = some e → aget h.dl k = some e ∨ (aget h.read.m k = some e ∧ ∃ b, h.ent e = .val b) ∨ ((prog i).adds = true ∧ (prog i).key? = some k)

theorem NewKeys.same {h h' : Sh K} (hd : h'.dirty = h.dirty) : NewKeys prog i h h' := by
  intro k e hk; unfold Sh.dl at *; rw [hd] at hk; exact Or.inl hk

theorem NewKeys.nil {h h' : Sh K} (hd : h'.dl = []) : NewKeys prog i h h' := by
  intro k e hk; rw [hd] at hk; cases hk

theorem NewKeys.put {h h' : Sh K} {d : List (K × Nat)} {e : Nat} (hd : h.dirty = some d) (hd' : h'.dirty = some (aput d k e))
    (hk : (aget h.read.m k = some e ∧ ∃ b, h.ent e = .val b) ∨ ((prog i).adds = true ∧ (prog i).key? = some k)) : NewKeys prog i h h' := by
  intro k' e' hk'
  simp only [Sh.dl, hd, hd', Option.getD_some, aget_aput] at hk' ⊢
  split at hk'
  · next h => subst h; cases hk'; exact Or.inr hk
  · exact Or.inl hk'

theorem NewKeys.putNew {h : Sh K} (r : Res K V) (h1 : (prog i).adds = true) (h2 : (prog i).key? = some k) :
    NewKeys prog i h (Verif.RWMap.putNew h j k r).1 := by
  unfold Verif.RWMap.putNew
  split
  · exact .same rfl
  · next d hd => exact .put hd rfl (Or.inr ⟨h1, h2⟩)

theorem next_keys (I : Inv eqv prog s g) (hord : ∀ l, (ord l).Perm l) (hn : next eqv prog ord go s i = some s') : NewKeys prog i s.sh s'.sh := by
  have hO := I.ops i
  cases hl : (s.pc i).locked with
  | false => exact .same (other_next I hn hl).2.1
  | true =>
  simp only [next] at hn
  cases hc : s.pc i with
  | crit =>
    simp only [hc, Option.some.injEq] at hn; subst hn
    simp only [goto_sh]
    cases hop : prog i <;> simp only [critStep]
    all_goals (repeat' split)
    all_goals first
      | exact .same rfl
      | exact .same (miss_dirty _ _)
      | exact .putNew _ (by rw [hop]; rfl) (by rw [hop]; rfl)
      | skip
    · intro k' e' hk'
      simp only [Sh.dl, miss_dirty] at hk' ⊢
      cases hd : s.sh.dirty with
      | none => rw [hd] at hk'; cases hk'
      | some d =>
        rw [hd] at hk'
        simp only [Option.map_some, Option.getD_some, aget_adel] at hk' ⊢
        split at hk'
        · cases hk'
        · exact Or.inl hk'
    · intro k' e' hk'
      simp only [Sh.dl, miss_dirty] at hk' ⊢
      cases hd : s.sh.dirty with
      | none => rw [hd] at hk'; cases hk'
      | some d =>
        rw [hd] at hk'
        simp only [Option.map_some, Option.getD_some, aget_adel] at hk' ⊢
        split at hk'
        · cases hk'
        · exact Or.inl hk'
    · refine .nil ?_
      simp only [Sh.dl]
      cases s.sh.dirty <;> rfl
  | ent e lk =>
    simp only [hc, Option.some.injEq] at hn; subst hn
    simp only [goto_sh, entStep]
    (repeat' split) <;> first
      | exact .same rfl
      | exact .same (after_dirty _ _ _ _)
  | cas e lk p =>
    simp only [hc, Option.some.injEq] at hn; subst hn
    simp only [goto_sh, casStep]
    (repeat' split) <;> first
      | exact .same rfl
      | exact .same (after_dirty _ _ _ _)
  | unexp e =>
    simp only [OpOk, hc] at hO
    simp only [hc, Option.some.injEq] at hn; subst hn
    simp only [goto_sh]
    cases hop : prog i <;> simp only [unexpStep]
    all_goals (repeat' split)
    all_goals first
      | exact .same rfl
      | exact .put (by assumption) rfl (Or.inr ⟨hO.1, by rw [hop]; rfl⟩)
  | copy0 rm =>
    simp only [hc] at hn
    split at hn <;> simp only [Option.some.injEq] at hn <;> subst hn
    · exact .same rfl
    · exact .nil rfl
  | copy es rm =>
    simp only [OpOk, hc] at hO
    obtain ⟨_, hd, _, hes⟩ := hO
    cases es with
    | nil => simp only [hc, Option.some.injEq] at hn; subst hn; exact .same rfl
    | cons x es =>
      simp only [hc] at hn
      split at hn <;> simp only [Option.some.injEq] at hn <;> subst hn
      · exact .same rfl
      · exact .same rfl
      · next b hb =>
        cases hdd : s.sh.dirty with
        | none => exact absurd hdd hd
        | some d =>
          exact .put (h' := dirtyPut s.sh x.1 x.2) (k := x.1) (e := x.2) hdd (by simp only [dirtyPut, hdd, Option.map_some])
            (Or.inl ⟨hes x.1 x.2 (by simp), b, hb⟩)
  | amend rm =>
    simp only [OpOk, hc] at hO
    obtain ⟨⟨k, h1, hk, hrm, _⟩, _⟩ := hO
    simp only [hc, hk, Option.some.injEq] at hn; subst hn
    simp only [goto_sh]
    have := NewKeys.putNew (j := i) (h := { s.sh with read := ⟨rm, true⟩ }) (newRes (prog i)) h1 hk
    intro k' e' hk'
    rcases this k' e' hk' with h | h | h
    · exact Or.inl h
    · exact Or.inr (Or.inl (by simp only at h; rw [← hrm]; exact h))
    · exact Or.inr (Or.inr h)
  | promo nx => simp only [hc, Option.some.injEq] at hn; subst hn; exact .nil rfl
  | wipe =>
    simp only [hc, Option.some.injEq] at hn; subst hn
    refine .nil ?_
    simp only [Sh.dl, goto_sh]
    cases s.sh.dirty <;> rfl
  | swp e =>
    simp only [hc, Option.some.injEq] at hn; subst hn
    simp only [goto_sh, swpStep]
    split <;> exact .same rfl
  | expunge es rm =>
    cases es with
    | nil => simp only [hc] at hn; cases hn
    | cons x es =>
      simp only [hc] at hn
      split at hn <;> simp only [Option.some.injEq] at hn <;> subst hn <;> exact .same rfl
  | zero => simp only [hc, Option.some.injEq] at hn; subst hn; exact .same rfl
  | unl nx => cases nx <;> simp only [hc, Option.some.injEq] at hn <;> subst hn <;> exact .same rfl
  | _ => rw [hc] at hl; cases hl

/-- The keys of the map are keys of calls of Swap and LoadOrStore. -/
theorem exec_keys (hx : Exec eqv prog h s) : ∀ k, aget s.sh.dl k ≠ none ∨ aget s.sh.read.m k ≠ none →
    ∃ c, .inv c ∈ h ∧ (prog c).adds = true ∧ (prog c).key? = some k := by
  induction hx with
  | init => intro k hk; rcases hk with hk | hk <;> exact absurd rfl hk
  | @step h s evs s' hx hs ih =>
    intro k hk
    obtain ⟨i, ord, go, hord, hn, rfl⟩ := hs
    obtain ⟨g, I, _⟩ := exec_inv hx
    have ih' : aget s.sh.dl k ≠ none ∨ aget s.sh.read.m k ≠ none →
        ∃ c, .inv c ∈ h ++ event prog s i ∧ (prog c).adds = true ∧ (prog c).key? = some k := fun h => by
      obtain ⟨c, h1, h2⟩ := ih k h; exact ⟨c, by simp [h1], h2⟩
    rcases hk with hk | hk
    · by_cases hid : s.pc i = .idle
      · simp only [next, hid, Option.some.injEq] at hn; subst hn; exact ih' (Or.inl hk)
      obtain ⟨e, hk⟩ := Option.ne_none_iff_exists'.1 hk
      rcases next_keys I hord hn k e hk with h | ⟨h, _⟩ | h
      · exact ih' (Or.inl (by rw [h]; simp))
      · exact ih' (Or.inr (by rw [h]; simp))
      · exact ⟨i, by simp [((exec_book hx).inv i).2 hid], h⟩
    · rcases next_read I hn with h | ⟨_, _, h⟩ | ⟨_, _, h⟩ | ⟨_, h⟩
      · rw [h] at hk; exact ih' (Or.inr hk)
      · rw [h] at hk; exact ih' (Or.inr hk)
      · rw [h] at hk; exact ih' (Or.inl hk)
      · rw [h] at hk; exact absurd rfl hk

/-- A call that only looks at the map, or removes a key. -/
def Op.Looks (op : Op K V) : Prop :=
  (∃ k, op = .load k) ∨ (∃ k, op = .loadAndDelete k) ∨ (∃ k o, op = .compareAndDelete k o) ∨ op = .range ∨ op = .len

theorem Op.Looks.adds {op : Op K V} (h : op.Looks) : op.adds = false ∧ op ≠ .clear ∧ ∀ k o n, op ≠ .compareAndSwap k o n := by
  rcases h with ⟨k, rfl⟩ | ⟨k, rfl⟩ | ⟨k, o, rfl⟩ | rfl | rfl <;> exact ⟨rfl, by simp, by simp⟩

/-- In progress. -/
def active (s : State K V) (i : Nat) : Prop := s.pc i ≠ .idle ∧ ∀ r, s.pc i ≠ .done r

/-- The invariant of calls that look at the map one at a time: `n` have locked. -/
structure SI (prog : Nat → Op K V) (M n : Nat) (s : State K V) : Prop where
  wait : ∀ i, s.pc i = .acq ∨ s.pc i = .crit → s.sh.read.amended = true ∧ ∀ k, (prog i).key? = some k → aget s.sh.read.m k = none
  am : s.sh.read.amended = true → n ≤ s.sh.misses + (holderPc s).toMiss
  le : n ≤ M

open Classical in
theorem step_si {M n : Nat} (I : Inv eqv prog s g) (H : MI s.sh (holderPc s)) (hord : ∀ l, (ord l).Perm l) (hn : next eqv prog ord go s i = some s')
    (hone : ∀ j, active s j → active s i → j = i) (hlook : active s i → (prog i).Looks) (hM : s.sh.dl.length ≤ M) (hM1 : 1 ≤ M)
    (S : SI prog M n s) : SI prog M (if s.pc i = .acq then n + 1 else n) s' := by
  obtain ⟨g', I', _⟩ := I.step ⟨i, ord, go, hord, hn, rfl⟩
  have hO := I.ops i
  cases hl : (s.pc i).locked with
  | false =>
    obtain ⟨h1, h2, h3, h4⟩ := other_next I hn hl
    rcases h4 with ⟨a1, a2, a3, a4⟩ | ⟨a1, a2⟩
    · have hh : holderPc s = .idle := by simp [holderPc, a1]
      have hh' : holderPc s' = .crit := by simp [holderPc, a3, a4]
      rw [if_pos a2]
      obtain ⟨w1, w2⟩ := S.wait i (Or.inl a2)
      have hlt : s.sh.misses < max 1 s.sh.dl.length := by
        rcases H.lt w1 with ⟨nx, h⟩ | h
        · rw [hh] at h; cases h
        · exact h
      have hle := S.am w1
      rw [hh] at hle
      simp only [PC.toMiss] at hle
      refine ⟨fun j hj => ?_, fun _ => ?_, by omega⟩
      · rw [h1]
        by_cases hij : j = i
        · subst hij; exact ⟨w1, w2⟩
        · rw [next_other hn hij] at hj; exact S.wait j hj
      · rw [hh', h3]; simp only [PC.toMiss]; omega
    · have hh : holderPc s' = holderPc s := by
        simp only [holderPc, a2]
        cases hm : s.sh.mu with
        | none => rfl
        | some j =>
          simp only
          refine next_other hn ?_
          rintro rfl
          rw [(I.str.mu j).2 hm] at hl; cases hl
      rw [if_neg a1]
      refine ⟨fun j hj => ?_, by rw [h1, h3, hh]; exact S.am, S.le⟩
      rw [h1]
      by_cases hij : j = i
      swap
      · rw [next_other hn hij] at hj; exact S.wait j hj
      subst hij
      cases hc : s.pc j with
      | start =>
        have hL := hlook ⟨by rw [hc]; simp, by rw [hc]; simp⟩
        simp only [next, hc, Option.some.injEq] at hn; subst hn
        simp only [goto_pc_self] at hj
        rcases hL with ⟨k, hop⟩ | ⟨k, hop⟩ | ⟨k, o, hop⟩ | hop | hop <;> rw [hop] at hj ⊢ <;> simp only [startStep] at hj
        case inr.inr.inr.inr => rcases hj with h | h <;> cases h
        all_goals (repeat' split at hj) <;> first
          | (rcases hj with h | h <;> cases h; done)
          | (refine ⟨by assumption, ?_⟩; intro k' hk'; cases hk'; assumption)
          | (refine ⟨by assumption, ?_⟩; intro k' hk'; cases hk'; done)
      | ent e lk =>
        have hL := (hlook ⟨by rw [hc]; simp, by rw [hc]; simp⟩).adds
        have hlk : lk = .u := by cases lk <;> first | rfl | (rw [hc] at hl; cases hl)
        subst hlk
        simp only [next, hc, Option.some.injEq] at hn; subst hn
        simp only [goto_pc_self] at hj
        cases hop : prog j <;> rw [hop] at hL hj <;> simp only [entStep, after, Lk.raise] at hj
        case swap => cases hL.1
        case loadOrStore => cases hL.1
        all_goals (repeat' split at hj)
        all_goals first
          | (rcases hj with h | h <;> cases h; done)
          | (unfold finish at hj; (repeat' split at hj) <;> rcases hj with h | h <;> cases h)
      | cas e lk p =>
        have hlk : lk = .u := by cases lk <;> first | rfl | (rw [hc] at hl; cases hl)
        subst hlk
        simp only [next, hc, Option.some.injEq] at hn; subst hn
        simp only [goto_pc_self, casStep] at hj
        simp only [after] at hj
        (repeat' split at hj) <;> first
          | (unfold finish at hj; (repeat' split at hj) <;> rcases hj with h | h <;> cases h; done)
          | (rcases hj with h | h <;> cases h; done)
      | acq => exact absurd hc a1
      | rng es acc =>
        cases es with
        | nil => simp only [next, hc, Option.some.injEq] at hn; subst hn; simp at hj
        | cons x es =>
          simp only [next, hc] at hn
          (repeat' split at hn) <;> simp only [Option.some.injEq] at hn <;> subst hn <;> simp at hj
      | idle => simp only [next, hc, Option.some.injEq] at hn; subst hn; simp at hj
      | add d r => simp only [next, hc, Option.some.injEq] at hn; subst hn; simp at hj
      | fin r => simp only [next, hc, Option.some.injEq] at hn; subst hn; simp at hj
      | done r => simp only [next, hc] at hn; cases hn
      | panic => simp only [next, hc] at hn; cases hn
      | _ => rw [hc] at hl; cases hl
  | true =>
    have hmu := (I.str.mu i).1 hl
    have hh : holderPc s = s.pc i := by simp [holderPc, hmu]
    have hact : active s i := by
      constructor
      · intro h; rw [h] at hl; cases hl
      · intro r h; rw [h] at hl; cases hl
    have hL := hlook hact
    obtain ⟨L1, L2, L3⟩ := hL.adds
    have hna : s.pc i ≠ .acq := by intro h; rw [h] at hl; cases hl
    rw [if_neg hna]
    have hoth : ∀ j, j ≠ i → ¬ (s'.pc j = .acq ∨ s'.pc j = .crit) := by
      intro j hij hj
      rw [next_other hn hij] at hj
      refine hij (hone j ⟨?_, ?_⟩ hact)
      · rcases hj with h | h <;> rw [h] <;> simp
      · rcases hj with h | h <;> rw [h] <;> simp
    have hwait : ¬ (s'.pc i = .acq ∨ s'.pc i = .crit) → ∀ j, s'.pc j = .acq ∨ s'.pc j = .crit →
        s'.sh.read.amended = true ∧ ∀ k, (prog j).key? = some k → aget s'.sh.read.m k = none := by
      intro hi j hj
      by_cases hij : j = i
      · subst hij; exact absurd hj hi
      · exact absurd hj (hoth j hij)
    cases hc : s.pc i with
    | crit =>
      obtain ⟨w1, w2⟩ := S.wait i (Or.inr hc)
      have hle := S.am w1
      rw [hh, hc] at hle
      simp only [PC.toMiss] at hle
      have hmiss : ∀ nx : Nx K V, ∀ h : Sh K, s'.sh = (missLocked h nx).1 → h.misses = s.sh.misses → n ≤ s'.sh.misses := by
        intro nx h e1 e2
        have : s'.sh.misses = s.sh.misses + 1 := by
          rw [e1]; unfold missLocked; simp only; split <;> simp [e2]
        omega
      have hpc : ∀ nx : Nx K V, ∀ h : Sh K, s'.pc i = (missLocked h nx).2 → ¬ (s'.pc i = .acq ∨ s'.pc i = .crit) := by
        intro nx h e1
        rw [e1]; unfold missLocked; simp only; split <;> simp
      simp only [OpOk, hc] at hO
      simp only [next, hc, Option.some.injEq] at hn
      rcases hL with ⟨k, hop⟩ | ⟨k, hop⟩ | ⟨k, o, hop⟩ | hop | hop
      · have hk := w2 k (by rw [hop]; rfl)
        simp only [hop, critStep, hk, w1, if_true] at hn
        split at hn
        all_goals
          have e1 := congrArg (·.sh) hn
          have e2 := congrArg (·.pc i) hn
          simp only [goto_sh, goto_pc_self] at e1 e2
          exact ⟨hwait (hpc _ _ e2.symm), fun _ => Nat.le_add_right_of_le (hmiss _ _ e1.symm rfl), S.le⟩
      · have hk := w2 k (by rw [hop]; rfl)
        simp only [hop, critStep, hk, w1, if_true] at hn
        split at hn
        all_goals
          have e1 := congrArg (·.sh) hn
          have e2 := congrArg (·.pc i) hn
          simp only [goto_sh, goto_pc_self] at e1 e2
          exact ⟨hwait (hpc _ _ e2.symm), fun _ => Nat.le_add_right_of_le (hmiss _ _ e1.symm rfl), S.le⟩
      · have hk := w2 k (by rw [hop]; rfl)
        simp only [hop, critStep, hk, w1, if_true] at hn
        split at hn
        all_goals
          have e1 := congrArg (·.sh) hn
          have e2 := congrArg (·.pc i) hn
          simp only [goto_sh, goto_pc_self] at e1 e2
          exact ⟨hwait (hpc _ _ e2.symm), fun _ => Nat.le_add_right_of_le (hmiss _ _ e1.symm rfl), S.le⟩
      · simp only [hop, critStep, w1, if_true] at hn
        have e2 : s'.pc i = .promo (.rng (s.sh.dirty.getD [])) := by rw [← hn]; simp
        have hh' : holderPc s' = s'.pc i := by simp [holderPc, (I'.str.mu i).1 (by rw [e2]; rfl)]
        refine ⟨hwait (by rw [e2]; simp), fun _ => ?_, S.le⟩
        rw [hh', e2, ← hn]
        simpa only [goto_sh, PC.toMiss] using hle
      · exact absurd hop hO
    | promo nx =>
      have e1 : s'.sh.read.amended = false := by
        simp only [next, hc, Option.some.injEq] at hn; subst hn; rfl
      refine ⟨hwait ?_, fun h => ?_, S.le⟩
      · simp only [next, hc, Option.some.injEq] at hn; subst hn; simp
      · rw [e1] at h; cases h
    | unl nx =>
      have hm : s'.sh.misses = s.sh.misses ∧ s'.sh.read = s.sh.read ∧ ¬ (s'.pc i = .acq ∨ s'.pc i = .crit) := by
        cases nx <;> simp only [next, hc, Option.some.injEq] at hn <;> subst hn
        · exact ⟨rfl, rfl, by simp⟩
        · exact ⟨rfl, rfl, by simp⟩
        · refine ⟨rfl, rfl, ?_⟩
          simp only [goto_pc_self]
          unfold finish; (repeat' split) <;> simp
      refine ⟨hwait hm.2.2, fun h => ?_, S.le⟩
      rw [hm.2.1] at h
      have := S.am h
      rw [hh, hc] at this
      simp only [PC.toMiss] at this
      omega
    | ent e lk =>
      simp only [OpOk, hc] at hO
      obtain ⟨k, hE⟩ := hO
      have hlk : lk ≠ .u := by rintro rfl; rw [hc] at hl; cases hl
      rcases (hE.loc hlk).2 with ⟨v, h, _⟩ | ⟨o, n, h⟩
      · rw [h] at L1; cases L1
      · exact absurd h (L3 _ _ _)
    | cas e lk p =>
      simp only [OpOk, hc] at hO
      obtain ⟨⟨k, hE⟩, _⟩ := hO
      have hlk : lk ≠ .u := by rintro rfl; rw [hc] at hl; cases hl
      rcases (hE.loc hlk).2 with ⟨v, h, _⟩ | ⟨o, n, h⟩
      · rw [h] at L1; cases L1
      · exact absurd h (L3 _ _ _)
    | unexp e => simp only [OpOk, hc] at hO; rw [L1] at hO; cases hO.1
    | swp e => simp only [OpOk, hc] at hO; obtain ⟨_, _, _, h, _⟩ := hO; rw [h] at L1; cases L1
    | copy0 rm => simp only [OpOk, hc] at hO; obtain ⟨_, h, _⟩ := hO; rw [L1] at h; cases h
    | copy es rm => simp only [OpOk, hc] at hO; obtain ⟨⟨_, h, _⟩, _⟩ := hO; rw [L1] at h; cases h
    | expunge es rm => simp only [OpOk, hc] at hO; obtain ⟨⟨_, h, _⟩, _⟩ := hO; rw [L1] at h; cases h
    | amend rm => simp only [OpOk, hc] at hO; obtain ⟨⟨_, h, _⟩, _⟩ := hO; rw [L1] at h; cases h
    | wipe => simp only [OpOk, hc] at hO; exact absurd hO L2
    | zero => simp only [OpOk, hc] at hO; exact absurd hO L2
    | _ => rw [hc] at hl; cases hl

open Classical in
/-- C103: after any history, calls of Load, LoadAndDelete, CompareAndDelete, Range and Len, one at a time, lock the mutex at most as often in total
as there were keys stored, or once: afterwards they do not lock any more. -/
theorem rwmap_lookups {s0 : State K V} {h0 : List (Ev K V)} {c : Cost} (hx : Exec eqv prog h0 s0) (hc : Costs eqv prog s0 h c s)
    {ks : List K} (hks : ∀ i k v, .inv i ∈ h0 → prog i = .swap k v ∨ prog i = .loadOrStore k v → k ∈ ks)
    (hlook : ∀ i, .inv i ∈ h → (∃ k, prog i = .load k) ∨ (∃ k, prog i = .loadAndDelete k) ∨ (∃ k o, prog i = .compareAndDelete k o) ∨
      prog i = .range ∨ prog i = .len)
    (hone : ∀ h1 h2, h = h1 ++ h2 → ∀ i j, pendingIn (h0 ++ h1) i → pendingIn (h0 ++ h1) j → i = j)
    (hq : ∀ i, ¬ pendingIn h0 i) : c.locks ≤ max 1 ks.length := by
  have hq0 : Quiescent s0 := by
    intro i
    by_contra hno
    simp only [not_or, not_exists] at hno
    exact hq i ((exec_book hx).pending hno.1 hno.2)
  suffices h : SI prog (max 1 ks.length) c.locks s from h.le
  induction hc with
  | refl =>
    refine ⟨fun i hi => ?_, fun _ => Nat.zero_le _, Nat.zero_le _⟩
    rcases hq0 i with h | ⟨r, h⟩ <;> rw [h] at hi <;> simp at hi
  | @step h c s i ord go s' hc hord hn ih =>
    have hx' := hc.exec hx
    obtain ⟨g, I, _⟩ := exec_inv hx'
    have B := exec_book hx'
    have S := ih (fun i hi => hlook i (by simp [hi])) (fun h1 h2 he => hone h1 (h2 ++ event prog s i) (by rw [he, List.append_assoc]))
    have hloc : (c.add s i).locks = if s.pc i = .acq then c.locks + 1 else c.locks := by
      unfold Cost.add
      split
      · next h => rw [if_pos h]
      · next h => rw [h]; split <;> simp
      · next h => rw [h]; simp
      · next h _ _ => rw [if_neg h]
    rw [hloc]
    have hnew : ∀ j, active s j → .inv j ∈ h := by
      intro j hj
      have hp := B.pending hj.1 hj.2
      rcases List.mem_append.1 hp.1 with h | h
      · rcases hq0 j with h' | ⟨r, h'⟩
        · exact absurd h' (((exec_book hx).inv j).1 h)
        · exact absurd (List.mem_append_left _ (((exec_book hx).ret j r).2 h')) (hp.2 r)
      · exact h
    refine step_si I (exec_mi hx') hord hn (fun j hj hi => ?_) (fun hi => hlook i (by simp [hnew i hi])) ?_ (Nat.le_max_left _ _) S
    · exact hone h (event prog s i) rfl j i (B.pending hj.1 hj.2) (B.pending hi.1 hi.2)
    · refine Nat.le_trans ?_ (Nat.le_max_right _ _)
      have hnd : (s.sh.dl.map (·.1)).Nodup := by
        unfold Sh.dl
        cases hd : s.sh.dirty with
        | none => simp
        | some d => exact I.str.core.dwf d hd
      have hsub : ∀ k ∈ s.sh.dl.map (·.1), k ∈ ks := by
        intro k hk
        obtain ⟨c', h1, h2, h3⟩ := exec_keys hx' k (Or.inl (fun h => aget_eq_none.1 h hk))
        rcases List.mem_append.1 h1 with h | h
        · cases hop : prog c' <;> rw [hop] at h2 h3 <;> cases h2 <;> cases h3
          · exact hks c' _ _ h (Or.inl hop)
          · exact hks c' _ _ h (Or.inr hop)
        · have := Op.Looks.adds (hlook c' (by simp [h]))
          rw [h2] at this; cases this.1
      have := (List.subperm_of_subset hnd hsub).length_le
      simpa using this

/-! ## Examples -/

/-- Run a schedule, counting. -/
def schedC (eqv : V → V → Option Bool) (prog : Nat → Op K V) : List Nat → State K V → List (Ev K V) → Cost → Option (State K V × List (Ev K V) × Cost)
  | [], s, h, c => some (s, h, c)
  | i :: is, s, h, c => match next eqv prog id true s i with
    | some s' => schedC eqv prog is s' (h ++ event prog s i) (c.add s i)
    | none => none

theorem schedC_costs {s0 : State K V} {is : List Nat} : ∀ {s s' : State K V} {h h' : List (Ev K V)} {c c' : Cost}, Costs eqv prog s0 h c s →
    schedC eqv prog is s h c = some (s', h', c') → Costs eqv prog s0 h' c' s' := by
  induction is with
  | nil => intro s s' h h' c c' hc he; simp only [schedC, Option.some.injEq, Prod.mk.injEq] at he; obtain ⟨rfl, rfl, rfl⟩ := he; exact hc
  | cons i is ih =>
    intro s s' h h' c c' hc he
    simp only [schedC] at he
    split at he
    · next hn => exact ih (hc.step (fun _ => .refl _) hn) he
    · cases he

/-- Calls 0 and 3 store two keys. -/
def exTwo : Option (State Nat Nat × List (Ev Nat Nat)) := sched (fun a b => some (a == b)) exProg true (rep 10 0 ++ rep 7 3) State.init []

example : exTwo.map (·.2) = some [.inv 0, .ret 0 (.opt none), .inv 3, .ret 3 (.opt none)] := rfl

/-- Then two loads of key 7 lock, and a call of LoadAndDelete does not lock any more. -/
example : (exTwo.bind fun x => (schedC (fun a b => some (a == b)) exProg (rep 7 1 ++ rep 8 4 ++ rep 6 2) x.1 [] {}).map fun y => (y.2.1, y.2.2.locks)) =
    some ([.inv 1, .ret 1 (.opt (some 1)), .inv 4, .ret 4 (.opt (some 1)), .inv 2, .ret 2 (.opt (some 1))], 2) := rfl

/-- CompareAndSwap is not among the calls of C103: it locks again and again if the key is absent (rwmap.go:403-416), here three times although
only one key was stored. -/
example : ((schedC (fun a b => some (a == b)) (fun i => if i = 0 then .swap 7 1 else .compareAndSwap 9 0 0 : Nat → Op Nat Nat)
    (rep 10 0 ++ rep 6 1 ++ rep 6 2 ++ rep 6 3) State.init [] {}).map fun y => (y.2.1, y.2.2.locks)) =
    some ([.inv 0, .ret 0 (.opt none), .inv 1, .ret 1 (.bool false), .inv 2, .ret 2 (.bool false), .inv 3, .ret 3 (.bool false)], 1 + 3) := rfl

/-- A new key after the two loads: `dirtyLocked` goes over two entries, and the mutex has been locked five times. -/
example : ((schedC (fun a b => some (a == b)) exProg (rep 10 0 ++ rep 7 3 ++ rep 7 1 ++ rep 8 4 ++ rep 12 7) State.init [] {}).map
    fun y => (y.2.2.copied, y.2.2.locks, y.2.2.ranged, y.1.pc 7)) = some (2, 5, 0, .done (.los 1 false)) := rfl

/-- The same with a Range instead of the loads: it took over two entries. -/
example : ((schedC (fun a b => some (a == b)) exProg (rep 10 0 ++ rep 7 3 ++ rep 10 5 ++ rep 12 7) State.init [] {}).map
    fun y => (y.2.2.copied, y.2.2.locks, y.2.2.ranged, y.1.pc 7)) = some (2, 4, 2, .done (.los 1 false)) := rfl
end Verif.RWMap
