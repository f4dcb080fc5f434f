import Verif.RWMap.Stop
/-!
# Calls that do not lock
-/
namespace Verif.RWMap
variable {K V : Type} [DecidableEq K] [Inhabited V]
variable {eqv : V → V → Option Bool} {prog : Nat → Op K V}
variable {h : List (Ev K V)} {s s' : State K V} {g : Ghost K V} {i j : Nat} {ord : List (K × Nat) → List (K × Nat)} {go : Bool}

/-- In the loop of `dirtyLocked`, or about to set `amended`. -/
def PC.copying : PC K V → Bool
  | .copy _ _ | .expunge _ _ | .amend _ => true
  | _ => false

theorem miss_read (h : Sh K) (nx : Nx K V) : (missLocked h nx).1.read = h.read := by
  unfold missLocked; simp only; split <;> rfl

theorem miss_ent (h : Sh K) (nx : Nx K V) : (missLocked h nx).1.ent = h.ent := by
  unfold missLocked; simp only; split <;> rfl

theorem after_read (h : Sh K) (op : Op K V) (lk : Lk) (r : Res K V) : (after h op lk r).1.read = h.read := by
  cases lk <;> simp only [after, miss_read]

theorem after_ent (h : Sh K) (op : Op K V) (lk : Lk) (r : Res K V) : (after h op lk r).1.ent = h.ent := by
  cases lk <;> simp only [after, miss_ent]

theorem putNew_read (h : Sh K) (i : Nat) (k : K) (r : Res K V) : (putNew h i k r).1.read = h.read := by
  unfold putNew; split <;> rfl

theorem crit_read (h : Sh K) (i : Nat) (op : Op K V) : (critStep h i op).1.read = h.read := by
  simp only [critStep]
  repeat' split
  all_goals first | rfl | (simp only [miss_read]) | (simp only [putNew_read])

theorem ent_read (h : Sh K) (op : Op K V) (e : Nat) (lk : Lk) : (entStep eqv prog h op e lk).1.read = h.read := by
  simp only [entStep]
  repeat' split
  all_goals first | rfl | (simp only [after_read])

theorem cas_read (h : Sh K) (i : Nat) (op : Op K V) (e : Nat) (lk : Lk) (p : Ptr) : (casStep prog h i op e lk p).1.read = h.read := by
  simp only [casStep]
  repeat' split
  all_goals first | rfl | (simp only [after_read]; rfl)

theorem unexp_read (h : Sh K) (op : Op K V) (e : Nat) : (unexpStep h op e).1.read = h.read := by
  simp only [unexpStep]
  repeat' split
  all_goals rfl

theorem swp_read (h : Sh K) (i e : Nat) : (swpStep prog h i e).1.read = h.read := by
  simp only [swpStep]
  repeat' split
  all_goals rfl

/-- Who changes `read`. -/
theorem next_read (I : Inv eqv prog s g) (hn : next eqv prog ord go s i = some s') :
    s'.sh.read = s.sh.read ∨ (∃ rm, s.pc i = .amend rm ∧ s'.sh.read = ⟨s.sh.read.m, true⟩) ∨
    (∃ nx, s.pc i = .promo nx ∧ s'.sh.read = ⟨s.sh.dirty.getD [], false⟩) ∨ (s.pc i = .wipe ∧ s'.sh.read = ⟨[], false⟩) := by
  have hO := I.ops i
  simp only [next] at hn
  cases hc : s.pc i with
  | start => simp only [hc, Option.some.injEq] at hn; subst hn; exact Or.inl rfl
  | crit => simp only [hc, Option.some.injEq] at hn; subst hn; exact Or.inl (crit_read _ _ _)
  | ent e lk => simp only [hc, Option.some.injEq] at hn; subst hn; exact Or.inl (ent_read _ _ _ _)
  | cas e lk p => simp only [hc, Option.some.injEq] at hn; subst hn; exact Or.inl (cas_read _ _ _ _ _ _)
  | unexp e => simp only [hc, Option.some.injEq] at hn; subst hn; exact Or.inl (unexp_read _ _ _)
  | swp e => simp only [hc, Option.some.injEq] at hn; subst hn; exact Or.inl (swp_read _ _ _)
  | amend rm =>
    simp only [OpOk, hc] at hO
    obtain ⟨⟨k, _, hk, hrm, _⟩, _⟩ := hO
    simp only [hc, hk, Option.some.injEq] at hn
    subst hn
    refine Or.inr (Or.inl ⟨_, rfl, ?_⟩)
    simp only [goto_sh, putNew_read, hrm]
  | promo nx =>
    simp only [hc, Option.some.injEq] at hn; subst hn
    exact Or.inr (Or.inr (Or.inl ⟨_, rfl, rfl⟩))
  | wipe =>
    simp only [hc, Option.some.injEq] at hn; subst hn
    exact Or.inr (Or.inr (Or.inr ⟨rfl, rfl⟩))
  | _ =>
    left
    simp only [hc] at hn
    repeat' split at hn
    all_goals first
      | cases hn; done
      | contradiction
      | (simp only [Option.some.injEq] at hn; subst hn; rfl)

theorem putNew_ent (h : Sh K) (i : Nat) (k : K) (r : Res K V) (e : Nat) : (putNew h i k r).1.ent e = h.ent e ∨
    ((putNew h i k r).1.ent e = .val i ∧ e = h.fresh) := by
  unfold putNew
  split
  · exact Or.inl rfl
  · by_cases he : e = h.fresh
    · right; simp [he]
    · left; simp [he]

theorem crit_ent (h : Sh K) (i : Nat) (op : Op K V) (e : Nat) : (critStep h i op).1.ent e = h.ent e ∨
    ((critStep h i op).1.ent e = .val i ∧ e = h.fresh) := by
  simp only [critStep]
  repeat' split
  all_goals first
    | exact Or.inl rfl
    | exact Or.inl (congrFun (miss_ent _ _) e)
    | exact putNew_ent _ _ _ _ _

theorem ent_ent (h : Sh K) (op : Op K V) (e : Nat) (lk : Lk) : (entStep eqv prog h op e lk).1.ent = h.ent := by
  simp only [entStep]
  repeat' split
  all_goals first | rfl | (simp only [after_ent])

/-- The call removes what it finds. -/
def Op.deletes (k : K) (op : Op K V) : Prop := op = .loadAndDelete k ∨ ∃ o, op = .compareAndDelete k o

/-- How the entry `e` changes. -/
theorem next_ent (I : Inv eqv prog s g) (hn : next eqv prog ord go s i = some s') (e : Nat) :
    s'.sh.ent e = s.sh.ent e ∨
    (∃ b, s'.sh.ent e = .val b ∧ (s.sh.ent e ≠ .exp ∨ e = s.sh.fresh)) ∨
    (s'.sh.ent e = .nil ∧ s.pc i = .unexp e ∧ s.sh.ent e = .exp) ∨
    (s'.sh.ent e = .nil ∧ s.sh.ent e ≠ .exp ∧ ∃ lk p k, s.pc i = .cas e lk p ∧ (prog i).deletes k ∧ g.key e = some k) ∨
    (s'.sh.ent e = .exp ∧ s.sh.ent e = .nil ∧ ∃ k es rm, s.pc i = .expunge ((k, e) :: es) rm) := by
  have hO := I.ops i
  simp only [next] at hn
  cases hc : s.pc i with
  | start => simp only [hc, Option.some.injEq] at hn; subst hn; exact Or.inl rfl
  | crit =>
    simp only [hc, Option.some.injEq] at hn; subst hn
    rcases crit_ent s.sh i (prog i) e with h | ⟨h, h'⟩
    · exact Or.inl h
    · exact Or.inr (Or.inl ⟨_, h, Or.inr h'⟩)
  | ent e' lk =>
    simp only [hc, Option.some.injEq] at hn; subst hn
    exact Or.inl (by simp only [goto_sh, ent_ent])
  | cas e' lk p =>
    simp only [hc, Option.some.injEq] at hn; subst hn
    simp only [OpOk, hc] at hO
    obtain ⟨⟨k, hE⟩, hG⟩ := hO
    simp only [goto_sh, casStep]
    by_cases hp : s.sh.ent e' = p
    swap
    · rw [if_neg hp]; exact Or.inl rfl
    rw [if_pos hp]
    by_cases he : e = e'
    swap
    · left; split <;> simp [after_ent, Sh.setEnt, he]
    subst he
    have hpe : p ≠ .exp := by
      intro hpe
      subst hpe
      unfold Guard at hG
      split at hG <;> simp at hG
    have hkey := hE.key
    split
    · next k' v hop => right; left; exact ⟨i, by simp [after_ent, Sh.setEnt], Or.inl (hp ▸ hpe)⟩
    · next k' v hop => right; left; exact ⟨i, by simp [after_ent, Sh.setEnt], Or.inl (hp ▸ hpe)⟩
    · next k' v w hop => right; left; exact ⟨i, by simp [after_ent, Sh.setEnt], Or.inl (hp ▸ hpe)⟩
    · next k' hop =>
      right; right; right; left
      rw [hop] at hkey
      simp only [Op.key?, Option.some.injEq] at hkey
      subst hkey
      exact ⟨by simp [after_ent, Sh.setEnt], hp ▸ hpe, lk, p, k', rfl, Or.inl hop, hE.ekey⟩
    · next k' o hop =>
      right; right; right; left
      rw [hop] at hkey
      simp only [Op.key?, Option.some.injEq] at hkey
      subst hkey
      exact ⟨by simp [after_ent, Sh.setEnt], hp ▸ hpe, lk, p, k', rfl, Or.inr ⟨o, hop⟩, hE.ekey⟩
    · exact Or.inl rfl
  | unexp e' =>
    simp only [hc, Option.some.injEq] at hn; subst hn
    simp only [goto_sh, unexpStep]
    by_cases hp : s.sh.ent e' = .exp
    swap
    · rw [if_neg hp]; exact Or.inl rfl
    rw [if_pos hp]
    by_cases he : e = e'
    swap
    · left; repeat' split
      all_goals simp [Sh.setEnt, he]
    subst he
    repeat' split
    all_goals first
      | exact Or.inl rfl
      | exact Or.inr (Or.inr (Or.inl ⟨by simp [Sh.setEnt], rfl, hp⟩))
  | swp e' =>
    simp only [hc, Option.some.injEq] at hn; subst hn
    simp only [OpOk, hc] at hO
    simp only [goto_sh, swpStep]
    split
    · exact Or.inl rfl
    · by_cases he : e = e'
      · subst he; right; left; exact ⟨i, by simp [Sh.setEnt], Or.inl hO.1⟩
      · left; simp [Sh.setEnt, he]
  | amend rm =>
    simp only [OpOk, hc] at hO
    obtain ⟨⟨k, _, hk, hrm, _⟩, _⟩ := hO
    simp only [hc, hk, Option.some.injEq] at hn
    subst hn
    simp only [goto_sh, putNew]
    split
    · exact Or.inl rfl
    · by_cases he : e = s.sh.fresh
      · right; left; exact ⟨i, by simp [he], Or.inr he⟩
      · left; simp [he]
  | expunge es rm =>
    simp only [hc] at hn
    cases es with
    | nil => cases hn
    | cons x es =>
      obtain ⟨k, e'⟩ := x
      simp only at hn
      split at hn
      · next hnil =>
        simp only [Option.some.injEq] at hn; subst hn
        by_cases he : e = e'
        · subst he
          exact Or.inr (Or.inr (Or.inr (Or.inr ⟨by simp [Sh.setEnt], hnil, k, es, rm, rfl⟩)))
        · left; simp [Sh.setEnt, he]
      · simp only [Option.some.injEq] at hn; subst hn; exact Or.inl rfl
  | _ =>
    left
    simp only [hc] at hn
    repeat' split at hn
    all_goals first
      | cases hn; done
      | contradiction
      | (simp only [Option.some.injEq] at hn; subst hn; rfl)

/-- A call that copies goes on until `amended` is set. -/
theorem next_copying (I : Inv eqv prog s g) (hn : next eqv prog ord go s i = some s') (hc : (s.pc i).copying = true) :
    (s'.pc i).copying = true ∨ s'.sh.read.amended = true := by
  have hO := I.ops i
  cases hp : s.pc i with
  | amend rm =>
    right
    rcases next_read I hn with h | ⟨_, _, h⟩ | ⟨nx, h, _⟩ | ⟨h, _⟩
    · simp only [OpOk, hp] at hO
      obtain ⟨⟨k, _, hk, hrm, _⟩, _⟩ := hO
      simp only [next, hp, hk, Option.some.injEq] at hn
      subst hn
      simp only [goto_sh, putNew_read]
    · rw [h]
    · rw [hp] at h; cases h
    · rw [hp] at h; cases h
  | copy es rm =>
    left
    simp only [next, hp] at hn
    cases es with
    | nil => simp only [Option.some.injEq] at hn; subst hn; simp [PC.copying]
    | cons x es =>
      simp only at hn
      split at hn <;> simp only [Option.some.injEq] at hn <;> subst hn <;> simp [PC.copying]
  | expunge es rm =>
    left
    simp only [next, hp] at hn
    cases es with
    | nil => cases hn
    | cons x es =>
      simp only at hn
      split at hn <;> simp only [Option.some.injEq] at hn <;> subst hn <;> simp [PC.copying]
  | _ => rw [hp] at hc; cases hc

/-- In a map that is not amended, no entry is expunged unless a call is copying. -/
def NoExp (s : State K V) : Prop :=
  s.sh.read.amended = false → (∀ i, (s.pc i).copying = false) → ∀ k e, aget s.sh.read.m k = some e → s.sh.ent e ≠ .exp

theorem exec_noExp (hx : Exec eqv prog h s) : NoExp s := by
  induction hx with
  | init => intro _ _ k e he; simp [State.init, aget] at he
  | @step h s evs s' hx hs ih =>
    obtain ⟨i, ord, go, _, hn, rfl⟩ := hs
    obtain ⟨g, I, _⟩ := exec_inv hx
    intro ha hcp k e hk hexp
    have hcs : ∀ j, (s.pc j).copying = false := by
      intro j
      by_contra hj
      have hj : (s.pc j).copying = true := by simpa using hj
      by_cases hij : j = i
      · subst hij
        rcases next_copying I hn hj with h | h
        · rw [hcp] at h; cases h
        · rw [ha] at h; cases h
      · have := hcp j
        rw [next_other hn hij, hj] at this; cases this
    have hold : s.sh.ent e = .exp := by
      rcases next_ent I hn e with h | ⟨b, h, _⟩ | ⟨h, _⟩ | ⟨h, _⟩ | ⟨_, _, k', es, rm, h⟩
      · rw [← h]; exact hexp
      · rw [hexp] at h; cases h
      · rw [hexp] at h; cases h
      · rw [hexp] at h; cases h
      · have := hcs i; rw [h] at this; cases this
    rcases next_read I hn with h | ⟨rm, _, h⟩ | ⟨nx, hp, h⟩ | ⟨_, h⟩
    · rw [h] at ha hk
      exact ih ha hcs k e hk hold
    · rw [h] at ha; cases ha
    · rw [h] at hk
      cases hd : s.sh.dirty with
      | none => simp [hd, aget] at hk
      | some d =>
        simp only [hd, Option.getD_some] at hk
        exact (I.str.core.dkey d hd k e hk).2.2.2.1 hold
    · rw [h] at hk; simp [aget] at hk
end Verif.RWMap
