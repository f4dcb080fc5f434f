import Verif.RWMap.Len
/-!
# What Range calls its function with
-/
namespace Verif.RWMap
variable {K V : Type} [DecidableEq K] [Inhabited V]
variable {eqv : V → V → Option Bool} {prog : Nat → Op K V}

def Res.pairs : Res K V → List (K × V)
  | .visited es _ => es
  | _ => []

/-- The pairs a call has visited. -/
def PC.pairs : PC K V → List (K × V)
  | .rng _ acc => acc
  | .unl (.res r) | .promo (.res r) | .add _ r | .fin r | .done r => r.pairs
  | _ => []

theorem finish_pairs (op : Op K V) (r : Res K V) : (finish op r).pairs = r.pairs := by
  rcases finish_cases op r with h | ⟨d, h⟩ <;> rw [h] <;> rfl

theorem miss_pairs (h : Sh K) (nx : Nx K V) : (missLocked h nx).2.pairs = (PC.unl nx : PC K V).pairs := by
  unfold missLocked
  simp only
  split
  · rfl
  · cases nx <;> rfl

theorem after_pairs (h : Sh K) (op : Op K V) (lk : Lk) (r : Res K V) : (after h op lk r).2.pairs = r.pairs := by
  cases lk
  · exact finish_pairs op r
  · rfl
  · exact miss_pairs h _

theorem visitsOf_append (i : Nat) (h1 h2 : List (Ev K V)) : visitsOf i (h1 ++ h2) = visitsOf i h1 ++ visitsOf i h2 := by
  simp [visitsOf]

theorem start_pairs (ord : List (K × Nat) → List (K × Nat)) (h : Sh K) (op : Op K V) : (startStep ord h op).pairs = [] := by
  unfold startStep
  repeat' split
  all_goals rfl

theorem putNew_pairs (h : Sh K) (i : Nat) (k : K) (r : Res K V) (hr : r.pairs = []) : (putNew h i k r).2.pairs = [] := by
  unfold putNew
  split
  · rfl
  · exact hr

theorem crit_pairs (h : Sh K) (i : Nat) (op : Op K V) : (critStep h i op).2.pairs = [] := by
  unfold critStep
  simp only
  repeat' split
  all_goals first
    | rfl
    | rw [miss_pairs]; rfl
    | exact putNew_pairs _ _ _ _ rfl

theorem ent_pairs (h : Sh K) (op : Op K V) (e : Nat) (lk : Lk) : (entStep eqv prog h op e lk).2.pairs = [] := by
  unfold entStep
  simp only
  repeat' split
  all_goals first
    | rfl
    | rw [after_pairs]; rfl

theorem cas_pairs (h : Sh K) (i : Nat) (op : Op K V) (e : Nat) (lk : Lk) (p : Ptr) : (casStep prog h i op e lk p).2.pairs = [] := by
  unfold casStep
  repeat' split
  all_goals first
    | rfl
    | rw [after_pairs]; rfl

theorem unexp_pairs (h : Sh K) (op : Op K V) (e : Nat) : (unexpStep h op e).2.pairs = [] := by
  unfold unexpStep
  simp only
  repeat' split
  all_goals rfl

theorem swp_pairs (h : Sh K) (i e : Nat) : (swpStep prog h i e).2.pairs = [] := by
  unfold swpStep
  repeat' split
  all_goals rfl

theorem newRes_pairs (op : Op K V) : (newRes op).pairs = [] := by
  unfold newRes
  split <;> rfl

/-- A step of a call visits what it calls its function with. -/
theorem next_pairs {s s' : State K V} {i : Nat} {ord : List (K × Nat) → List (K × Nat)} {go : Bool}
    (h : next eqv prog ord go s i = some s') : (s'.pc i).pairs = (s.pc i).pairs ++ visitsOf i (event prog s i) := by
  simp only [next] at h
  cases hc : s.pc i with
  | rng es acc =>
    rw [hc] at h
    cases es with
    | nil => simp only [Option.some.injEq] at h; subst h; simp [event, hc, visitsOf, PC.pairs, Res.pairs]
    | cons x es =>
      obtain ⟨k, e⟩ := x
      simp only at h
      cases hv : deref prog (s.sh.ent e) with
      | none => simp only [hv, Option.some.injEq] at h; subst h; simp [event, hc, hv, visitsOf, PC.pairs]
      | some v =>
        simp only [hv] at h
        split at h <;> simp only [Option.some.injEq] at h <;> subst h <;> simp [event, hc, hv, visitsOf, PC.pairs, Res.pairs]
  | idle => simp only [hc, Option.some.injEq] at h; subst h; simp [event, hc, visitsOf, PC.pairs]
  | start => simp only [hc, Option.some.injEq] at h; subst h; simp [event, hc, visitsOf, start_pairs]; rfl
  | crit => simp only [hc, Option.some.injEq] at h; subst h; simp [event, hc, visitsOf, crit_pairs]; rfl
  | ent e lk => simp only [hc, Option.some.injEq] at h; subst h; simp [event, hc, visitsOf, ent_pairs]; rfl
  | cas e lk p => simp only [hc, Option.some.injEq] at h; subst h; simp [event, hc, visitsOf, cas_pairs]; rfl
  | unexp e => simp only [hc, Option.some.injEq] at h; subst h; simp [event, hc, visitsOf, unexp_pairs]; rfl
  | swp e => simp only [hc, Option.some.injEq] at h; subst h; simp [event, hc, visitsOf, swp_pairs]; rfl
  | unl nx =>
    cases nx <;> simp only [hc, Option.some.injEq] at h <;> subst h
    · simp [event, hc, visitsOf, PC.pairs]
    · simp [event, hc, visitsOf, PC.pairs]
    · simp [event, hc, visitsOf, finish_pairs]; rfl
  | promo nx => cases nx <;> simp only [hc, Option.some.injEq] at h <;> subst h <;> simp [event, hc, visitsOf, PC.pairs]
  | amend rm =>
    simp only [hc] at h
    split at h <;> simp only [Option.some.injEq] at h <;> subst h
    · simp [event, hc, visitsOf, PC.pairs]
    · simp only [goto_pc_self]
      rw [putNew_pairs _ _ _ _ (newRes_pairs _)]
      simp [event, hc, visitsOf, PC.pairs]
  | done r => rw [hc] at h; cases h
  | panic => rw [hc] at h; cases h
  | fin r => simp only [hc, Option.some.injEq] at h; subst h; simp [event, hc, visitsOf, PC.pairs]
  | _ =>
    all_goals
      simp only [hc] at h
      repeat' split at h
      all_goals first
        | cases h; done
        | (simp only [Option.some.injEq] at h; subst h; simp_all [event, visitsOf, PC.pairs, Res.pairs])

theorem exec_visits {h : List (Ev K V)} {s : State K V} (hx : Exec eqv prog h s) (i : Nat) :
    visitsOf i h = (s.pc i).pairs := by
  induction hx with
  | init => rfl
  | @step h s evs s' hx hs ih =>
    obtain ⟨j, ord, go, _, hn, rfl⟩ := hs
    rw [visitsOf_append, ih]
    by_cases hj : i = j
    · subst hj; exact (next_pairs hn).symm
    · have : visitsOf i (event prog s j) = [] := by
        rcases event_cases (prog := prog) s j with ⟨_, h⟩ | ⟨r, _, h⟩ | ⟨k, _, _, _, v, _, _, h⟩ | h <;> rw [h] <;>
          simp [visitsOf, Ne.symm hj]
      rw [this, List.append_nil, next_other hn hj]

/-- Range calls its function at most once for each key. -/
theorem exec_visits_nodup {h : List (Ev K V)} {s : State K V} (hx : Exec eqv prog h s) (i : Nat) :
    ((visitsOf i h).map Prod.fst).Nodup := by
  by_cases hv : visitsOf i h = []
  · simp [hv]
  obtain ⟨g, I, hg⟩ := exec_inv hx
  have hop : prog i = .range := by
    obtain ⟨⟨k, v⟩, hkv⟩ := List.exists_mem_of_ne_nil _ hv
    have : .visit i k v ∈ hist g.L := by
      rw [hg]
      obtain ⟨x, hx, hxe⟩ := List.mem_filterMap.1 hkv
      cases x <;> simp only [Option.ite_none_right_eq_some, Option.some.injEq, Prod.mk.injEq, reduceCtorEq] at hxe
      obtain ⟨rfl, rfl, rfl⟩ := hxe
      exact hx
    obtain ⟨x, hx, hxe⟩ := List.mem_filterMap.1 this
    cases x <;> simp [TE.ev?] at hxe
    obtain ⟨rfl, rfl, rfl⟩ := hxe
    exact I.visit_range hx
  have ht := I.tl.tl i
  rw [opTL_range hop] at ht
  have hO := I.ops i
  rw [exec_visits hx] at hv ⊢
  cases hc : s.pc i with
  | rng es acc => rw [hc] at ht; obtain ⟨_, _, R⟩ := ht; exact R.nodup
  | fin r => rw [hc] at ht; obtain ⟨_, _, _, _, rfl, _, R, _⟩ := ht; exact R.nodup
  | done r => rw [hc] at ht; obtain ⟨_, _, _, _, rfl, _, R, _⟩ := ht; exact R.nodup
  | add d r => rw [hc] at ht; exact ht.elim
  | unl nx =>
    simp only [OpOk, hc] at hO
    cases nx with
    | res r => exact absurd hop hO
    | _ => simp [PC.pairs]
  | promo nx =>
    simp only [OpOk, hc] at hO
    cases nx with
    | res r => exact absurd hop hO.2.1
    | _ => simp [PC.pairs]
  | _ => simp [PC.pairs]

/-- What Range returns is what it called its function with. -/
theorem exec_visits_ret {h : List (Ev K V)} {s : State K V} (hx : Exec eqv prog h s) {i : Nat} {es : List (K × V)} {b : Bool}
    (hr : .ret i (.visited es b) ∈ h) : visitsOf i h = es := by
  rw [exec_visits hx, ((exec_book hx).ret i _).1 hr]
  rfl
end Verif.RWMap
