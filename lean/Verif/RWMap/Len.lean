import Verif.RWMap.Lin
import Verif.RWMap.Progress
/-!
# The counter
-/
namespace Verif.RWMap
variable {K V : Type} [DecidableEq K] [Inhabited V]
variable {eqv : V → V → Option Bool} {prog : Nat → Op K V}

/-- By how much a call with result `r` changes the number of keys. -/
def delta (op : Op K V) (r : Res K V) : Int :=
  match finish op r with
  | .add d _ => d
  | _ => 0

theorem card_empty : (AMap.empty : AMap K V).Card 0 := ⟨[], by simp, by simp [AMap.empty], rfl⟩

theorem card_unique {A : AMap K V} {m n : Nat} (h : A.Card m) (h' : A.Card n) : m = n := by
  obtain ⟨k1, n1, m1, rfl⟩ := h
  obtain ⟨k2, n2, m2, rfl⟩ := h'
  exact ((List.perm_ext_iff_of_nodup n1 n2).2 (fun k => by rw [m1, m2])).length_eq

theorem card_set_some {A : AMap K V} {n : Nat} (h : A.Card n) (k : K) (v : V) :
    (A.set k (some v)).Card (if A k = none then n + 1 else n) := by
  obtain ⟨ks, h1, h2, rfl⟩ := h
  by_cases hk : A k = none
  · refine ⟨k :: ks, ?_, ?_, ?_⟩
    · simp [h1, h2, hk]
    · intro x
      simp only [List.mem_cons, h2, AMap.set]
      by_cases hx : x = k <;> simp [hx]
    · simp [hk]
  · refine ⟨ks, h1, ?_, ?_⟩
    · intro x
      simp only [h2, AMap.set]
      by_cases hx : x = k <;> simp [hx, hk]
    · simp [hk]

theorem card_set_none {A : AMap K V} {n : Nat} (h : A.Card n) (k : K) :
    ∃ m : Nat, (A.set k none).Card m ∧ (m : Int) = if A k = none then (n : Int) else n - 1 := by
  obtain ⟨ks, h1, h2, rfl⟩ := h
  refine ⟨_, ⟨ks.erase k, h1.erase k, ?_, rfl⟩, ?_⟩
  · intro x
    rw [h1.mem_erase_iff, h2]
    by_cases hx : x = k <;> simp [AMap.set, hx]
  · rw [List.length_erase]
    by_cases hk : A k = none
    · have : k ∉ ks := fun h => (h2 k).1 h hk
      simp [hk, this]
    · have : k ∈ ks := (h2 k).2 hk
      have := List.length_pos_of_mem this
      simp [hk]
      split <;> simp_all
      omega

/-- The size after a call that is not `Clear`. -/
theorem card_apply {A : AMap K V} {n : Nat} (h : A.Card n) (op : Op K V) (hop : op ≠ .clear) :
    ∃ m : Nat, (apply eqv op A).1.Card m ∧ (m : Int) = n + delta op (apply eqv op A).2 := by
  have hsome : ∀ {k v w}, A k = some w → (A.set k (some v)).Card n := by
    intro k v w hk
    have := card_set_some h k v
    rwa [hk, if_neg (by simp)] at this
  have hnone : ∀ {k v}, A k = none → (A.set k (some v)).Card (n + 1) := by
    intro k v hk
    have := card_set_some h k v
    rwa [hk, if_pos rfl] at this
  cases op with
  | load k => exact ⟨n, h, by cases hk : A k <;> simp [apply, delta, finish]⟩
  | swap k v =>
    cases hk : A k with
    | none => exact ⟨_, hnone hk, by simp [apply, delta, finish, hk]⟩
    | some w => exact ⟨_, hsome hk, by simp [apply, delta, finish, hk]⟩
  | loadOrStore k v =>
    cases hk : A k with
    | none =>
      simp only [apply, hk]
      exact ⟨_, hnone hk, by simp [delta, finish]⟩
    | some w =>
      simp only [apply, hk]
      exact ⟨_, h, by simp [delta, finish]⟩
  | loadAndDelete k =>
    obtain ⟨m, hm, e⟩ := card_set_none h k
    refine ⟨m, hm, ?_⟩
    rw [e]
    cases hk : A k with
    | none => simp [apply, delta, finish, hk]
    | some w => simp [apply, delta, finish, hk]; omega
  | compareAndSwap k o w =>
    cases hk : A k with
    | none => exact ⟨n, by simpa [apply, hk] using h, by simp [apply, delta, finish]⟩
    | some u =>
      simp only [apply, hk]
      split
      · exact ⟨n, hsome hk, by simp [delta, finish]⟩
      · exact ⟨n, h, by simp [delta, finish]⟩
      · exact ⟨n, h, by simp [delta, finish]⟩
  | compareAndDelete k o =>
    cases hk : A k with
    | none => exact ⟨n, by simpa [apply, hk] using h, by simp [apply, delta, finish, hk]⟩
    | some u =>
      simp only [apply, hk]
      split
      · obtain ⟨m, hm, e⟩ := card_set_none h k
        refine ⟨m, hm, ?_⟩
        rw [e, hk]
        simp [delta, finish]; omega
      · exact ⟨n, h, by simp [delta, finish]⟩
      · exact ⟨n, h, by simp [delta, finish]⟩
  | clear => exact absurd rfl hop
  | range => exact ⟨n, h, by simp [apply, delta, finish]⟩
  | len => exact ⟨n, h, by simp [apply, delta, finish]⟩

/-- The effects in a timeline. -/
def lins (L : List (TE K V)) : List (Nat × Res K V) :=
  L.filterMap (fun x => match x with | .lin i r => some (i, r) | _ => none)

theorem mem_lins {L : List (TE K V)} {i : Nat} {r : Res K V} : (i, r) ∈ lins L ↔ .lin i r ∈ L := by
  simp only [lins, List.mem_filterMap]
  constructor
  · rintro ⟨x, hx, h⟩; cases x <;> simp_all
  · intro h; exact ⟨_, h, rfl⟩

/-- The number of keys after a timeline without `Clear`. -/
theorem card_run {L : List (TE K V)} : ∀ {A : AMap K V} {n : Nat}, A.Card n →
    Legal eqv prog L A → (∀ i r, .lin i r ∈ L → prog i ≠ .clear) →
    ∃ m : Nat, (run eqv prog L A).Card m ∧
      (m : Int) = n + ((lins L).map (fun x => delta (prog x.1) x.2)).sum := by
  induction L with
  | nil => intro A n h _ _; exact ⟨n, h, by simp [lins]⟩
  | cons x L ih =>
    intro A n h hl hc
    have hc' : ∀ i r, TE.lin i r ∈ L → prog i ≠ .clear := fun i r h => hc i r (by simp [h])
    cases x with
    | lin i r =>
      obtain ⟨m, hm, e⟩ := card_apply (eqv := eqv) h (prog i) (hc i r (by simp))
      obtain ⟨m', hm', e'⟩ := ih hm hl.2 hc'
      refine ⟨m', hm', ?_⟩
      have : (apply eqv (prog i) A).2 = r := hl.1
      rw [e', e, this]
      simp [lins, List.filterMap_cons]
      omega
    | _ =>
      obtain ⟨m', hm', e'⟩ := ih h hl.2 hc'
      exact ⟨m', hm', by rw [e']; simp [lins, List.filterMap_cons]⟩

theorem perm_sum {l m : List Int} (h : l.Perm m) : l.sum = m.sum := by
  induction h with
  | nil => rfl
  | cons _ _ ih => simp [ih]
  | swap _ _ _ => simp; omega
  | trans _ _ ih1 ih2 => rw [ih1, ih2]

/-- Sums over two lists that agree where it matters. -/
theorem sum_eq {f : Nat → Int} : ∀ {D E : List Nat}, D.Nodup → E.Nodup →
    (∀ i, f i ≠ 0 → (i ∈ D ↔ i ∈ E)) → (D.map f).sum = (E.map f).sum := by
  intro D E hD hE h
  have key : ∀ X : List Nat, (X.map f).sum = ((X.filter (fun i => f i ≠ 0)).map f).sum := by
    intro X
    induction X with
    | nil => rfl
    | cons a X ih =>
      simp only [List.map_cons, List.sum_cons, List.filter_cons, ih]
      by_cases ha : f a = 0 <;> simp [ha]
  rw [key D, key E]
  refine perm_sum (List.Perm.map f ?_)
  refine (List.perm_ext_iff_of_nodup (hD.filter _) (hE.filter _)).2 ?_
  intro i
  simp only [List.mem_filter, decide_eq_true_eq]
  constructor
  · rintro ⟨h1, h2⟩; exact ⟨(h i h2).1 h1, h2⟩
  · rintro ⟨h1, h2⟩; exact ⟨(h i h2).2 h1, h2⟩

/-- What call `i` has contributed to the counter. -/
def cd (op : Op K V) (c : PC K V) : Int :=
  match c with
  | .fin r | .done r => delta op r
  | _ => 0

theorem cd_finish (op : Op K V) (r : Res K V) : cd op (finish op r) = 0 := by
  unfold finish
  split <;> simp [cd, delta]
  all_goals first | rfl | (unfold finish; split <;> simp_all)

theorem finish_add {op : Op K V} {r r' : Res K V} {d : Int} (h : finish op r = .add d r') :
    r' = r ∧ d = delta op r ∧ op.isMap = true ∧ op ≠ .clear := by
  have hd : d = delta op r := by simp [delta, h]
  refine ⟨?_, hd, ?_, ?_⟩
  all_goals
    unfold finish at h
    split at h <;> simp_all [Op.isMap]

theorem finish_ne_done {op : Op K V} {r r' : Res K V} : finish op r ≠ .done r' := by
  unfold finish; split <;> simp

/-- A step other than the update of the counter. -/
def Neutral (op : Op K V) (h h' : Sh K) (c' : PC K V) : Prop :=
  h'.len = h.len ∧ cd op c' = 0 ∧ ∀ d r, c' = .add d r → finish op r = .add d r

theorem neutral_finish (op : Op K V) (h : Sh K) (r : Res K V) : Neutral op h h (finish op r) := by
  refine ⟨rfl, cd_finish op r, ?_⟩
  intro d r' he
  rw [(finish_add he).1]
  rw [(finish_add he).1] at he; exact he

theorem neutral_after {op : Op K V} {h h' : Sh K} (hl : h'.len = h.len) (lk : Lk) (r : Res K V) :
    Neutral op h (after h' op lk r).1 (after h' op lk r).2 := by
  cases lk with
  | u => have := neutral_finish op h' r; exact ⟨hl, this.2⟩
  | l => exact ⟨hl, rfl, by simp [after]⟩
  | lm => simp only [after, missLocked]; split <;> exact ⟨hl, rfl, by simp⟩

theorem neutral_ent (op : Op K V) (h : Sh K) (e : Nat) (lk : Lk) :
    Neutral op h (entStep eqv prog h op e lk).1 (entStep eqv prog h op e lk).2 := by
  unfold entStep
  simp only
  repeat' split
  all_goals first | exact neutral_after rfl _ _ | exact ⟨rfl, rfl, by simp⟩

theorem neutral_cas (op : Op K V) (h : Sh K) (i e : Nat) (lk : Lk) (p : Ptr) :
    Neutral op h (casStep prog h i op e lk p).1 (casStep prog h i op e lk p).2 := by
  unfold casStep
  repeat' split
  all_goals first | exact neutral_after rfl _ _ | exact ⟨rfl, rfl, by simp⟩

theorem neutral_crit (op : Op K V) (h : Sh K) (i : Nat) :
    Neutral op h (critStep h i op).1 (critStep h i op).2 := by
  simp only [critStep, missLocked, putNew]
  repeat' split
  all_goals exact ⟨rfl, rfl, by simp⟩

theorem neutral_unexp (op : Op K V) (h : Sh K) (e : Nat) :
    Neutral op h (unexpStep h op e).1 (unexpStep h op e).2 := by
  simp only [unexpStep]
  repeat' split
  all_goals exact ⟨rfl, rfl, by simp⟩

theorem neutral_swp (op : Op K V) (h : Sh K) (i e : Nat) :
    Neutral op h (swpStep prog h i e).1 (swpStep prog h i e).2 := by
  simp only [swpStep]
  repeat' split
  all_goals exact ⟨rfl, rfl, by simp⟩

theorem neutral_start (op : Op K V) (h : Sh K) (ord : List (K × Nat) → List (K × Nat)) :
    Neutral op h h (startStep ord h op) := by
  simp only [startStep]
  repeat' split
  all_goals exact ⟨rfl, rfl, by simp⟩

/-- What a step does to the counter. -/
theorem next_neutral {s s' : State K V} {i : Nat} {ord : List (K × Nat) → List (K × Nat)} {go : Bool}
    (h : next eqv prog ord go s i = some s') (h1 : s.pc i ≠ .zero) (h2 : ∀ d r, s.pc i ≠ .add d r)
    (h3 : ∀ r, s.pc i ≠ .fin r) : Neutral (prog i) s.sh s'.sh (s'.pc i) := by
  simp only [next] at h
  cases hc : s.pc i with
  | zero => exact absurd hc h1
  | add d r => exact absurd hc (h2 d r)
  | fin r => exact absurd hc (h3 r)
  | done r => rw [hc] at h; cases h
  | panic => rw [hc] at h; cases h
  | start => simp only [hc, Option.some.injEq] at h; subst h; simp only [goto_pc_self, goto_sh]; exact neutral_start _ _ _
  | crit => simp only [hc, Option.some.injEq] at h; subst h; simp only [goto_pc_self, goto_sh]; exact neutral_crit _ _ _
  | ent e lk => simp only [hc, Option.some.injEq] at h; subst h; simp only [goto_pc_self, goto_sh]; exact neutral_ent _ _ _ _
  | cas e lk p => simp only [hc, Option.some.injEq] at h; subst h; simp only [goto_pc_self, goto_sh]; exact neutral_cas _ _ _ _ _ _
  | unexp e => simp only [hc, Option.some.injEq] at h; subst h; simp only [goto_pc_self, goto_sh]; exact neutral_unexp _ _ _
  | swp e => simp only [hc, Option.some.injEq] at h; subst h; simp only [goto_pc_self, goto_sh]; exact neutral_swp _ _ _ _
  | unl nx =>
    cases nx with
    | res r =>
      simp only [hc, Option.some.injEq] at h; subst h; simp only [goto_pc_self, goto_sh]
      have := neutral_finish (prog i) s.sh r
      exact ⟨rfl, this.2⟩
    | _ => simp only [hc, Option.some.injEq] at h; subst h; simp only [goto_pc_self, goto_sh]; exact ⟨rfl, rfl, by simp⟩
  | rng es acc =>
    rw [hc] at h
    cases es with
    | nil => simp only [Option.some.injEq] at h; subst h; simp only [goto_pc_self, goto_sh]
             refine ⟨rfl, ?_, by simp⟩
             simp only [cd, delta]; cases prog i <;> rfl
    | cons x es =>
      simp only at h
      repeat' split at h
      all_goals
        simp only [Option.some.injEq] at h; subst h; simp only [goto_pc_self, goto_sh]
        refine ⟨rfl, ?_, by simp⟩
        simp only [cd, delta]; try (cases prog i <;> rfl)
  | copy es rm =>
    cases es with
    | nil => 
      simp only [hc] at h
      skip
      all_goals first
        | cases h; done
        | (simp only [Option.some.injEq] at h; subst h; simp only [goto_pc_self, goto_sh, dirtyPut]
           exact ⟨rfl, rfl, by simp⟩)
    | cons x es => 
      simp only [hc] at h
      repeat' split at h
      all_goals first
        | cases h; done
        | (simp only [Option.some.injEq] at h; subst h; simp only [goto_pc_self, goto_sh, dirtyPut]
           exact ⟨rfl, rfl, by simp⟩)
  | expunge es rm =>
    cases es with
    | nil => 
      simp only [hc] at h
      skip
      all_goals first
        | cases h; done
        | (simp only [Option.some.injEq] at h; subst h; simp only [goto_pc_self, goto_sh, dirtyPut]
           exact ⟨rfl, rfl, by simp⟩)
    | cons x es => 
      simp only [hc] at h
      repeat' split at h
      all_goals first
        | cases h; done
        | (simp only [Option.some.injEq] at h; subst h; simp only [goto_pc_self, goto_sh, dirtyPut]
           exact ⟨rfl, rfl, by simp⟩)
  | _ =>
    simp only [hc] at h
    repeat' split at h
    all_goals first
      | cases h; done
      | (simp only [Option.some.injEq] at h; subst h; simp only [goto_pc_self, goto_sh, putNew, dirtyPut]
         first
         | exact ⟨rfl, rfl, by simp⟩
         | (split <;> exact ⟨rfl, rfl, by simp⟩))

/-- Deferred updates are the right ones; the history determines which calls are in progress. -/
structure Book (prog : Nat → Op K V) (h : List (Ev K V)) (s : State K V) : Prop where
  add : ∀ i d r, s.pc i = .add d r → finish (prog i) r = .add d r
  inv : ∀ i, .inv i ∈ h ↔ s.pc i ≠ .idle
  ret : ∀ i r, .ret i r ∈ h ↔ s.pc i = .done r

theorem next_done {s s' : State K V} {i : Nat} {ord : List (K × Nat) → List (K × Nat)} {go : Bool}
    (h : next eqv prog ord go s i = some s') {r : Res K V} (hd : s'.pc i = .done r) :
    s.pc i = .fin r := by
  by_contra hn
  simp only [next] at h
  have hf : ∀ (op : Op K V) r r', finish op r ≠ .done r' := fun _ _ _ => finish_ne_done
  have haf : ∀ (h : Sh K) (op : Op K V) lk r r', (after h op lk r).2 ≠ .done r' := by
    intro h op lk r r'
    cases lk with
    | u => exact hf _ _ _
    | l => simp [after]
    | lm => simp only [after, missLocked]; split <;> simp
  cases hc : s.pc i with
  | fin r' =>
    simp only [hc, Option.some.injEq] at h; subst h
    simp at hd; subst hd; exact hn hc
  | done r => rw [hc] at h; cases h
  | panic => rw [hc] at h; cases h
  | start =>
    simp only [hc, Option.some.injEq] at h; subst h; simp only [goto_pc_self] at hd
    revert hd
    simp only [startStep]
    repeat' split
    all_goals simp
  | crit =>
    simp only [hc, Option.some.injEq] at h; subst h; simp only [goto_pc_self] at hd
    revert hd
    simp only [critStep, missLocked, putNew]
    repeat' split
    all_goals simp
  | ent e lk =>
    simp only [hc, Option.some.injEq] at h; subst h; simp only [goto_pc_self] at hd
    revert hd
    simp only [entStep]
    repeat' split
    all_goals first | exact fun h => haf _ _ _ _ _ h | simp
  | cas e lk p =>
    simp only [hc, Option.some.injEq] at h; subst h; simp only [goto_pc_self] at hd
    revert hd
    simp only [casStep]
    repeat' split
    all_goals first | exact fun h => haf _ _ _ _ _ h | simp
  | unexp e =>
    simp only [hc, Option.some.injEq] at h; subst h; simp only [goto_pc_self] at hd
    revert hd
    simp only [unexpStep]
    repeat' split
    all_goals simp
  | swp e =>
    simp only [hc, Option.some.injEq] at h; subst h; simp only [goto_pc_self] at hd
    revert hd
    simp only [swpStep]
    repeat' split
    all_goals simp
  | unl nx =>
    cases nx with
    | res r =>
      simp only [hc, Option.some.injEq] at h; subst h; simp only [goto_pc_self] at hd
      exact hf _ _ _ hd
    | _ => simp only [hc, Option.some.injEq] at h; subst h; simp at hd
  | copy es rm =>
    cases es with
    | nil => 
      simp only [hc] at h
      skip
      all_goals first
        | cases h; done
        | (simp only [Option.some.injEq] at h; subst h; simp at hd)
    | cons x es => 
      simp only [hc] at h
      repeat' split at h
      all_goals first
        | cases h; done
        | (simp only [Option.some.injEq] at h; subst h; simp at hd)
  | expunge es rm =>
    cases es with
    | nil => 
      simp only [hc] at h
      skip
      all_goals first
        | cases h; done
        | (simp only [Option.some.injEq] at h; subst h; simp at hd)
    | cons x es => 
      simp only [hc] at h
      repeat' split at h
      all_goals first
        | cases h; done
        | (simp only [Option.some.injEq] at h; subst h; simp at hd)
  | rng es acc =>
    cases es with
    | nil => 
      simp only [hc] at h
      skip
      all_goals first
        | cases h; done
        | (simp only [Option.some.injEq] at h; subst h; simp at hd)
    | cons x es => 
      simp only [hc] at h
      repeat' split at h
      all_goals first
        | cases h; done
        | (simp only [Option.some.injEq] at h; subst h; simp at hd)
  | _ =>
    simp only [hc] at h
    repeat' split at h
    all_goals first
      | cases h; done
      | (simp only [Option.some.injEq] at h; subst h; simp only [goto_pc_self, putNew] at hd
         first
         | (simp at hd; done)
         | (revert hd; split <;> simp))

theorem exec_book {h : List (Ev K V)} {s : State K V} (hx : Exec eqv prog h s) : Book prog h s := by
  induction hx with
  | init => exact ⟨by simp [State.init], by simp [State.init], by simp [State.init]⟩
  | @step h s evs s' hx hs ih =>
    obtain ⟨g, I, _⟩ := exec_inv hx
    obtain ⟨i, ord, go, hord, hn, rfl⟩ := hs
    have hoth : ∀ j, j ≠ i → s'.pc j = s.pc j := fun j hj => next_other hn hj
    have hid : s'.pc i ≠ .idle := by
      by_cases hi : s.pc i = .idle
      · simp only [next, hi, Option.some.injEq] at hn
        subst hn; simp
      · exact next_ne_idle I hord hn hi
    refine ⟨?_, ?_, ?_⟩
    · intro j d r hj
      by_cases hji : j = i
      · subst hji
        by_cases h1 : s.pc j = .zero
        · simp only [next, h1, Option.some.injEq] at hn; subst hn; simp at hj
        by_cases h2 : ∃ d r, s.pc j = .add d r
        · obtain ⟨d', r', h2⟩ := h2
          simp only [next, h2, Option.some.injEq] at hn; subst hn; simp at hj
        by_cases h3 : ∃ r, s.pc j = .fin r
        · obtain ⟨r', h3⟩ := h3
          simp only [next, h3, Option.some.injEq] at hn; subst hn; simp at hj
        exact (next_neutral hn h1 (fun d r h => h2 ⟨d, r, h⟩) (fun r h => h3 ⟨r, h⟩)).2.2 d r hj
      · rw [hoth j hji] at hj; exact ih.add j d r hj
    · intro j
      simp only [List.mem_append, ih.inv]
      by_cases hji : j = i
      · subst hji
        simp only [hid, ne_eq, not_false_eq_true, iff_true]
        by_cases hi : s.pc j = .idle
        · exact Or.inr (by simp [event, hi])
        · exact Or.inl hi
      · rw [hoth j hji]
        have : Ev.inv j ∉ event prog s i := fun h => hji (mem_event_inv h).1
        simp [this]
    · intro j r
      simp only [List.mem_append, ih.ret]
      by_cases hji : j = i
      · subst hji
        constructor
        · rintro (h | h)
          · simp [next, h] at hn
          · have hfin := (mem_event_ret h).2
            simp only [next, hfin, Option.some.injEq] at hn; subst hn; simp
        · intro h
          have := next_done hn h
          exact Or.inr (by simp [event, this])
      · rw [hoth j hji]
        have : Ev.ret j r ∉ event prog s i := fun h => hji (mem_event_ret h).1
        simp [this]

/-- A call is invoked once, before it returns. -/
def Once (h : List (Ev K V)) : Prop :=
  ∀ a i b, h = a ++ .inv i :: b → .inv i ∉ a ∧ ∀ r, .ret i r ∉ a

theorem exec_once {h : List (Ev K V)} {s : State K V} (hx : Exec eqv prog h s) : Once h := by
  induction hx with
  | init => intro a i b h; simp at h
  | @step h s evs s' hx hs ih =>
    intro a i b he
    have B := exec_book hx
    obtain ⟨j, ord, go, _, _, rfl⟩ := hs
    rcases event_cases (prog := prog) s j with ⟨hj, hev⟩ | ⟨r, hj, hev⟩ | ⟨_, _, _, _, _, _, _, hev⟩ | hev <;> rw [hev] at he
    · rcases List.eq_nil_or_concat b with rfl | ⟨b', x, rfl⟩
      · have := List.append_inj' he rfl
        obtain ⟨rfl, h2⟩ := this
        simp at h2
        subst h2
        exact ⟨fun h => (B.inv j).1 h hj, fun r h => by rw [(B.ret j r).1 h] at hj; cases hj⟩
      · rw [List.concat_eq_append, ← List.cons_append, ← List.append_assoc] at he
        exact ih a i b' (List.append_inj' he rfl).1
    iterate 2
      · rcases List.eq_nil_or_concat b with rfl | ⟨b', x, rfl⟩
        · have := List.append_inj' he rfl
          simp at this
        · rw [List.concat_eq_append, ← List.cons_append, ← List.append_assoc] at he
          exact ih a i b' (List.append_inj' he rfl).1
    · exact ih a i b (by simpa using he)

/-- A `Clear` that has not reset the counter yet. -/
def preClear : PC K V → Bool
  | .start | .acq | .crit | .wipe | .zero => true
  | _ => false

/-- A `Clear` that has. -/
def postClear : PC K V → Bool
  | .unl (.res _) | .fin _ | .done _ => true
  | _ => false

/-- `h1` is the history when the last `Clear` reset the counter; the counter is what later calls
contributed. -/
structure Count (prog : Nat → Op K V) (s : State K V) (h1 h2 : List (Ev K V)) (D : List Nat) :
    Prop where
  pt : h1 = [] ∨ ∃ c, prog c = .clear ∧ .inv c ∈ h1 ∧ (∀ r, .ret c r ∉ h1) ∧ postClear (s.pc c)
  nodup : D.Nodup
  mem : ∀ i ∈ D, .inv i ∈ h2
  sum : s.sh.len = (D.map (fun i => cd (prog i) (s.pc i))).sum
  cover : ∀ i, .inv i ∈ h2 → i ∉ D → cd (prog i) (s.pc i) = 0
  old : ∀ i, (prog i).isMap = true → prog i ≠ .clear → .inv i ∈ h1 → ∃ r, s.pc i = .done r
  new : ∀ c, prog c = .clear → .inv c ∈ h2 → preClear (s.pc c)

/-- No call is in the middle of changing the map. -/
def Settled (prog : Nat → Op K V) (s : State K V) : Prop :=
  ∀ i, (prog i).isMap = true → s.pc i = .idle ∨ s.pc i = .start ∨ ∃ r, s.pc i = .done r

theorem hist_split {L : List (TE K V)} {h1 h2 : List (Ev K V)} {e : Ev K V} {x : TE K V}
    (hx : ∀ y : TE K V, y.ev? = some e → y = x) (h : hist L = h1 ++ e :: h2) :
    ∃ L1 L2, L = L1 ++ x :: L2 ∧ hist L1 = h1 ∧ hist L2 = h2 := by
  obtain ⟨l1, l2, rfl, e1, e2⟩ := List.filterMap_eq_append_iff.1 h
  obtain ⟨m1, b, m2, rfl, hm1, hb, hm2⟩ := List.filterMap_eq_cons_iff.1 e2
  rw [hx b hb]
  refine ⟨l1 ++ m1, m2, by simp, ?_, hm2⟩
  rw [hist_append]
  have : hist m1 = [] := by rw [hist, List.filterMap_eq_nil_iff]; exact hm1
  rw [this, List.append_nil]; exact e1

theorem mem_hist_inv {L : List (TE K V)} {i : Nat} : .inv i ∈ hist L ↔ .inv i ∈ L := by
  simp only [hist, List.mem_filterMap]
  constructor
  · rintro ⟨x, hx, h⟩; cases x <;> simp_all [TE.ev?]
  · intro h; exact ⟨_, h, rfl⟩

theorem mem_hist_ret {L : List (TE K V)} {i : Nat} {r : Res K V} :
    .ret i r ∈ hist L ↔ .ret i r ∈ L := by
  simp only [hist, List.mem_filterMap]
  constructor
  · rintro ⟨x, hx, h⟩; cases x <;> simp_all [TE.ev?]
  · intro h; exact ⟨_, h, rfl⟩

theorem run_no_lin {L : List (TE K V)} (h : ∀ i r, .lin i r ∉ L) (A : AMap K V) :
    run eqv prog L A = A := by
  induction L generalizing A with
  | nil => rfl
  | cons x L ih =>
    have h' : ∀ i r, TE.lin i r ∉ L := fun i r hx => h i r (by simp [hx])
    cases x with
    | lin i r => exact absurd (by simp) (h i r)
    | _ => exact ih h' A

/-- A call that returned in the first part of a timeline has no effect in the second. -/
theorem Inv.no_later {s : State K V} {g : Ghost K V} (I : Inv eqv prog s g) {L1 L2 : List (TE K V)}
    (hL : g.L = L1 ++ L2) {i : Nat} {r r' : Res K V} (hr : .ret i r ∈ L1) : .lin i r' ∉ L2 := by
  intro hl
  have hm := I.lin_isMap (show TE.lin i r' ∈ g.L by rw [hL]; simp [hl])
  have h1 : TE.ret i r ∈ proj i L1 := mem_proj.2 ⟨hr, rfl⟩
  have h2 : TE.lin i r' ∈ proj i L2 := mem_proj.2 ⟨hl, rfl⟩
  have hp := I.proj_cases i hm
  rw [hL, proj_append] at hp
  rcases hp with h | h | ⟨r0, h⟩ | ⟨r0, h⟩
  · have := congrArg (TE.ret i r ∈ ·) h; simp [h1] at this
  · have := congrArg (TE.ret i r ∈ ·) h; simp [h1] at this
  · have := congrArg (TE.ret i r ∈ ·) h; simp [h1] at this
  · generalize proj i L1 = P at h h1
    generalize proj i L2 = Q at h h2
    match P, h1, h with
    | [a], h1, h => simp at h h1; rw [h.1] at h1; cases h1
    | [a, b], h1, h =>
      simp at h h1
      rcases h1 with h1 | h1
      · rw [h.1] at h1; cases h1
      · rw [h.2.1] at h1; cases h1
    | a :: b :: c :: P, h1, h =>
      simp at h
      rw [h.2.2.2.2] at h2; cases h2

/-- At most one effect per call. -/
theorem Inv.lin_nodup {s : State K V} {g : Ghost K V} (I : Inv eqv prog s g) :
    ((lins g.L).map Prod.fst).Nodup := by
  have key : ∀ L : List (TE K V), (∀ i r, TE.lin i r ∈ L → (proj i L).length ≤ 3 ∧
      ∀ P r1 Q, proj i L = P ++ .lin i r1 :: Q → ∀ r2, TE.lin i r2 ∉ Q) →
      ((lins L).map Prod.fst).Nodup := by
    intro L
    induction L with
    | nil => intro _; simp [lins]
    | cons x L ih =>
      intro h
      have hL : ((lins L).map Prod.fst).Nodup := by
        refine ih ?_
        intro i r hr
        obtain ⟨h1, h2⟩ := h i r (by simp [hr])
        by_cases hx : x.owner = some i
        · rw [proj_cons_own hx] at h1 h2
          refine ⟨by simp at h1; omega, ?_⟩
          intro P r1 Q hp r2
          exact h2 (x :: P) r1 Q (by rw [hp]; rfl) r2
        · rw [proj_cons_other hx] at h1 h2
          exact ⟨h1, h2⟩
      cases x with
      | lin i r =>
        have : lins (.lin i r :: L) = (i, r) :: lins L := rfl
        rw [this]
        simp only [List.map_cons, List.nodup_cons]
        refine ⟨?_, hL⟩
        intro hm
        obtain ⟨⟨j, r'⟩, hm', rfl⟩ := List.mem_map.1 hm
        rw [mem_lins] at hm'
        have := (h j r (by simp)).2 [] r (proj j L) (by rw [proj_cons_own rfl]; rfl) r'
        exact this (mem_proj.2 ⟨hm', rfl⟩)
      | _ => exact hL
  refine key g.L ?_
  intro i r hr
  have hm := I.lin_isMap hr
  have h1 : TE.lin i r ∈ proj i g.L := mem_proj.2 ⟨hr, rfl⟩
  rcases I.proj_cases i hm with h | h | ⟨r0, h⟩ | ⟨r0, h⟩ <;> rw [h] at h1 ⊢
  · cases h1
  · simp at h1
  · refine ⟨by simp, ?_⟩
    intro P r1 Q hp
    match P, hp with
    | [], hp => simp at hp
    | [a], hp => simp at hp; rw [hp.2.2]; simp
    | a :: b :: P, hp => simp at hp
  · refine ⟨by simp, ?_⟩
    intro P r1 Q hp
    match P, hp with
    | [], hp => simp at hp
    | [a], hp => simp at hp; rw [← hp.2.2]; simp
    | [a, b], hp => simp at hp
    | a :: b :: c :: P, hp => simp at hp

/-- A call that is done took effect with its result. -/
theorem Inv.done_lin {s : State K V} {g : Ghost K V} (I : Inv eqv prog s g) {i : Nat} {r : Res K V}
    (hm : (prog i).isMap = true) (hd : s.pc i = .done r) :
    proj i g.L = [.inv i, .lin i r, .ret i r] := by
  rw [I.map_evs hd hm]; rfl

theorem delta_isMap {op : Op K V} {r : Res K V} (h : delta op r ≠ 0) :
    op.isMap = true ∧ op ≠ .clear := by
  cases op <;> simp_all [delta, finish, Op.isMap]

/-- Cut the timeline after the last `Clear`. -/
theorem Count.cut {s : State K V} {g : Ghost K V} {h1 h2 : List (Ev K V)} {D : List Nat}
    (I : Inv eqv prog s g) (B : Book prog (h1 ++ h2) s) (C : Count prog s h1 h2 D)
    (hon : Once (h1 ++ h2)) (hg : hist g.L = h1 ++ h2) (hal : ClearAlone prog (h1 ++ h2))
    (hs : ∀ c, prog c = .clear → s.pc c = .idle ∨ s.pc c = .start ∨ ∃ r, s.pc c = .done r) :
    ∃ L1 L2, g.L = L1 ++ L2 ∧ run eqv prog L1 AMap.empty = AMap.empty ∧
      (∀ i, .inv i ∈ L2 → .inv i ∈ h2) ∧
      (∀ i, .inv i ∈ h2 → (prog i).isMap = true → .inv i ∈ L2) ∧
      ∀ i r, .lin i r ∈ L2 → .inv i ∈ L2 := by
    rcases C.pt with hh | ⟨c, hc, hci, hcr, hcp⟩
    · subst hh
      refine ⟨[], g.L, rfl, rfl, ?_, ?_, ?_⟩
      · intro i hi
        have := mem_hist_inv.2 hi
        rwa [hg] at this
      · intro i hi _
        have : Ev.inv i ∈ hist g.L := by rw [hg]; exact hi
        exact mem_hist_inv.1 this
      · intro i r hr
        have hm := I.lin_isMap hr
        have : TE.lin i r ∈ proj i g.L := mem_proj.2 ⟨hr, rfl⟩
        rcases I.proj_cases i hm with h | h | ⟨r0, h⟩ | ⟨r0, h⟩ <;> rw [h] at this
        · cases this
        · simp at this
        · exact (mem_proj.1 (show TE.inv i ∈ proj i g.L by rw [h]; simp)).1
        · exact (mem_proj.1 (show TE.inv i ∈ proj i g.L by rw [h]; simp)).1
    · have hcm : (prog c).isMap = true := by rw [hc]; rfl
      obtain ⟨rc, hd⟩ : ∃ r, s.pc c = .done r := by
        rcases hs c hc with h | h | h
        · rw [h] at hcp; cases hcp
        · rw [h] at hcp; cases hcp
        · exact h
      have hret : Ev.ret c rc ∈ h2 := by
        have := (B.ret c rc).2 hd
        rw [List.mem_append] at this
        rcases this with h | h
        · exact absurd h (hcr rc)
        · exact h
      obtain ⟨h3, h4, rfl⟩ := List.append_of_mem hret
      obtain ⟨L1, L2, hL, e1, e2⟩ := hist_split (x := .ret c rc) (h1 := h1 ++ h3) (h2 := h4)
        (e := .ret c rc) (by intro y hy; cases y <;> simp_all [TE.ev?]) (by rw [hg]; simp)
      have hpc := I.done_lin hcm hd
      -- c is pending throughout h3
      have hproj1 : proj c L1 = [.inv c, .lin c rc] ∧ proj c L2 = [] := by
        rw [hL, proj_append, proj_cons_own (x := .ret c rc) rfl] at hpc
        generalize proj c L1 = P at hpc
        generalize proj c L2 = Q at hpc
        match P, hpc with
        | [], h => simp at h
        | [a], h => simp at h
        | [a, b], h => simp at h; simp [h]
        | a :: b :: d :: P, h => simp at h
      have hnoret : ∀ r, Ev.ret c r ∉ h1 ++ h3 := by
        intro r hr
        rw [← e1, mem_hist_ret] at hr
        have := mem_proj.2 ⟨hr, show (TE.ret (K := K) (V := V) c r).owner = some c from rfl⟩
        rw [hproj1.1] at this; simp at this
      -- calls invoked before c returns have returned before c is invoked
      have hcl : TE.lin c rc ∈ L1 := (mem_proj.1 (show _ ∈ proj c L1 by rw [hproj1.1]; simp)).1
      obtain ⟨La, Lb, rfl⟩ := List.append_of_mem hcl
      have hprojc : proj c La = [.inv c] ∧ proj c Lb = [] := by
        have h := hproj1.1
        rw [proj_append, proj_cons_own (x := .lin c rc) rfl] at h
        generalize proj c La = P at h
        generalize proj c Lb = Q at h
        match P, h with
        | [], h => simp at h
        | [a], h => simp at h; simp [h]
        | a :: b :: P, h => simp at h
      have hci' : TE.inv c ∈ La := (mem_proj.1 (show _ ∈ proj c La by rw [hprojc.1]; simp)).1
      have hpend : ∀ M1 M2 : List (TE K V), La ++ .lin c rc :: Lb = M1 ++ M2 → .inv c ∈ M1 →
          pendingIn (hist M1) c := by
        intro M1 M2 hM hi
        refine ⟨mem_hist_inv.2 hi, ?_⟩
        intro r hr
        refine hnoret r ?_
        rw [← e1, hM, hist_append]; simp [hr]
      have hret' : ∀ j, (prog j).isMap = true → j ≠ c → .inv j ∈ La ++ .lin c rc :: Lb →
          ∃ r, TE.ret j r ∈ La := by
        intro j hj hjc hji
        by_contra hno
        simp only [not_exists] at hno
        -- the prefix up to both invocations
        have hex : ∃ M1 M2, La ++ .lin c rc :: Lb = M1 ++ M2 ∧ .inv c ∈ M1 ∧ .inv j ∈ M1 ∧
            ∀ r, TE.ret j r ∉ M1 := by
          rw [List.mem_append] at hji
          rcases hji with hji | hji
          · exact ⟨La, .lin c rc :: Lb, rfl, hci', hji, hno⟩
          · simp only [List.mem_cons, reduceCtorEq, false_or] at hji
            obtain ⟨Lc, Ld, rfl⟩ := List.append_of_mem hji
            refine ⟨La ++ .lin c rc :: (Lc ++ [.inv j]), Ld, by simp, by simp [hci'], by simp, ?_⟩
            intro r hr
            have hpj : proj j g.L = proj j La ++ (proj j Lc ++ .inv j :: (proj j Ld ++ proj j (.ret c rc :: L2))) := by
              rw [hL]
              rw [proj_append, proj_append, proj_cons_other (x := .lin c rc) (by simp [TE.owner, Ne.symm hjc]),
                proj_append, proj_cons_own (x := .inv j) rfl]
              simp
            have hr' : TE.ret j r ∈ proj j La ++ proj j Lc := by
              simp only [List.mem_append, List.mem_cons, List.mem_singleton, reduceCtorEq, or_false,
                false_or, List.not_mem_nil] at hr
              rw [List.mem_append]
              rcases hr with hr | hr
              · exact Or.inl (mem_proj.2 ⟨hr, rfl⟩)
              · exact Or.inr (mem_proj.2 ⟨hr, rfl⟩)
            rw [← List.append_assoc] at hpj
            generalize proj j La ++ proj j Lc = P at hpj hr'
            rcases I.proj_cases j hj with h | h | ⟨r0, h⟩ | ⟨r0, h⟩ <;> rw [h] at hpj
            · simp at hpj
            · match P, hr', hpj with
              | a :: P, hr', hpj => simp at hpj
            · match P, hr', hpj with
              | [a], hr', hpj => simp at hpj
              | a :: b :: P, hr', hpj => simp at hpj
            · match P, hr', hpj with
              | [a], hr', hpj => simp at hpj
              | [a, b], hr', hpj => simp at hpj
              | a :: b :: d :: P, hr', hpj => simp at hpj
        obtain ⟨M1, M2, hM, m1, m2, m3⟩ := hex
        have hh : h1 ++ (h3 ++ Ev.ret c rc :: h4) = hist M1 ++ (hist M2 ++ Ev.ret c rc :: h4) := by
          rw [← List.append_assoc, ← e1, hM, hist_append, List.append_assoc]
        exact hal _ _ hh c j hc hj hjc (hpend M1 M2 hM m1)
          ⟨mem_hist_inv.2 m2, fun r hr => m3 r (mem_hist_ret.1 hr)⟩
      have hlinv : ∀ j r, TE.lin j r ∈ g.L → TE.inv j ∈ g.L := by
        intro j r hr
        have hm := I.lin_isMap hr
        have : TE.lin j r ∈ proj j g.L := mem_proj.2 ⟨hr, rfl⟩
        rcases I.proj_cases j hm with h | h | ⟨r0, h⟩ | ⟨r0, h⟩ <;> rw [h] at this
        · cases this
        · simp at this
        · exact (mem_proj.1 (show TE.inv j ∈ proj j g.L by rw [h]; simp)).1
        · exact (mem_proj.1 (show TE.inv j ∈ proj j g.L by rw [h]; simp)).1
      -- no effect between that of c and its return, or later by a call invoked earlier
      have hlater : ∀ j r, TE.lin j r ∈ Lb ++ .ret c rc :: L2 → j ≠ c ∧ TE.inv j ∉ La ++ .lin c rc :: Lb := by
        intro j r hr
        have hm := I.lin_isMap (show TE.lin j r ∈ g.L by rw [hL]; simp at hr ⊢; tauto)
        have hjc : j ≠ c := by
          rintro rfl
          have : TE.lin j r ∈ proj j Lb ++ proj j (.ret j rc :: L2) := by
            rw [← proj_append]; exact mem_proj.2 ⟨hr, rfl⟩
          rw [hprojc.2, proj_cons_own rfl, hproj1.2] at this
          simp at this
        refine ⟨hjc, fun hi => ?_⟩
        obtain ⟨r', hr'⟩ := hret' j hm hjc hi
        have hL' : g.L = (La ++ [.lin c rc]) ++ (Lb ++ .ret c rc :: L2) := by rw [hL]; simp
        exact I.no_later hL' (r := r') (by simp [hr']) hr
      have hinvL : ∀ j, TE.inv j ∈ La ++ .lin c rc :: Lb ↔ Ev.inv j ∈ h1 ++ h3 := by
        intro j; rw [← e1, mem_hist_inv]
      refine ⟨La ++ .lin c rc :: Lb ++ [.ret c rc], L2, by rw [hL]; simp, ?_, ?_, ?_, ?_⟩
      · have hnl : ∀ i r, TE.lin i r ∉ Lb ++ [.ret c rc] := by
          intro i r hr
          have h' : TE.lin i r ∈ Lb := by simpa using hr
          have := hlater i r (by simp [h'])
          -- its invocation is before its effect
          have hi := hlinv i r (by rw [hL]; simp [h'])
          have hm := I.lin_isMap (show TE.lin i r ∈ g.L by rw [hL]; simp [h'])
          -- the invocation is in the part before the effect
          obtain ⟨Lc, Ld, rfl⟩ := List.append_of_mem h'
          have hpj : proj i g.L = proj i (La ++ .lin c rc :: Lc) ++ .lin i r :: proj i (Ld ++ .ret c rc :: L2) := by
            rw [hL]
            have : La ++ TE.lin c rc :: (Lc ++ TE.lin i r :: Ld) ++ TE.ret c rc :: L2 =
                (La ++ .lin c rc :: Lc) ++ .lin i r :: (Ld ++ .ret c rc :: L2) := by simp
            rw [this, proj_append, proj_cons_own (x := .lin i r) rfl]
          have : TE.inv i ∈ proj i (La ++ .lin c rc :: Lc) := by
            generalize proj i (La ++ .lin c rc :: Lc) = P at hpj
            rcases I.proj_cases i hm with h | h | ⟨r0, h⟩ | ⟨r0, h⟩ <;> rw [h] at hpj
            · simp at hpj
            · match P, hpj with
              | [], hpj => simp at hpj
              | a :: P, hpj => simp at hpj
            · match P, hpj with
              | [], hpj => simp at hpj
              | a :: P, hpj => simp at hpj; simp [hpj.1]
            · match P, hpj with
              | [], hpj => simp at hpj
              | a :: P, hpj => simp at hpj; simp [hpj.1]
          have := (mem_proj.1 this).1
          refine (hlater i r (by simp)).2 ?_
          simp only [List.mem_append, List.mem_cons] at this ⊢
          tauto
        rw [List.append_assoc, run_append, List.cons_append]
        simp only [run, app, hc, apply]
        exact run_no_lin hnl _
      · intro i hi
        have : Ev.inv i ∈ h4 := by rw [← e2]; exact mem_hist_inv.2 hi
        simp [this]
      · intro i hi hm
        have hne : Ev.inv i ∉ h1 ++ h3 := by
          intro hx
          by_cases hic : i = c
          · subst hic
            have := C.new i hc hi
            rw [hd] at this; cases this
          · rw [List.mem_append] at hx
            rcases hx with hx | hx
            · obtain ⟨y1, y2, hy⟩ := List.append_of_mem hi
              exact (hon (h1 ++ y1) i y2 (by rw [hy]; simp)).1 (by simp [hx])
            · obtain ⟨y1, y2, rfl⟩ := List.append_of_mem hx
              have := hon (h1 ++ y1) i (y2 ++ .ret c rc :: h4) (by simp)
              refine hal (h1 ++ y1 ++ [.inv i]) (y2 ++ .ret c rc :: h4) (by simp) c i hc hm hic
                ⟨by simp [hci], ?_⟩ ⟨by simp, ?_⟩
              · intro r hr
                refine hnoret r ?_
                simp at hr ⊢; tauto
              · intro r hr
                simp only [List.mem_append, List.mem_singleton, reduceCtorEq, or_false] at hr
                exact this.2 r (List.mem_append.2 hr)
        simp only [List.mem_append, List.mem_cons, reduceCtorEq, false_or] at hi hne
        have : Ev.inv i ∈ h4 := by tauto
        rw [← e2] at this
        exact mem_hist_inv.1 this
      · intro i r hr
        have := hlater i r (by simp [hr])
        have hi := hlinv i r (by rw [hL]; simp [hr])
        rw [hL, List.mem_append] at hi
        simp only [List.mem_cons, reduceCtorEq, false_or] at hi
        exact hi.resolve_left this.2

/-- The counter is right when no call is changing the map. -/
theorem Count.card {s : State K V} {g : Ghost K V} {h1 h2 : List (Ev K V)} {D : List Nat}
    (I : Inv eqv prog s g) (B : Book prog (h1 ++ h2) s) (C : Count prog s h1 h2 D)
    (hon : Once (h1 ++ h2)) (hg : hist g.L = h1 ++ h2) (hal : ClearAlone prog (h1 ++ h2)) (hs : Settled prog s) :
    ∃ n : Nat, (run eqv prog g.L AMap.empty).Card n ∧ s.sh.len = n := by
  obtain ⟨L1, L2, hL, hr1, hin, hin', hli⟩ := C.cut I B hon hg hal fun c hc => hs c (by rw [hc]; rfl)
  have hleg := I.tl.legal
  rw [hL, legal_append, hr1] at hleg
  obtain ⟨n, hn, e⟩ := card_run card_empty hleg.2 (by
    intro i r hr hc
    have := C.new i hc (hin i (hli i r hr))
    have hm := I.lin_isMap (show TE.lin i r ∈ g.L by rw [hL]; simp [hr])
    have hp : TE.lin i r ∈ proj i g.L := mem_proj.2 ⟨by rw [hL]; simp [hr], rfl⟩
    rcases hs i hm with h | h | ⟨r', h⟩
    · rw [h] at this; cases this
    · rw [I.map_evs h hm] at hp; simp [evs, PC.target, pend] at hp
    · rw [h] at this; cases this)
  refine ⟨n, by rw [hL, run_append, hr1]; exact hn, ?_⟩
  rw [e, C.sum]
  simp only [Int.natCast_zero, Int.zero_add]
  -- the effects in L2 are those of the calls that are done
  have hval : ∀ i r, TE.lin i r ∈ L2 → cd (prog i) (s.pc i) = delta (prog i) r := by
    intro i r hr
    have hm := I.lin_isMap (show TE.lin i r ∈ g.L by rw [hL]; simp [hr])
    have hp : TE.lin i r ∈ proj i g.L := mem_proj.2 ⟨by rw [hL]; simp [hr], rfl⟩
    rcases hs i hm with h | h | ⟨r', h⟩
    · rw [I.map_evs h hm] at hp; simp [evs] at hp
    · rw [I.map_evs h hm] at hp; simp [evs, PC.target, pend] at hp
    · rw [I.map_evs h hm] at hp; simp [evs] at hp
      rw [h, hp]; rfl
  have hsum : (lins L2).map (fun x => delta (prog x.1) x.2) =
      ((lins L2).map Prod.fst).map (fun i => cd (prog i) (s.pc i)) := by
    rw [List.map_map]
    refine List.map_congr_left ?_
    rintro ⟨i, r⟩ hx
    exact (hval i r (mem_lins.1 hx)).symm
  rw [hsum]
  have hnd : ((lins L2).map Prod.fst).Nodup := by
    have := I.lin_nodup
    rw [hL] at this
    have e : lins (L1 ++ L2) = lins L1 ++ lins L2 := by simp [lins]
    rw [e, List.map_append] at this
    exact (List.nodup_append.1 this).2.1
  refine sum_eq C.nodup hnd ?_
  intro i hi
  constructor
  · intro hD
    have hi2 := C.mem i hD
    have hdel : ∃ r, s.pc i = .done r ∧ delta (prog i) r ≠ 0 := by
      cases hc : s.pc i <;> simp only [hc, cd, ne_eq, not_true_eq_false] at hi
      · rename_i r
        have := delta_isMap hi
        rcases hs i this.1 with h | h | ⟨r', h⟩ <;> rw [hc] at h <;> cases h
      · exact ⟨_, rfl, hi⟩
    obtain ⟨r, hd, hdel⟩ := hdel
    have hm := (delta_isMap hdel).1
    have hiL := hin' i hi2 hm
    have hp := I.done_lin hm hd
    have : TE.lin i r ∈ L2 := by
      rw [hL, proj_append] at hp
      have h1 : TE.inv i ∈ proj i L2 := mem_proj.2 ⟨hiL, rfl⟩
      cases hP : proj i L1 with
      | nil =>
        rw [hP] at hp
        exact (mem_proj.1 (show TE.lin i r ∈ proj i L2 by rw [List.nil_append] at hp; rw [hp]; simp)).1
      | cons a as =>
        rw [hP] at hp
        simp at hp
        have : TE.inv i ∈ as ++ proj i L2 := by simp [h1]
        rw [hp.2] at this; simp at this
    exact List.mem_map.2 ⟨(i, r), mem_lins.2 this, rfl⟩
  · intro hE
    obtain ⟨⟨j, r⟩, hx, rfl⟩ := List.mem_map.1 hE
    by_contra hD
    exact hi (C.cover j (hin j (hli j r (mem_lins.1 hx))) hD)

/-- The steps of a `Clear`. -/
theorem next_clear {s s' : State K V} {i : Nat} {ord : List (K × Nat) → List (K × Nat)} {go : Bool}
    (hop : prog i = .clear) (h : next eqv prog ord go s i = some s') :
    (preClear (s.pc i) = true → s.pc i ≠ .zero →
      (s.pc i = .start ∧ s.sh.read.m = [] ∧ s.sh.read.amended = false ∧ s'.pc i = .fin .unit) ∨
        preClear (s'.pc i) = true) ∧
    (postClear (s.pc i) = true → postClear (s'.pc i) = true) := by
  constructor
  · intro hp hz
    cases hc : s.pc i <;> simp only [hc, preClear, Bool.false_eq_true] at hp
    · simp only [next, hc, Option.some.injEq] at h
      subst h
      simp only [goto_pc_self, hop, startStep]
      split
      next hx => exact Or.inl ⟨trivial, hx.1, hx.2, rfl⟩
      next => exact Or.inr rfl
    · simp only [next, hc] at h
      split at h
      · simp only [Option.some.injEq] at h; subst h; exact Or.inr (by simp [preClear])
      · cases h
    · simp only [next, hc, Option.some.injEq] at h
      subst h
      simp only [goto_pc_self, hop, critStep]
      split <;> exact Or.inr rfl
    · simp only [next, hc, Option.some.injEq] at h
      subst h
      exact Or.inr (by simp [preClear])
    · exact absurd hc hz
  · intro hp
    cases hc : s.pc i <;> simp only [hc, postClear, Bool.false_eq_true] at hp
    · rename_i nx
      cases nx <;> simp only [hc, postClear, Bool.false_eq_true] at hp
      simp only [next, hc, Option.some.injEq] at h
      subst h
      simp [hop, finish, postClear]
    · simp only [next, hc, Option.some.injEq] at h
      subst h; simp [postClear]
    · simp [next, hc] at h

theorem sum_update {f f' : Nat → Int} {D : List Nat} {i : Nat} (hn : D.Nodup)
    (h : ∀ j, j ≠ i → f' j = f j) :
    (D.map f').sum = (D.map f).sum + if i ∈ D then f' i - f i else 0 := by
  induction D with
  | nil => simp
  | cons a D ih =>
    simp only [List.nodup_cons] at hn
    simp only [List.map_cons, List.sum_cons, ih hn.2, List.mem_cons]
    by_cases ha : a = i
    · subst ha; simp [hn.1]; omega
    · rw [h a ha]
      by_cases hi : i ∈ D <;> simp [hi, Ne.symm ha] <;> omega

theorem clearAlone_prefix {h1 h2 : List (Ev K V)} (h : ClearAlone prog (h1 ++ h2)) :
    ClearAlone prog h1 := by
  intro a b hab
  exact h a (b ++ h2) (by rw [hab]; simp)

/-- Calls other than a pending `Clear` are not pending. -/
theorem alone_settled {h : List (Ev K V)} {s : State K V} (B : Book prog h s)
    (hal : ClearAlone prog h) {c : Nat} (hc : prog c = .clear) (hi : s.pc c ≠ .idle)
    (hd : ∀ r, s.pc c ≠ .done r) {j : Nat} (hm : (prog j).isMap = true) (hj : j ≠ c) :
    s.pc j = .idle ∨ ∃ r, s.pc j = .done r := by
  by_contra hno
  simp only [not_or, not_exists] at hno
  refine hal h [] (by simp) c j hc hm hj ⟨(B.inv c).2 hi, fun r hr => hd r ((B.ret c r).1 hr)⟩
    ⟨(B.inv j).2 hno.1, fun r hr => hno.2 r ((B.ret j r).1 hr)⟩

theorem exec_count {h : List (Ev K V)} {s : State K V} (hx : Exec eqv prog h s)
    (hal : ClearAlone prog h) : ∃ h1 h2 D, h = h1 ++ h2 ∧ Count prog s h1 h2 D := by
  induction hx with
  | init => exact ⟨[], [], [], rfl, Or.inl rfl, by simp, by simp, rfl, by simp, by simp, by simp⟩
  | @step h s evs s' hx hs ih =>
    have hB := exec_book hx
    have hB' := exec_book (hx.step hs)
    have halh := clearAlone_prefix hal
    obtain ⟨h1, h2, D, rfl, C⟩ := ih halh
    obtain ⟨g, I, hg⟩ := exec_inv hx
    obtain ⟨i, ord, go, hord, hn, rfl⟩ := hs
    have hoth : ∀ j, j ≠ i → s'.pc j = s.pc j := fun j hj => next_other hn hj
    -- resetting the counter
    have hreset : prog i = .clear → s.pc i ≠ .idle → (∀ r, s.pc i ≠ .done r) →
        postClear (s'.pc i) = true → event prog s i = [] → s'.sh.len = 0 →
        ∃ h1' h2' D', h1 ++ h2 ++ event prog s i = h1' ++ h2' ∧ Count prog s' h1' h2' D' := by
      intro hc hni hnd hp hev hl
      refine ⟨h1 ++ h2, [], [], by rw [hev], Or.inr ⟨i, hc, (hB.inv i).2 hni,
        fun r hr => hnd r ((hB.ret i r).1 hr), hp⟩, by simp, by simp, by simp [hl], by simp, ?_, by simp⟩
      intro j hm hjc hj
      have hji : j ≠ i := by rintro rfl; exact hjc hc
      rw [hoth j hji]
      rcases alone_settled hB halh hc hni hnd hm hji with h | h
      · exact absurd h ((hB.inv j).1 hj)
      · exact h
    -- the other steps
    have hkeep : ∀ D' : List Nat, D'.Nodup → (∀ j ∈ D', Ev.inv j ∈ h2 ++ event prog s i) →
        s'.sh.len = (D'.map (fun i => cd (prog i) (s'.pc i))).sum →
        (∀ j, Ev.inv j ∈ h2 ++ event prog s i → j ∉ D' → cd (prog j) (s'.pc j) = 0) →
        (prog i = .clear → postClear (s.pc i) = true → postClear (s'.pc i) = true) →
        (prog i = .clear → (preClear (s.pc i) = true ∨ s.pc i = .idle) → preClear (s'.pc i) = true) →
        ∃ h1' h2' D', h1 ++ h2 ++ event prog s i = h1' ++ h2' ∧ Count prog s' h1' h2' D' := by
      intro D' d1 d2 d3 d4 d5 d6
      refine ⟨h1, h2 ++ event prog s i, D', by simp, ?_, d1, d2, d3, d4, ?_, ?_⟩
      · rcases C.pt with h | ⟨c, c1, c2, c3, c4⟩
        · exact Or.inl h
        · refine Or.inr ⟨c, c1, c2, c3, ?_⟩
          by_cases hci : c = i
          · subst hci; exact d5 c1 c4
          · rw [hoth c hci]; exact c4
      · intro j hm hjc hj
        obtain ⟨r, hr⟩ := C.old j hm hjc hj
        have hji : j ≠ i := by
          rintro rfl; simp [next, hr] at hn
        exact ⟨r, by rw [hoth j hji, hr]⟩
      · intro c hc hci
        by_cases hcc : c = i
        · subst hcc
          refine d6 hc ?_
          rw [List.mem_append] at hci
          rcases hci with h | h
          · exact Or.inl (C.new c hc h)
          · exact Or.inr (mem_event_inv h).2
        · rw [hoth c hcc]
          refine C.new c hc ?_
          rw [List.mem_append] at hci
          rcases hci with h | h
          · exact h
          · exact absurd (mem_event_inv h).1 hcc
    have hmemev : ∀ j, Ev.inv j ∈ h2 ++ event prog s i → j ≠ i → Ev.inv j ∈ h2 := by
      intro j hj hji
      rw [List.mem_append] at hj
      rcases hj with h | h
      · exact h
      · exact absurd (mem_event_inv h).1 hji
    -- the counter does not change, and neither does the contribution of call i
    have hsame : s'.sh.len = s.sh.len → cd (prog i) (s'.pc i) = cd (prog i) (s.pc i) →
        (s.pc i = .idle → cd (prog i) (s.pc i) = 0) →
        (prog i = .clear → postClear (s.pc i) = true → postClear (s'.pc i) = true) →
        (prog i = .clear → (preClear (s.pc i) = true ∨ s.pc i = .idle) → preClear (s'.pc i) = true) →
        ∃ h1' h2' D', h1 ++ h2 ++ event prog s i = h1' ++ h2' ∧ Count prog s' h1' h2' D' := by
      intro hl hcd hid d5 d6
      have hf : ∀ j, cd (prog j) (s'.pc j) = cd (prog j) (s.pc j) := by
        intro j
        by_cases hji : j = i
        · subst hji; exact hcd
        · rw [hoth j hji]
      refine hkeep D C.nodup (fun j hj => by simp [C.mem j hj]) ?_ ?_ d5 d6
      · rw [hl, C.sum]
        congr 1
        refine List.map_congr_left ?_
        intro j _; exact (hf j).symm
      · intro j hj hjD
        rw [hf]
        by_cases hji : j = i
        · subst hji
          rw [List.mem_append] at hj
          rcases hj with h | h
          · exact C.cover j h hjD
          · exact hid (mem_event_inv h).2
        · exact C.cover j (hmemev j hj hji) hjD
    cases hc : s.pc i with
    | zero =>
      have hop : prog i = .clear := by
        have := I.ops i
        simp only [OpOk, hc] at this
        exact this
      simp only [next, hc, Option.some.injEq] at hn
      subst hn
      exact hreset hop (by simp [hc]) (by simp [hc]) (by simp [postClear]) (by simp [event, hc]) (by simp)
    | fin r =>
      simp only [next, hc, Option.some.injEq] at hn
      subst hn
      exact hsame rfl (by simp [cd, hc]) (by simp [hc]) (by simp [postClear]) (by simp [hc, preClear])
    | add d r =>
      have hfin := hB.add i d r hc
      obtain ⟨_, hd, hm, hncl⟩ := finish_add hfin
      simp only [next, hc, Option.some.injEq] at hn
      have hlen : s'.sh.len = s.sh.len + d := by rw [← hn]; rfl
      have hpc : s'.pc i = .fin r := by rw [← hn]; simp
      have hi2 : Ev.inv i ∈ h2 := by
        have := (hB.inv i).2 (by simp [hc])
        rw [List.mem_append] at this
        rcases this with h | h
        · obtain ⟨r', h'⟩ := C.old i hm hncl h
          rw [hc] at h'; cases h'
        · exact h
      have h0 : cd (prog i) (s.pc i) = 0 := by simp [cd, hc]
      have h1' : cd (prog i) (s'.pc i) = d := by rw [hpc, hd]; rfl
      have hf : ∀ j, j ≠ i → cd (prog j) (s'.pc j) = cd (prog j) (s.pc j) := by
        intro j hji; rw [hoth j hji]
      by_cases hiD : i ∈ D
      · refine hkeep D C.nodup (fun j hj => by simp [C.mem j hj]) ?_ ?_ (fun h => absurd h hncl)
          (fun h => absurd h hncl)
        · rw [sum_update (f := fun j => cd (prog j) (s.pc j)) C.nodup hf, if_pos hiD, ← C.sum, hlen,
            h0, h1']
          omega
        · intro j hj hjD
          have hji : j ≠ i := by rintro rfl; exact hjD hiD
          rw [hf j hji]
          exact C.cover j (hmemev j hj hji) hjD
      · refine hkeep (i :: D) (List.nodup_cons.2 ⟨hiD, C.nodup⟩) ?_ ?_ ?_ (fun h => absurd h hncl)
          (fun h => absurd h hncl)
        · intro j hj
          simp only [List.mem_cons] at hj
          rcases hj with rfl | hj
          · simp [hi2]
          · simp [C.mem j hj]
        · simp only [List.map_cons, List.sum_cons]
          rw [sum_update (f := fun j => cd (prog j) (s.pc j)) C.nodup hf, if_neg hiD, ← C.sum, hlen, h1']
          omega
        · intro j hj hjD
          simp only [List.mem_cons, not_or] at hjD
          rw [hf j hjD.1]
          exact C.cover j (hmemev j hj hjD.1) hjD.2
    | done r => simp [next, hc] at hn
    | idle =>
      have hN := next_neutral hn (by simp [hc]) (by simp [hc]) (by simp [hc])
      simp only [next, hc, Option.some.injEq] at hn
      subst hn
      exact hsame rfl (by simp [cd, hc]) (by simp [cd, hc]) (by simp [hc, postClear]) (by simp [preClear])
    | start =>
      have hN := next_neutral hn (by simp [hc]) (by simp [hc]) (by simp [hc])
      by_cases hfast : prog i = .clear ∧ s.sh.read.m = [] ∧ s.sh.read.amended = false
      · obtain ⟨hop, hm, ha⟩ := hfast
        have hset : Settled prog s := by
          intro j hj
          by_cases hji : j = i
          · subst hji; exact Or.inr (Or.inl hc)
          · rcases alone_settled hB halh hop (by simp [hc]) (by simp [hc]) hj hji with h | h
            · exact Or.inl h
            · exact Or.inr (Or.inr h)
        obtain ⟨n, hn1, hn2⟩ := C.card I hB (exec_once hx) hg halh hset
        have hemp : run eqv prog g.L AMap.empty = AMap.empty := by
          funext k
          rw [I.tl.st k]
          simp [curv, cur, hm, ha, aget, AMap.empty]
        rw [hemp] at hn1
        have : n = 0 := card_unique hn1 card_empty
        subst this
        refine hreset hop (by simp [hc]) (by simp [hc]) ?_ (by simp [event, hc]) (by rw [hN.1, hn2]; rfl)
        simp only [next, hc, Option.some.injEq] at hn
        subst hn
        simp [startStep, hop, hm, ha, postClear]
      · refine hsame hN.1 ?_ (by simp [hc]) (by simp [hc, postClear]) ?_
        · rw [hN.2.1, hc]; rfl
        · intro hop _
          rcases (next_clear hop hn).1 (by simp [hc, preClear]) (by simp [hc]) with ⟨_, h1, h2, _⟩ | h
          · exact absurd ⟨hop, h1, h2⟩ hfast
          · exact h
    | _ =>
      have hN := next_neutral hn (by simp [hc]) (by simp [hc]) (by simp [hc])
      refine hsame hN.1 (by rw [hN.2.1, hc]; rfl) (by simp [hc]) (fun hop h => (next_clear hop hn).2 h) ?_
      intro hop h
      rcases h with h | h
      · rcases (next_clear hop hn).1 h (by simp [hc]) with ⟨h', _⟩ | h'
        · rw [hc] at h'; cases h'
        · exact h'
      · rw [hc] at h; cases h

/-- The counter at quiescence. -/
theorem exec_len {h : List (Ev K V)} {s : State K V} (hx : Exec eqv prog h s)
    (hal : ClearAlone prog h) (hs : Settled prog s) {g : Ghost K V} (I : Inv eqv prog s g)
    (hg : hist g.L = h) : ∃ n : Nat, (run eqv prog g.L AMap.empty).Card n ∧ s.sh.len = n := by
  obtain ⟨h1, h2, D, rfl, C⟩ := exec_count hx hal
  exact C.card I (exec_book hx) (exec_once hx) hg hal hs

end Verif.RWMap
