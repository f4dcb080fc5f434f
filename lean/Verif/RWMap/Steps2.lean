import Verif.RWMap.Steps1
/-!
# Preservation of the invariant: loading `read`, accessing entries
-/
namespace Verif.RWMap
variable {K V : Type} [DecidableEq K] [Inhabited V]
variable {eqv : V → V → Option Bool} {prog : Nat → Op K V}
variable {i : Nat} {s : State K V} {g : Ghost K V}

theorem cur_read {h : Sh K} {k : K} {e : Nat} (hr : aget h.read.m k = some e) :
    cur h k = some e := by simp [cur, hr]

theorem cur_none {h : Sh K} {k : K} (hr : aget h.read.m k = none) (ha : h.read.amended = false) :
    cur h k = none := by simp [cur, hr, ha]

theorem curv_none {h : Sh K} {k : K} (hr : aget h.read.m k = none) (ha : h.read.amended = false) :
    curv prog h k = none := by simp [curv, cur_none hr ha]

theorem curv_of_cur {h : Sh K} {k : K} {e : Nat} (hc : cur h k = some e) :
    curv prog h k = vl prog h e := by simp [curv, hc]

/-- Effects that do not change the map. -/
theorem apply_absent {op : Op K V} {k : K} {A : AMap K V} {r : Res K V} (h : A k = none)
    (hop : (op = .load k ∨ op = .loadAndDelete k) ∧ r = .opt none ∨
      ((∃ o n, op = .compareAndSwap k o n) ∨ ∃ o, op = .compareAndDelete k o) ∧ r = .bool false) :
    apply eqv op A = (A, r) := by
  rcases hop with ⟨rfl | rfl, rfl⟩ | ⟨⟨o, n, rfl⟩ | ⟨o, rfl⟩, rfl⟩
  · simp [apply, h]
  · simp only [apply, h]
    congr 1
    funext x
    simp only [AMap.set]
    split
    next hx => rw [hx, h]
    next => rfl
  · simp [apply, h]
  · simp [apply, h]

theorem Inv.hit (I : Inv eqv prog s g) (hc : s.pc i = .start) {k : K} {e : Nat}
    (hk : (prog i).key? = some k) (hr : aget s.sh.read.m k = some e) :
    Good eqv prog g (s.goto i (.ent e .u)) [] := by
  obtain ⟨h1, h2, h3, h4⟩ := I.str.core.rkey k e hr
  have hm := isMap_of_key hk
  refine I.silent (h' := s.sh) hc rfl rfl rfl rfl rfl rfl rfl (I.tgt hc rfl) ?_ ?_ ?_
  · simp only [OpOk, goto_pc_self]
    exact ⟨k, { key := hk, ekey := h1, lt := h2
                un := fun _ => ⟨Or.inl ⟨k, h1, cur_read hr⟩, Or.inl h3⟩
                loc := fun h => absurd rfl h, lm := fun h => by cases h }⟩
  · intro e' p he h
    cases h
    rw [h4] at he; cases he
  · rw [opTL_map hm, I.map_evs hc hm]
    simp [evs, PC.target, pend, h4]

theorem Inv.slow (I : Inv eqv prog s g) (hc : s.pc i = .start) (hn : prog i ≠ .len) :
    Good eqv prog g (s.goto i .acq) [] := by
  have hp := I.tl.tl i
  rw [hc] at hp
  refine I.silent (h' := s.sh) hc rfl rfl rfl rfl rfl rfl rfl (I.tgt hc rfl) (by simp [OpOk, hn])
    (fun e p _ h => by cases h) ?_
  unfold OpTL at hp ⊢
  split at hp <;> exact hp

theorem Inv.absent (I : Inv eqv prog s g) (hc : s.pc i = .start) {r : Res K V}
    (hm : (prog i).isMap = true)
    (hap : apply eqv (prog i) (curv prog s.sh) = (curv prog s.sh, r)) :
    Good eqv prog g (s.goto i (.fin r)) [] := by
  refine I.linSame (h' := s.sh) hc hm rfl rfl rfl rfl rfl rfl rfl (fun e => I.no_orph hc rfl)
    (fun _ _ _ _ => by simp [OpOk]) (fun e h => by cases h) rfl rfl hap

theorem Inv.start (I : Inv eqv prog s g) (hc : s.pc i = .start)
    {ord : List (K × Nat) → List (K × Nat)} (hord : ∀ l, (ord l).Perm l) :
    Good eqv prog g (s.goto i (startStep ord s.sh (prog i))) [] := by
  cases hop : prog i with
  | load k =>
    simp only [startStep]
    cases hr : aget s.sh.read.m k with
    | some e => exact I.hit hc (by rw [hop]; rfl) hr
    | none =>
      cases ha : s.sh.read.amended with
      | true => exact I.slow hc (by rw [hop]; simp)
      | false =>
        refine I.absent hc (by rw [hop]; rfl) ?_
        rw [hop]; exact apply_absent (curv_none hr ha) (by simp)
  | loadAndDelete k =>
    simp only [startStep]
    cases hr : aget s.sh.read.m k with
    | some e => exact I.hit hc (by rw [hop]; rfl) hr
    | none =>
      cases ha : s.sh.read.amended with
      | true => exact I.slow hc (by rw [hop]; simp)
      | false =>
        refine I.absent hc (by rw [hop]; rfl) ?_
        rw [hop]; exact apply_absent (curv_none hr ha) (by simp)
  | compareAndSwap k o n =>
    simp only [startStep]
    cases hr : aget s.sh.read.m k with
    | some e => exact I.hit hc (by rw [hop]; rfl) hr
    | none =>
      cases ha : s.sh.read.amended with
      | true => exact I.slow hc (by rw [hop]; simp)
      | false =>
        refine I.absent hc (by rw [hop]; rfl) ?_
        rw [hop]; exact apply_absent (curv_none hr ha) (by simp)
  | compareAndDelete k o =>
    simp only [startStep]
    cases hr : aget s.sh.read.m k with
    | some e => exact I.hit hc (by rw [hop]; rfl) hr
    | none =>
      cases ha : s.sh.read.amended with
      | true => exact I.slow hc (by rw [hop]; simp)
      | false =>
        refine I.absent hc (by rw [hop]; rfl) ?_
        rw [hop]; exact apply_absent (curv_none hr ha) (by simp)
  | swap k v =>
    simp only [startStep]
    cases hr : aget s.sh.read.m k with
    | some e => exact I.hit hc (by rw [hop]; rfl) hr
    | none => exact I.slow hc (by rw [hop]; simp)
  | loadOrStore k v =>
    simp only [startStep]
    cases hr : aget s.sh.read.m k with
    | some e => exact I.hit hc (by rw [hop]; rfl) hr
    | none => exact I.slow hc (by rw [hop]; simp)
  | clear =>
    simp only [startStep]
    split
    next hr =>
      refine I.absent hc (by rw [hop]; rfl) ?_
      rw [hop]
      simp only [apply]
      congr 1
      funext k
      rw [curv_none _ hr.2]
      · rfl
      · rw [hr.1]; rfl
    next => exact I.slow hc (by rw [hop]; simp)
  | len =>
    simp only [startStep]
    have hp := I.tl.tl i
    rw [hc] at hp
    refine I.silent (h' := s.sh) hc rfl rfl rfl rfl rfl rfl rfl (I.tgt hc rfl) (by simp [OpOk])
      (fun e p _ h => by cases h) ?_
    unfold OpTL at hp ⊢
    simp only [hop] at hp ⊢
    exact hp
  | range =>
    simp only [startStep]
    cases ha : s.sh.read.amended with
    | true => exact I.slow hc (by rw [hop]; simp)
    | false =>
      have hp := I.tl.tl i
      rw [hc, opTL_range hop] at hp
      have hperm := hord s.sh.read.m
      have hmem : ∀ k e, (k, e) ∈ ord s.sh.read.m → aget s.sh.read.m k = some e :=
        fun k e he => aget_of_mem I.str.core.rwf (hperm.subset he)
      refine ⟨_, I.same (h' := s.sh) (c' := .rng (ord s.sh.read.m) []) hc (by simp)
        (xs := [.snap i (s.sh.read.m.map Prod.fst)]) rfl rfl rfl rfl rfl rfl rfl
        rfl (I.tgt hc rfl) ?_ ?_ ?_ ?_ ?_ ?_, ?_⟩
      · simp only [OpOk]
        simp only [Bool.false_eq_true, if_false, goto_pc_self]
        refine ⟨hop, (hperm.map Prod.fst).nodup_iff.2 I.str.core.rwf, ?_⟩
        intro k e he
        have := I.str.core.rkey k e (hmem k e he)
        exact ⟨this.1, this.2.1, Or.inl ⟨k, this.1, cur_read (hmem k e he)⟩⟩
      · intro x hx
        simp only [List.mem_singleton] at hx
        subst hx
        exact Or.inl rfl
      · simp only [Legal, okE, and_true]
        intro k hk
        exact curv_none (aget_eq_none.2 hk) ha
      · intro k; simp [run, app]
      · rintro e p he ⟨k, hk⟩
        rw [(I.str.core.rkey k e (hmem k e hk)).2.2.2] at he
        cases he
      · rw [opTL_range hop]
        refine ⟨[.snap i (s.sh.read.m.map Prod.fst)], ?_, RngEvs.start (hperm.symm.map _)⟩
        rw [show proj i g.L = [.inv i] from hp]
        simp [proj, TE.owner]
      · simp [hist_append, hist, TE.ev?]
end Verif.RWMap
