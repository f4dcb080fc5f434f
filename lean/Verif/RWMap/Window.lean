import Verif.RWMap.Props
/-!
# What `Len` returns while other calls are in progress (C105, C106)
-/
namespace Verif.RWMap
variable {K V : Type} [DecidableEq K] [Inhabited V]
variable {eqv : V → V → Option Bool} {prog : Nat → Op K V} {h : List (Ev K V)} {s : State K V} {g : Ghost K V}

/-- `Swap` and `LoadOrStore`, which may add a key. -/
def Op.inserts : Op K V → Bool
  | .swap _ _ | .loadOrStore _ _ => true
  | _ => false

/-- `LoadAndDelete` and `CompareAndDelete`, which may remove a key. -/
def Op.removes : Op K V → Bool
  | .loadAndDelete _ | .compareAndDelete _ _ => true
  | _ => false

theorem delta_cases (op : Op K V) (r : Res K V) :
    delta op r = 0 ∨ (delta op r = 1 ∧ op.inserts = true) ∨ (delta op r = -1 ∧ op.removes = true) := by
  unfold delta finish
  split
  next h => split at h <;> simp_all [Op.inserts, Op.removes]
  next => exact .inl rfl

/-- A call that took effect has changed the counter accordingly, or is in progress and has not changed it yet. -/
theorem Inv.lin_cd (I : Inv eqv prog s g) {i : Nat} {r : Res K V} (hl : .lin i r ∈ g.L) :
    cd (prog i) (s.pc i) = delta (prog i) r ∨ (cd (prog i) (s.pc i) = 0 ∧ s.pc i ≠ .idle ∧ ∀ r, s.pc i ≠ .done r) := by
  have hm := I.lin_isMap hl
  have hp : TE.lin i r ∈ proj i g.L := mem_proj.2 ⟨hl, rfl⟩
  cases hc : s.pc i with
  | idle => rw [I.map_evs hc hm] at hp; simp [evs] at hp
  | done r' => rw [I.map_evs hc hm] at hp; simp [evs] at hp; subst hp; exact .inl rfl
  | fin r' => rw [I.map_evs hc hm] at hp; simp [evs] at hp; subst hp; exact .inl rfl
  | _ => exact .inr ⟨rfl, nofun, nofun⟩

/-- A sum of ones, zeros and minus ones. -/
theorem sum_signs {α : Type} (f : α → Int) : ∀ l : List α, (∀ x ∈ l, f x = 0 ∨ f x = 1 ∨ f x = -1) →
    (l.map f).sum = (l.filter (fun x => f x = 1)).length - (l.filter (fun x => f x = -1)).length
  | [], _ => rfl
  | a :: l, h => by
    have ih := sum_signs f l fun x hx => h x (by simp [hx])
    rw [List.map_cons, List.sum_cons, ih]
    rcases h a (by simp) with h | h | h <;> simp [List.filter_cons, h] <;> omega

theorem sum_sub {α : Type} (f f' : α → Int) : ∀ l : List α, (l.map f).sum = (l.map f').sum + (l.map fun x => f x - f' x).sum
  | [] => rfl
  | a :: l => by simp only [List.map_cons, List.sum_cons, sum_sub f f' l]; omega

/-- The counter while calls are in progress, none of them a `Clear`. -/
theorem exec_window (hx : Exec eqv prog h s) (hal : ClearAlone prog h)
    (hs : ∀ c, prog c = .clear → s.pc c = .idle ∨ s.pc c = .start ∨ ∃ r, s.pc c = .done r) (I : Inv eqv prog s g) (hg : hist g.L = h) :
    ∃ (n : Nat) (ins dels : List Nat), (run eqv prog g.L AMap.empty).Card n ∧ ins.Nodup ∧ dels.Nodup ∧
      (∀ i ∈ ins, pendingIn h i ∧ (prog i).inserts = true ∧ ∃ r, .lin i r ∈ g.L) ∧
      (∀ i ∈ dels, pendingIn h i ∧ (prog i).removes = true ∧ ∃ r, .lin i r ∈ g.L) ∧
      s.sh.len + ins.length = n + dels.length := by
  obtain ⟨h1, h2, D, rfl, C⟩ := exec_count hx hal
  have B := exec_book hx
  obtain ⟨L1, L2, hL, hr1, hin, hin', hli⟩ := C.cut I B (exec_once hx) hg hal hs
  have hleg := I.tl.legal
  rw [hL, legal_append, hr1] at hleg
  obtain ⟨n, hn, e⟩ := card_run card_empty hleg.2 (by
    intro i r hr hc
    have := C.new i hc (hin i (hli i r hr))
    have hm := I.lin_isMap (show TE.lin i r ∈ g.L by rw [hL]; simp [hr])
    have hp : TE.lin i r ∈ proj i g.L := mem_proj.2 ⟨by rw [hL]; simp [hr], rfl⟩
    rcases hs i hc with h | h | ⟨r', h⟩
    · rw [h] at this; cases this
    · rw [I.map_evs h hm] at hp; simp [evs, PC.target, pend] at hp
    · rw [h] at this; cases this)
  have hnd : ((lins L2).map Prod.fst).Nodup := by
    have := I.lin_nodup
    rw [hL] at this
    have e : lins (L1 ++ L2) = lins L1 ++ lins L2 := by simp [lins]
    rw [e, List.map_append] at this
    exact (List.nodup_append.1 this).2.1
  have hmem : ∀ x ∈ lins L2, TE.lin x.1 x.2 ∈ g.L := fun x hx => by rw [hL]; simp [mem_lins.1 hx]
  have hval : ∀ x ∈ lins L2, delta (prog x.1) x.2 - cd (prog x.1) (s.pc x.1) = 0 ∨
      (delta (prog x.1) x.2 - cd (prog x.1) (s.pc x.1) = delta (prog x.1) x.2 ∧ pendingIn (h1 ++ h2) x.1) := by
    intro x hx
    rcases I.lin_cd (hmem x hx) with h | ⟨h, h', h''⟩
    · exact .inl (by omega)
    · exact .inr ⟨by omega, (B.inv _).2 h', fun r hr => h'' r ((B.ret _ r).1 hr)⟩
  have hsub := sum_sub (fun x => delta (prog x.1) x.2) (fun x => cd (prog x.1) (s.pc x.1)) (lins L2)
  have hsgn := sum_signs (fun x => delta (prog x.1) x.2 - cd (prog x.1) (s.pc x.1)) (lins L2) (by
    intro x hx
    rcases hval x hx with h | ⟨h, _⟩
    · exact .inl h
    · rw [h]; rcases delta_cases (prog x.1) x.2 with h | ⟨h, _⟩ | ⟨h, _⟩ <;> simp [h])
  have hD : (D.map (fun i => cd (prog i) (s.pc i))).sum = ((lins L2).map (fun x => cd (prog x.1) (s.pc x.1))).sum := by
    have : (lins L2).map (fun x => cd (prog x.1) (s.pc x.1)) = ((lins L2).map Prod.fst).map (fun i => cd (prog i) (s.pc i)) := by
      rw [List.map_map]; rfl
    rw [this]
    refine sum_eq C.nodup hnd ?_
    intro i hi
    constructor
    · intro hD
      have hi2 := C.mem i hD
      have hdel : ∃ r P, proj i g.L = .inv i :: .lin i r :: P ∧ TE.inv i ∉ P ∧ (prog i).isMap = true := by
        cases hc : s.pc i <;> simp only [hc, cd, ne_eq, not_true_eq_false] at hi
        · have hm := (delta_isMap hi).1
          exact ⟨_, [], by rw [I.map_evs hc hm]; rfl, nofun, hm⟩
        · have hm := (delta_isMap hi).1
          exact ⟨_, [_], by rw [I.map_evs hc hm]; rfl, by simp, hm⟩
      obtain ⟨r, P, hp, hP, hm⟩ := hdel
      have hiL := hin' i hi2 hm
      have : TE.lin i r ∈ L2 := by
        rw [hL, proj_append] at hp
        have h1 : TE.inv i ∈ proj i L2 := mem_proj.2 ⟨hiL, rfl⟩
        cases hP1 : proj i L1 with
        | nil =>
          rw [hP1] at hp
          exact (mem_proj.1 (show TE.lin i r ∈ proj i L2 by rw [List.nil_append] at hp; rw [hp]; simp)).1
        | cons a as =>
          rw [hP1] at hp
          simp at hp
          have : TE.inv i ∈ as ++ proj i L2 := by simp [h1]
          rw [hp.2] at this; simp [hP] at this
      exact List.mem_map.2 ⟨(i, r), mem_lins.2 this, rfl⟩
    · intro hE
      obtain ⟨⟨j, r⟩, hx, rfl⟩ := List.mem_map.1 hE
      by_contra hD
      exact hi (C.cover j (hin j (hli j r (mem_lins.1 hx))) hD)
  refine ⟨n, ((lins L2).filter fun x => decide (delta (prog x.1) x.2 - cd (prog x.1) (s.pc x.1) = 1)).map Prod.fst,
    ((lins L2).filter fun x => decide (delta (prog x.1) x.2 - cd (prog x.1) (s.pc x.1) = -1)).map Prod.fst,
    by rw [hL, run_append, hr1]; exact hn, (List.filter_sublist.map Prod.fst).nodup hnd,
    (List.filter_sublist.map Prod.fst).nodup hnd, ?_, ?_, ?_⟩
  · intro i hi
    obtain ⟨x, hx, rfl⟩ := List.mem_map.1 hi
    simp only [List.mem_filter, decide_eq_true_eq] at hx
    rcases hval x hx.1 with h | ⟨h, hp⟩
    · omega
    · rcases delta_cases (prog x.1) x.2 with h' | ⟨_, h'⟩ | ⟨h', _⟩
      · omega
      · exact ⟨hp, h', _, hmem x hx.1⟩
      · omega
  · intro i hi
    obtain ⟨x, hx, rfl⟩ := List.mem_map.1 hi
    simp only [List.mem_filter, decide_eq_true_eq] at hx
    rcases hval x hx.1 with h | ⟨h, hp⟩
    · omega
    · rcases delta_cases (prog x.1) x.2 with h' | ⟨h', _⟩ | ⟨_, h'⟩
      · omega
      · omega
      · exact ⟨hp, h', _, hmem x hx.1⟩
  · have := C.sum
    rw [List.length_map, List.length_map]
    omega

/-- Where a `Len` call can be. -/
theorem exec_len_pc (hx : Exec eqv prog h s) {i : Nat} (hop : prog i = .len) :
    s.pc i = .idle ∨ s.pc i = .start ∨ (∃ r, s.pc i = .fin r) ∨ ∃ r, s.pc i = .done r := by
  induction hx with
  | init => exact .inl rfl
  | @step h s evs s' hx hs ih =>
    obtain ⟨j, ord, go, hord, hn, rfl⟩ := hs
    by_cases hij : i = j
    · subst hij
      rcases ih with hc | hc | ⟨r, hc⟩ | ⟨r, hc⟩ <;> simp only [next, hc, hop, startStep, reduceCtorEq, Option.some.injEq] at hn <;> subst hn <;> simp
    · rw [next_other hn hij]; exact ih

/-- When a `Len` call reads the counter. -/
theorem exec_len_reads (hx : Exec eqv prog h s) {i : Nat} (hop : prog i = .len) {v : Int}
    (hv : s.pc i = .fin (.int v) ∨ s.pc i = .done (.int v)) :
    ∃ h1 h2 s1, h = h1 ++ h2 ∧ Exec eqv prog h1 s1 ∧ pendingIn h1 i ∧ s1.sh.len = v := by
  induction hx with
  | init => rcases hv with h | h <;> cases h
  | @step h s evs s' hx hs ih =>
    obtain ⟨j, ord, go, hord, hn, rfl⟩ := hs
    have hkeep : s.pc i = .fin (.int v) ∨ s.pc i = .done (.int v) →
        ∃ h1 h2 s1, h ++ event prog s j = h1 ++ h2 ∧ Exec eqv prog h1 s1 ∧ pendingIn h1 i ∧ s1.sh.len = v := by
      intro hv
      obtain ⟨h1, h2, s1, rfl, h3⟩ := ih hv
      exact ⟨h1, h2 ++ event prog s j, s1, by simp, h3⟩
    by_cases hij : i = j
    · subst hij
      have B := exec_book hx
      cases hc : s.pc i with
      | start =>
        refine ⟨h, event prog s i, s, rfl, hx, ⟨(B.inv i).2 (by rw [hc]; nofun), fun r hr => ?_⟩, ?_⟩
        · rw [(B.ret i r).1 hr] at hc; cases hc
        · simp only [next, hc, hop, startStep, Option.some.injEq] at hn
          subst hn
          simp at hv
          exact hv
      | fin r =>
        refine hkeep (.inl ?_)
        simp only [next, hc, Option.some.injEq] at hn
        subst hn
        simp at hv
        rw [hc, hv]
      | done r => simp [next, hc] at hn
      | idle =>
        simp only [next, hc, Option.some.injEq] at hn
        subst hn
        simp at hv
      | _ => exact absurd (exec_len_pc hx hop) (by rw [hc]; simp)
    · rw [next_other hn hij] at hv
      exact hkeep hv

/-- **C105.** `Len` returns the number of keys at an instant of the call, except that insertions and removals in progress which have taken effect
may not have been counted yet. (No `Clear` overlaps a call that changes the map, or this call.) -/
theorem rwmap_len_window (hx : Exec eqv prog h s) (hal : ClearAlone prog h) {i : Nat} (hop : prog i = .len) {v : Int} (hv : .ret i (.int v) ∈ h)
    (hno : ∀ h1 h2, h = h1 ++ h2 → pendingIn h1 i → ∀ c, prog c = .clear → ¬ pendingIn h1 c) :
    ∃ h1 h2 L, h = h1 ++ h2 ∧ pendingIn h1 i ∧ Linearizes eqv prog L h1 ∧
      ∃ (n : Nat) (ins dels : List Nat), (effects eqv prog L AMap.empty).Card n ∧ ins.Nodup ∧ dels.Nodup ∧
        (∀ j ∈ ins, pendingIn h1 j ∧ (prog j).inserts = true ∧ .eff j ∈ L) ∧
        (∀ j ∈ dels, pendingIn h1 j ∧ (prog j).removes = true ∧ .eff j ∈ L) ∧
        v = n - ins.length + dels.length := by
  obtain ⟨h1, h2, s1, rfl, hx1, hp, rfl⟩ := exec_len_reads hx hop (.inr (((exec_book hx).ret i _).1 hv))
  obtain ⟨g, I, hg⟩ := exec_inv hx1
  have B := exec_book hx1
  obtain ⟨n, ins, dels, h3, h4, h5, h6, h7, h8⟩ := exec_window hx1 (clearAlone_prefix hal) (by
    intro c hc
    by_contra hcon
    simp only [not_or, not_exists] at hcon
    exact hno h1 h2 rfl hp c hc ⟨(B.inv c).2 hcon.1, fun r hr => hcon.2.2 r ((B.ret c r).1 hr)⟩) I hg
  refine ⟨h1, h2, levs g.L, rfl, hp, hg ▸ I.linearizes, n, ins, dels, by rw [effects_levs]; exact h3, h4, h5, ?_, ?_, by omega⟩
  · intro j hj
    obtain ⟨a, b, c⟩ := h6 j hj
    exact ⟨a, b, eff_mem_levs.2 c⟩
  · intro j hj
    obtain ⟨a, b, c⟩ := h7 j hj
    exact ⟨a, b, eff_mem_levs.2 c⟩

/-- A `Swap` (0) has stored, but not counted, its key when another call (2) removes it; then `Len` (10) is called. -/
def negHist : List (Ev Nat Nat) := [.inv 0, .inv 2, .ret 2 (.opt (some 1)), .inv 10, .ret 10 (.int (-1))]

theorem negHist_exec : ∃ s, Exec (fun a b => some (a == b)) exProg negHist s :=
  historyOf_exec (is := rep 8 0 ++ rep 10 2 ++ rep 3 10) rfl

/-- **C106** does not hold: `Len` may return a negative number. -/
theorem rwmap_len_nonneg_false : ¬ ∀ (prog : Nat → Op Nat Nat) (h : List (Ev Nat Nat)) (s : State Nat Nat) (i : Nat) (v : Int),
    Exec (fun a b => some (a == b)) prog h s → prog i = .len → .ret i (.int v) ∈ h → 0 ≤ v := by
  intro hall
  obtain ⟨s, hx⟩ := negHist_exec
  exact absurd (hall exProg negHist s 10 (-1) hx rfl (by simp [negHist])) (by decide)

/-- **C106**, if no insertion and no `Clear` overlaps the call (and no `Clear` overlaps a call that changes the map). The full statement is that of
`rwmap_len_nonneg_false`. -/
theorem rwmap_len_nonneg_partial (hx : Exec eqv prog h s) (hal : ClearAlone prog h) {i : Nat} (hop : prog i = .len) {v : Int}
    (hv : .ret i (.int v) ∈ h)
    (hno : ∀ h1 h2, h = h1 ++ h2 → pendingIn h1 i → ∀ c, prog c = .clear ∨ (prog c).inserts = true → ¬ pendingIn h1 c) : 0 ≤ v := by
  obtain ⟨h1, h2, L, h3, h4, h5, n, ins, dels, h6, h7, h8, h9, h10, h11⟩ :=
    rwmap_len_window hx hal hop hv fun h1 h2 he hp c hc => hno h1 h2 he hp c (.inl hc)
  have : ins = [] := List.eq_nil_iff_forall_not_mem.2 fun j hj => hno h1 h2 h3 h4 j (.inr (h9 j hj).2.1) (h9 j hj).1
  subst this
  simp only [List.length_nil] at h11
  omega

/-- The history satisfies what `rwmap_len_window` asks for, and there the difference is the uncounted insertion. -/
example : ∃ h1 h2 L, negHist = h1 ++ h2 ∧ pendingIn h1 10 ∧ Linearizes (fun a b => some (a == b)) exProg L h1 ∧
    ∃ (n : Nat) (ins dels : List Nat), (effects (fun a b => some (a == b)) exProg L AMap.empty).Card n ∧ ins.Nodup ∧ dels.Nodup ∧
      (∀ j ∈ ins, pendingIn h1 j ∧ (exProg j).inserts = true ∧ .eff j ∈ L) ∧
      (∀ j ∈ dels, pendingIn h1 j ∧ (exProg j).removes = true ∧ .eff j ∈ L) ∧ (-1 : Int) = n - ins.length + dels.length := by
  have hcl : ∀ c, exProg c = .clear → Ev.inv c ∉ negHist := by
    intro c hc hi
    simp only [negHist, List.mem_cons, Ev.inv.injEq, reduceCtorEq, List.not_mem_nil, or_false, false_or] at hi
    rcases hi with rfl | rfl | rfl <;> cases hc
  obtain ⟨s, hx⟩ := negHist_exec
  refine rwmap_len_window hx ?_ rfl (by simp [negHist]) ?_
  · intro h1 h2 he c j hc _ _ hp
    exact absurd (by rw [he]; simp [hp.1]) (hcl c hc)
  · intro h1 h2 he _ c hc hp
    exact absurd (by rw [he]; simp [hp.1]) (hcl c hc)

end Verif.RWMap
