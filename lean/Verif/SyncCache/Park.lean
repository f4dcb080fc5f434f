import Verif.SyncCache.SysEnds
import Verif.RWMap.Park
/-!
# Callbacks, and functions of `Range`, that use the cache (C170)

While the deleted callback, or the function given to `Range`, runs, its call makes no step, for ever if the function does not return; in that time the function may
itself call methods of the cache. As C169, over the steps of the `RWMap` machine as in C154. The calls the function makes are calls of other threads of the model.
-/
set_option linter.unusedSectionVars false
namespace Verif.SyncCache
variable {K V : Type} [DecidableEq K]
/-! ## Specification -/

/-- The deleted callback, or the function given to `Range`, runs: synccache.go lines 111, 124, 128, 134, 160. -/
def PC.inFn : PC K V → Prop
  | .cbRun _ | .fRun _ => True
  | _ => False

/-- A step of `SysGoes` that is not one of the threads in `P`, nor of the calls of the map they are in. -/
inductive SysGoesNot (c : Cfg V) (prog : Nat → RWMap.Op K Nat) (P : Nat → Prop) : List (Item K V) × Client K V × RWMap.State K Nat →
    List (Item K V) × Client K V × RWMap.State K Nat → Prop where
  | loc {T s m i inp s' e} : ¬ P i → s.st.pc i ≠ .idle → s.loc c i inp = some (s', e) → SysGoesNot c prog P (T, s, m) (T ++ [.loc e], s', m)
  | tau {T s m n ord m'} : (∀ i, P i → ¬ Holds s i n) → (∀ l, (ord l).Perm l) → RWMap.next ptrEq prog ord true m n = some m' → RWMap.event prog m n = [] →
      SysGoesNot c prog P (T, s, m) (T, s, m')
  | sync {T s m n ord m' e i s'} : ¬ P i → (∀ j, P j → ¬ Holds s j n) → (∀ l, (ord l).Perm l) → RWMap.next ptrEq prog ord true m n = some m' →
      RWMap.event prog m n = [e] → s.sync c prog i e = some s' → SysGoesNot c prog P (T, s, m) (T ++ [.map e], s', m')

variable {c : Cfg V} {prog : Nat → RWMap.Op K Nat} {T T' : List (Item K V)} {s s' : Client K V} {m m' : RWMap.State K Nat} {i j n : Nat}
  {h : List (RWMap.Ev K Nat)} {ord : List (K × Nat) → List (K × Nat)} {e : RWMap.Ev K Nat}

/-! ## Proofs -/

theorem SysGoesNot.goes {P : Nat → Prop} {x x' : List (Item K V) × Client K V × RWMap.State K Nat} (h : SysGoesNot c prog P x x') : SysGoes c prog x x' := by
  cases h with
  | loc _ h1 h2 => exact .loc h1 h2
  | tau _ h1 h2 h3 => exact .tau h1 h2 h3
  | sync _ _ h1 h2 h3 h4 => exact .sync h1 h2 h3 h4

theorem sync_other (hc : s.sync c prog i e = some s') (hj : j ≠ i) : s'.st.pc j = s.st.pc j := by
  rcases sync_cases hc with ⟨l, kind, rfl, hw, hop, hp, rfl⟩ | ⟨l, rfl, hw, hop, hp, rfl⟩ | ⟨l, k, a, kind, rfl, hw, hp, rfl⟩ | ⟨l, r, rfl, hw, rfl⟩ |
    ⟨l, kind, acc, rfl, hw, hp, rfl⟩ <;> first | rfl | exact Function.update_of_ne hj _ _

theorem SysGoesNot.stays {P : Nat → Prop} {x x' : List (Item K V) × Client K V × RWMap.State K Nat} (h : SysGoesNot c prog P x x') (hi : P i) :
    x'.2.1.st.pc i = x.2.1.st.pc i := by
  cases h with
  | loc h0 h1 h2 => exact (loc_cases h2).2.2.2.2.2.1 i (by rintro rfl; exact h0 hi)
  | tau => rfl
  | sync h0 _ h1 h2 h3 h4 => exact sync_other h4 (by rintro rfl; exact h0 hi)

/-- Where a thread is between two entries of a `Range` of the map, the function given to that `Range` has been called. -/
theorem in_range_visited (h : Sys c prog T s m) : ∀ i it, (s.st.pc i).it? = some it → (s.st.pc i).isIter = false → ∃ k a, .visit it.start k a ∈ calls T := by
  induction h with
  | init => intro i it h; cases h
  | @loc T s m i inp s' e _ hl ih =>
    intro j it h1 h2
    rw [calls_loc]
    obtain ⟨_, _, h3, _, _, h6, h7⟩ := loc_cases hl
    by_cases hj : j = i
    · subst hj
      rcases h7 with h7 | h7
      · rw [h7] at h1; cases h1
      · exact ih j it (h7 ▸ h1) h3
    · rw [h6 j hj] at h1 h2; exact ih j it h1 h2
  | tau _ _ _ _ ih => exact ih
  | @sync T s m n ord m' e i s' hs _ hn he hc ih =>
    intro j it h1 h2
    rw [calls_map]
    by_cases hj : j = i
    · subst hj
      have I := sys_inv hs
      rcases sync_cases hc with ⟨l, kind, rfl, hw, hop, hp, rfl⟩ | ⟨l, rfl, hw, hop, hp, rfl⟩ | ⟨l, k, a, kind, rfl, hw, hp, rfl⟩ | ⟨l, r, rfl, hw, rfl⟩ |
        ⟨l, kind, acc, rfl, hw, hp, rfl⟩
      · simp [State.go, PC.isIter] at h2
      · obtain ⟨k, a, hv⟩ := ih j it h1 h2
        exact ⟨k, a, List.mem_append_left _ hv⟩
      · refine ⟨k, a, List.mem_append_right _ ?_⟩
        have : it.start = l := by
          simp only [State.go, Function.update_self] at h1
          cases kind <;> simp [Iter.visit, PC.it?, Site.it?, After.it?] at h1 <;> subst h1 <;> rfl
        rw [this]; exact List.mem_singleton_self _
      · obtain ⟨hop, hks⟩ := I.wait j l hw
        have h3 : ((s.st.pc j).isIter = false) := by cases hp : s.st.pc j <;> first | rfl | (rw [hp] at hop; simp [PC.mapOp] at hop)
        have h4 : (s.st.pc j).it? = some it := by
          simp only [State.go, Function.update_self] at h1
          rcases cont_it (c := c) (s.st.pc j) r with h5 | h5 <;> rw [h5] at h1
          · cases h1
          · exact h1
        obtain ⟨k, a, hv⟩ := ih j it h4 h3
        exact ⟨k, a, List.mem_append_left _ hv⟩
      · simp [State.go, PC.it?] at h1
    · rw [sync_other hc hj] at h1 h2
      obtain ⟨k, a, hv⟩ := ih j it h1 h2
      exact ⟨k, a, List.mem_append_left _ hv⟩

/-- The holder of the mutex of the map is no call of the map that a thread outside the map's code is in. -/
theorem outside_unlocked (h : Sys c prog T s m) (ho : (s.st.pc i).mapOp c = none) (hit : (s.st.pc i).isIter = false) (hh : Holds s i n) :
    m.sh.mu ≠ some n := by
  rcases hh with hh | ⟨it, hh, rfl⟩
  · have := ((sys_inv h).wait i n hh).1
    rw [ho] at this; cases this
  · obtain ⟨k, a, hv⟩ := in_range_visited h i it hh hit
    exact RWMap.rwmap_range_unlocked h.map_exec hv

/-- **C170**: let threads stop in code of the cache, outside the map, or in functions they call. As long as another call is in progress, a thread that has not stopped can make a step. -/
theorem sys_park_go (h : Sys c prog T s m) {P : Nat → Prop} (hP : ∀ j, P j → (s.st.pc j).mapOp c = none ∧ (s.st.pc j).isIter = false) (hi : ¬ P i)
    (hne : s.st.pc i ≠ .idle) (hm : ∀ op, s.wait i = none → (s.st.pc i).mapOp c = some op → ∃ n, m.pc n = .idle ∧ prog n = op) :
    ∃ x', SysGoesNot c prog P (T, s, m) x' := by
  have I := sys_inv h
  have hx := h.map_exec
  have apart : ∀ {n}, Holds s i n → ∀ j, P j → ¬ Holds s j n := fun hn j hj hjn => hi (I.one _ _ _ hjn hn ▸ hj)
  have key : ∀ {n}, Holds s i n → (∀ m' e, RWMap.next ptrEq prog id true m n = some m' → RWMap.event prog m n = [e] → ∃ s', s.sync c prog i e = some s') →
      ∃ x', SysGoesNot c prog P (T, s, m) x' := by
    intro n hn hev
    have hr := I.run i n hn
    have B := RWMap.exec_book hx
    have hi : m.pc n ≠ .idle := (B.inv n).1 hr.1
    have hd : ∀ r, m.pc n ≠ .done r := fun r hp => hr.2 r ((B.ret n r).2 hp)
    by_cases ha : m.pc n = .acq
    · cases hmu : m.sh.mu with
      | none =>
        have : RWMap.next ptrEq prog id true m n = some ({ m with sh := { m.sh with mu := some n } }.goto n .crit) := by
          simp [RWMap.next, ha, hmu]
        exact ⟨_, .tau (apart hn) (fun l => .refl l) this (by simp [RWMap.event, ha])⟩
      | some l =>
        have hl : (m.pc l).locked = true := (RWMap.lock_invariant hx l).2 hmu
        obtain ⟨m', -, hn⟩ := RWMap.rwmap_waits hx (i := l) (by rintro h; rw [h] at hl; cases hl) (by rintro r h; rw [h] at hl; cases hl)
          (by rintro h; rw [h] at hl; cases hl)
        exact ⟨_, .tau (fun j hj hjl => outside_unlocked h (hP j hj).1 (hP j hj).2 hjl hmu) (fun l => .refl l) hn
          (by cases hpl : m.pc l <;> rw [hpl] at hl <;> first | cases hl; done | simp [RWMap.event, hpl])⟩
    · obtain ⟨m', -, hn'⟩ := RWMap.rwmap_waits hx hi hd ha
      cases he : RWMap.event prog m n with
      | nil => exact ⟨_, .tau (apart hn) (fun l => .refl l) hn' he⟩
      | cons e es =>
        have hes : es = [] := by
          cases hp : m.pc n with
          | rng l acc =>
            simp only [RWMap.event, hp] at he
            cases l with
            | nil => cases he
            | cons x l => obtain ⟨k, e⟩ := x; simp only at he; split at he <;> cases he; rfl
          | _ => simp [RWMap.event, hp] at he <;> simp_all
        subst hes
        obtain ⟨s', hs⟩ := hev m' e hn' he
        exact ⟨_, .sync ‹_› (apart hn) (fun l => .refl l) hn' he hs⟩
  cases hw : s.wait i with
  | some n =>
    obtain ⟨hop, hks⟩ := I.wait i n hw
    have hrun : Running (calls T) n := I.run i n (.inl hw)
    refine key (.inl hw) fun m' e hn he => ?_
    have hni : m.pc n ≠ .idle := ((RWMap.exec_book hx).inv n).1 hrun.1
    cases hp : m.pc n with
    | idle => exact absurd hp hni
    | fin r =>
      simp only [RWMap.event, hp, List.cons.injEq, and_true] at he
      subst he
      simp [Client.sync, hw]
    | rng l acc =>
      exfalso
      have : prog n ≠ .range := by
        have := mapOp_isMap hop hks
        intro h; rw [h] at this; cases this
      obtain ⟨g, G, _⟩ := RWMap.exec_inv hx
      have ho := G.ops n
      simp only [RWMap.OpOk, hp] at ho
      exact this ho.1
    | _ => simp [RWMap.event, hp] at he
  | none =>
    cases ho : (s.st.pc i).mapOp c with
    | some op =>
      obtain ⟨n, hn, hp⟩ := hm op hw ho
      have hnx : RWMap.next ptrEq prog id true m n = some (m.goto n .start) := by simp [RWMap.next, hn]
      have hs : ∃ s', s.sync c prog i (.inv n) = some s' := by
        simp only [Client.sync, hw, ho, hp, and_self, if_true]
        split <;> exact ⟨_, rfl⟩
      obtain ⟨s', hs⟩ := hs
      exact ⟨_, .sync hi (fun j _ hj => ((RWMap.exec_book hx).inv n).1 (I.run j n hj).1 hn) (fun l => .refl l) hnx (by simp [RWMap.event, hn]) hs⟩
    | none =>
      cases hit : (s.st.pc i).isIter with
      | false =>
        obtain ⟨inp, s', e, hl⟩ := loc_goes hne hw ho hit
        exact ⟨_, .loc hi hne hl⟩
      | true =>
        cases hpc : s.st.pc i <;> rw [hpc] at hit <;> simp only [PC.isIter, Bool.false_eq_true] at hit
        rename_i it
        obtain ⟨kind, ks, n⟩ := it
        obtain ⟨hr, hpr⟩ := I.iter i ⟨kind, ks, n⟩ (by rw [hpc]; rfl)
        dsimp only at hr hpr
        subst hr
        have hh : Holds s i n := .mk_it (by rw [hpc]; rfl) rfl
        have hrun : Running (calls T) n := I.run i n hh
        have hni : m.pc n ≠ .idle := ((RWMap.exec_book hx).inv n).1 hrun.1
        have hrp := range_pc h hpr
        refine key hh fun m' e hn he => ?_
        cases hp : m.pc n with
        | idle => exact absurd hp hni
        | fin r =>
          rw [hp] at hrp
          simp only [RWMap.event, hp, List.cons.injEq, and_true] at he
          subst he
          rcases r with _ | _ | _ | _ | ⟨_, _ | _⟩ | _ <;> first | exact hrp.elim | simp [Client.sync, hw, hpc]
        | rng l acc =>
          cases l with
          | nil => simp [RWMap.event, hp] at he
          | cons x l =>
            obtain ⟨k, a⟩ := x
            simp only [RWMap.event, hp] at he
            split at he
            · simp only [List.cons.injEq, and_true] at he
              subst he
              simp [Client.sync, hw, hpc]
            · cases he
        | _ => simp [RWMap.event, hp] at he

/-- **C170**: and all calls of the others return, in whatever order they are given their turns, if no new calls are made; those that have stopped are where they were. -/
theorem sys_park_all (h : Sys c prog T s m) (P : Nat → Prop) (f : Nat → List (Item K V) × Client K V × RWMap.State K Nat) (h0 : f 0 = (T, s, m))
    (hf : ∀ n, (∃ i, ¬ P i ∧ (f n).2.1.st.pc i ≠ .idle) → SysGoesNot c prog P (f n) (f (n + 1))) :
    ∃ n, (∀ i, ¬ P i → (f n).2.1.st.pc i = .idle) ∧ ∀ i, P i → (f n).2.1.st.pc i = s.st.pc i := by
  have hex : ∃ n, ∀ i, ¬ P i → (f n).2.1.st.pc i = .idle := by
    by_contra hc
    refine sys_finite h f h0 fun n => (hf n ?_).goes
    by_contra hn
    exact hc ⟨n, fun i h1 => by_contra fun h2 => hn ⟨i, h1, h2⟩⟩
  classical
  refine ⟨Nat.find hex, Nat.find_spec hex, fun i hi => ?_⟩
  have : ∀ m, m ≤ Nat.find hex → (f m).2.1.st.pc i = s.st.pc i := by
    intro m
    induction m with
    | zero => intro _; rw [h0]
    | succ m ih =>
      intro hm
      have hlt := Nat.find_min hex (m := m) (by omega)
      have : ∃ i, ¬ P i ∧ (f m).2.1.st.pc i ≠ .idle := by
        by_contra hn
        exact hlt fun i h1 => by_contra fun h2 => hn ⟨i, h1, h2⟩
      rw [(hf m this).stays hi, ih (by omega)]
  exact this _ (Nat.le_refl _)

/-- **C170**, callbacks and functions of `Range`: let any number of threads be in the deleted callback or in the function given to `Range`. Then, if no new calls are
made and a thread that is not in a function goes on as long as one of them is in a call, all of these calls return, the ones made by the functions among them; and one
of them can go on as long as there is one, if the calls of the map it makes are in the list `prog`. -/
theorem sys_fn_calls (h : Sys c prog T s m) :
    (∀ i, ¬ (s.st.pc i).inFn → s.st.pc i ≠ .idle → (∀ op, s.wait i = none → (s.st.pc i).mapOp c = some op → ∃ n, m.pc n = .idle ∧ prog n = op) →
      ∃ x', SysGoesNot c prog (fun j => (s.st.pc j).inFn) (T, s, m) x') ∧
    ∀ f : Nat → List (Item K V) × Client K V × RWMap.State K Nat, f 0 = (T, s, m) →
      (∀ n, (∃ i, ¬ (s.st.pc i).inFn ∧ (f n).2.1.st.pc i ≠ .idle) → SysGoesNot c prog (fun j => (s.st.pc j).inFn) (f n) (f (n + 1))) →
      ∃ n, (∀ i, ¬ (s.st.pc i).inFn → (f n).2.1.st.pc i = .idle) ∧ ∀ i, (s.st.pc i).inFn → (f n).2.1.st.pc i = s.st.pc i := by
  refine ⟨fun i hi hne hm => sys_park_go h (fun j hj => ?_) hi hne hm, fun f h0 hf => sys_park_all h _ f h0 hf⟩
  cases hp : s.st.pc j <;> rw [hp] at hj <;> first | exact hj.elim | exact ⟨rfl, rfl⟩

/-- `Range` has found an expired entry, removed it, and called the callback, which calls `Load`. -/
def exInCb : List (Cmd Nat Nat) := exStore ++ [.loc 2 (.call .range)] ++ maps 7 2 2 ++ [.loc 2 (.time 200000000), .loc 2 .go] ++ maps 6 2 3 ++
  [.loc 2 .go, .loc 1 (.call (.load 1))]

def PC.inCb : PC K V → Bool
  | .cbRun _ => true
  | _ => false

/-- `Load` returns, and the callback is still running; then the callback returns, and the `Range`. -/
example : ((sysRun (cfg true) exCalls exInCb ([], .init, .init)).bind fun x => (sysRun (cfg true) exCalls (maps 4 1 1 ++ [.loc 1 .go]) x).bind fun y =>
    (sysRun (cfg true) exCalls ([.loc 2 (.cbFin true)] ++ maps 2 2 2 ++ [.loc 2 .go]) y).map fun z =>
      ([x, y, z].map fun w => ((w.2.1.st.pc 1).isIdle, (w.2.1.st.pc 2).inCb, (w.2.1.st.pc 2).isIdle), log z.1)) =
    some ([(false, true, false), (true, true, false), (true, false, true)],
      [.call 0 (.store 1 7 10000000), .mk 0 0 7 100000000 10000000, .ret 0 .unit, .call 2 .range, .clock 2 200000000, .seen 2 0, .cb 2 7,
        .call 1 (.load 1), .ret 1 .nil, .cbEnd 2 true, .ret 2 .unit]) := by rfl

end Verif.SyncCache
