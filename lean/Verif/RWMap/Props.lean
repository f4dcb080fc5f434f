import Verif.RWMap.Lin
import Verif.RWMap.Visit
import Verif.RWMap.Corollaries
/-!
# Properties of `RWMap` (C01-C07)

`Exec eqv prog h s`: some interleaving of the calls in `prog`, starting with the zero `RWMap`, has
the history `h` and is now in state `s`.
-/
namespace Verif.RWMap
variable {K V : Type} [DecidableEq K] [Inhabited V]
variable {eqv : V → V → Option Bool} {prog : Nat → Op K V} {h : List (Ev K V)} {s : State K V}

/-! ## Running a schedule, for examples -/

/-- Let the calls in the list step one after the other. -/
def sched (eqv : V → V → Option Bool) (prog : Nat → Op K V) (go : Bool) :
    List Nat → State K V → List (Ev K V) → Option (State K V × List (Ev K V))
  | [], s, h => some (s, h)
  | i :: is, s, h => match next eqv prog id go s i with
    | some s' => sched eqv prog go is s' (h ++ event prog s i)
    | none => none

theorem sched_exec {go : Bool} {is : List Nat} : ∀ {s : State K V} {h : List (Ev K V)},
    Exec eqv prog h s → ∀ {s' h'}, sched eqv prog go is s h = some (s', h') →
      Exec eqv prog h' s' := by
  induction is with
  | nil => intro s h hx s' h' he; simp [sched] at he; obtain ⟨rfl, rfl⟩ := he; exact hx
  | cons i is ih =>
    intro s h hx s' h' he
    simp only [sched] at he
    split at he
    next t ht => exact ih (hx.step ⟨i, id, go, fun _ => .refl _, ht, rfl⟩) he
    next => cases he

/-- The history of a schedule from the beginning. -/
def historyOf (prog : Nat → Op Nat Nat) (is : List Nat) : Option (List (Ev Nat Nat)) :=
  (sched (fun a b => some (a == b)) prog true is State.init []).map (·.2)

theorem historyOf_exec {prog : Nat → Op Nat Nat} {is : List Nat} {h : List (Ev Nat Nat)}
    (he : historyOf prog is = some h) : ∃ s, Exec (fun a b => some (a == b)) prog h s := by
  simp only [historyOf, Option.map_eq_some_iff] at he
  obtain ⟨⟨s, h'⟩, h1, rfl⟩ := he
  exact ⟨s, sched_exec .init h1⟩

/-! ## C01 -/

/-- C01. -/
theorem rwmap_linearizable (hx : Exec eqv prog h s) : Linearizable eqv prog h := by
  obtain ⟨g, I, rfl⟩ := exec_inv hx
  exact ⟨_, I.linearizes⟩

/-- Calls for the examples. -/
def exProg : Nat → Op Nat Nat
  | 0 => .swap 7 1
  | 1 => .load 7
  | 2 => .loadAndDelete 7
  | 3 => .swap 8 2
  | 4 => .load 7
  | 5 => .range
  | 6 => .clear
  | 7 => .loadOrStore 9 1
  | 8 => .loadOrStore 9 2
  | 9 => .compareAndDelete 7 1
  | _ => .len

/-- Call `i` steps `n` times. -/
def rep (n i : Nat) : List Nat := List.replicate n i

/-- Loads 1 and 4 overlap the removal 2.  Load 4, which starts and finishes after load 1 started,
misses the key (the entry is no longer in `dirty`); then load 1, which found the entry before it was
deleted from `dirty`, still returns the value. -/
def exHist : List (Ev Nat Nat) :=
  [.inv 0, .ret 0 (.opt none), .inv 3, .ret 3 (.opt none), .inv 1, .inv 2, .inv 4,
   .ret 4 (.opt none), .ret 1 (.opt (some 1)), .ret 2 (.opt (some 1))]

theorem exHist_exec : ∃ s, Exec (fun a b => some (a == b)) exProg exHist s :=
  historyOf_exec (is := rep 10 0 ++ rep 7 3 ++ rep 5 1 ++ rep 6 2 ++ rep 3 4 ++ rep 2 1 ++ rep 4 2) rfl

example : Linearizable (fun a b => some (a == b)) exProg exHist :=
  exHist_exec.elim fun _ hx => rwmap_linearizable hx

theorem effects_none {M : List (LEv K V)} (hM : ∀ i, (prog i).isMap = true → .eff i ∉ M)
    (A : AMap K V) : effects eqv prog M A = A := by
  induction M generalizing A with
  | nil => rfl
  | cons x M ih =>
    have hM' : ∀ i, (prog i).isMap = true → .eff i ∉ M := fun i hi h => hM i hi (by simp [h])
    cases x with
    | eff i =>
      have : (apply eqv (prog i) A).1 = A := by
        have := hM i
        cases hp : prog i <;> simp_all [Op.isMap, apply]
      simp only [effects, this]
      exact ih hM' A
    | _ => exact ih hM' A

/-- The specification rejects histories: a call cannot see the value of a call invoked after it
returned. -/
example : ¬ Linearizable (fun a b => some (a == b)) exProg
    [.inv 7, .ret 7 (.los 2 true), .inv 8, .ret 8 (.los 2 false)] := by
  rintro ⟨L, H⟩
  obtain ⟨M, M', hL, hr⟩ := ret_eff H (i := 7) rfl (r := .los 2 true) (by simp)
  have hone := eff_once H (i := 7) rfl hL
  have hret : ∀ r, LEv.ret 7 r ∉ M := by
    intro r hr
    have hs := (H.2 7 rfl).1
    rw [hL] at hs
    simp only [List.filter_append, List.filter_cons, LEv.call, beq_self_eq_true, if_true] at hs
    have hmM : LEv.ret 7 r ∈ M.filter (·.call == 7) := by simp [hr, LEv.call]
    have : ∀ {P Q : List (LEv Nat Nat)}, (P ++ .eff 7 :: Q = [] ∨ P ++ .eff 7 :: Q = [.inv 7] ∨
        P ++ .eff 7 :: Q = [.inv 7, .eff 7] ∨ ∃ r, P ++ .eff 7 :: Q = [.inv 7, .eff 7, .ret 7 r]) →
        LEv.ret 7 r ∉ P := by
      intro P Q hP
      match P, hP with
      | [], hP => simp
      | [a], hP => simp at hP; rcases hP with ⟨rfl, _⟩ | ⟨rfl, _⟩ <;> simp
      | [a, b], hP => simp at hP
      | a :: b :: c :: P, hP => simp at hP
    exact this hs hmM
  have hpre : M.filterMap LEv.ev? ++ M'.filterMap LEv.ev? =
      [.inv 7, .ret 7 (.los 2 true), .inv 8, .ret 8 (.los 2 false)] := by
    have := H.1
    rw [hL] at this
    simpa [List.filterMap_cons, LEv.ev?] using this
  have hno : ∀ r, Ev.ret 7 r ∉ M.filterMap LEv.ev? := by
    intro r hr
    obtain ⟨x, hx, hxe⟩ := List.mem_filterMap.1 hr
    cases x <;> simp [LEv.ev?] at hxe
    obtain ⟨rfl, rfl⟩ := hxe
    exact hret _ hx
  have hle : ∀ x ∈ M.filterMap LEv.ev?, x = Ev.inv 7 := by
    generalize M.filterMap LEv.ev? = P at hpre hno
    match P, hpre with
    | [], _ => simp
    | [a], hpre => simp at hpre; simp [hpre.1]
    | a :: b :: P, hpre =>
      simp at hpre
      exact absurd (by simp [hpre.2.1]) (hno (.los 2 true))
  have heff : ∀ i, (exProg i).isMap = true → LEv.eff i ∉ M := by
    intro i hi he
    obtain ⟨N, N', rfl⟩ := List.append_of_mem he
    have h1 := eff_once H hi (M := N) (M' := N' ++ .eff 7 :: M') (by rw [hL]; simp)
    have := hle (.inv i) (List.mem_filterMap.2 ⟨.inv i, by simp [h1.1], rfl⟩)
    cases this
    exact hone.2.1 (by simp)
  rw [resultOn, effects_none heff] at hr
  cases hr

/-! ## C02 -/

/-- C02: one linearization explains all calls, all that the Range calls call their functions with, at the time they do, and what
they have seen when they return. -/
theorem rwmap_range (hx : Exec eqv prog h s) : ∃ L, Linearizes eqv prog L h ∧ VisitOk eqv prog L ∧
    ∀ i r, prog i = .range → .ret i r ∈ h → RangeOk eqv prog L i r := by
  obtain ⟨g, I, rfl⟩ := exec_inv hx
  exact ⟨_, I.linearizes, I.visit_ok, fun i r hop hr => I.range_ok hop (mem_hist_ret.1 hr)⟩

/-- C02: a Range call calls its function at most once for each key, and what it returns is what it has called it with. -/
theorem rwmap_range_visits (hx : Exec eqv prog h s) (i : Nat) : ((visitsOf i h).map Prod.fst).Nodup ∧
    ∀ es stop, .ret i (.visited es stop) ∈ h → visitsOf i h = es :=
  ⟨exec_visits_nodup hx i, fun _ _ hr => exec_visits_ret hx hr⟩

/-- Range (5) is interrupted by the removal (2) of a key it has not visited yet. -/
example : ∃ s, Exec (fun a b => some (a == b)) exProg
    [.inv 0, .ret 0 (.opt none), .inv 3, .ret 3 (.opt none), .inv 5, .inv 2,
     .ret 2 (.opt (some 1)), .visit 5 8 2, .ret 5 (.visited [(8, 2)] false)] s :=
  historyOf_exec (is := rep 10 0 ++ rep 7 3 ++ rep 6 5 ++ rep 6 2 ++ rep 4 5) rfl

/-! ## C03 -/

/-- C03: no step panics. -/
theorem rwmap_no_panic (hx : Exec eqv prog h s) (i : Nat) : s.pc i ≠ .panic := by
  obtain ⟨g, I, _⟩ := exec_inv hx
  exact not_panic I

/-- C03: at most one call is inside a critical section, and it is the one that locked the mutex. -/
theorem lock_invariant (hx : Exec eqv prog h s) (i : Nat) :
    (s.pc i).locked = true ↔ s.sh.mu = some i := by
  obtain ⟨g, I, _⟩ := exec_inv hx
  exact I.str.mu i

/-- Change the plain fields. -/
def setPlain (s : State K V) (d : Option (List (K × Nat))) (m : Nat) : State K V :=
  { s with sh := { s.sh with dirty := d, misses := m } }

/-- C03: a step of a call that does not hold the mutex neither reads nor writes the plain fields
`dirty` and `misses`: with other contents of these fields it does the same, and leaves them as
they are. -/
theorem rwmap_plain_fields (hx : Exec eqv prog h s) {i : Nat} (hmu : s.sh.mu ≠ some i)
    (ord : List (K × Nat) → List (K × Nat)) (go : Bool) (d : Option (List (K × Nat))) (m : Nat) :
    next eqv prog ord go (setPlain s d m) i =
      (next eqv prog ord go s i).map (fun s' => setPlain s' d m) := by
  have hl : (s.pc i).locked = false := by
    cases h : (s.pc i).locked with
    | false => rfl
    | true => exact absurd ((lock_invariant hx i).1 h) hmu
  have hg : ∀ (t : State K V) c, (setPlain t d m).goto i c = setPlain (t.goto i c) d m := fun _ _ => rfl
  cases hc : s.pc i with
  | ent e lk =>
    cases lk with
    | u =>
      simp only [next, setPlain, hc, Option.map_some, entStep]
      cases prog i <;> simp only [after, Lk.raise] <;> repeat' split
      all_goals first | rfl | simp_all [State.goto]
    | l => rw [hc] at hl; cases hl
    | lm => rw [hc] at hl; cases hl
  | cas e lk p =>
    cases lk with
    | u =>
      simp only [next, setPlain, hc, Option.map_some, casStep]
      cases prog i <;> simp only [after, Sh.setEnt] <;> repeat' split
      all_goals first | rfl | simp_all [State.goto]
    | l => rw [hc] at hl; cases hl
    | lm => rw [hc] at hl; cases hl
  | rng es acc =>
    cases es with
    | nil => simp only [next, setPlain, hc, Option.map_some, State.goto]
    | cons x es =>
      simp only [next, setPlain, hc]
      cases hv : deref prog (s.sh.ent x.2) with
      | none => simp only [Option.map_some, State.goto]
      | some v => cases go <;> simp [State.goto]
  | start =>
    simp only [next, setPlain, hc, Option.map_some]
    rfl
  | acq =>
    simp only [next, setPlain, hc]
    by_cases hm : s.sh.mu = none <;> simp [hm, State.goto]
  | idle => simp only [next, setPlain, hc, Option.map_some, State.goto]
  | add d' r => simp only [next, setPlain, hc, Option.map_some, State.goto]
  | fin r => simp only [next, setPlain, hc, Option.map_some, State.goto]
  | done r => simp only [next, setPlain, hc, Option.map_none]
  | panic => simp only [next, setPlain, hc, Option.map_none]
  | _ => rw [hc] at hl; cases hl

/-- The steps that would panic in a wrong state are really taken: call 0 writes to `dirty`. -/
example : ((sched (fun a b => some (a == b)) exProg true (rep 7 0) State.init []).map
    (fun x => (x.1.sh.dirty, x.1.sh.mu))) = some (some [(7, 0)], some 0) := rfl

/-! ## C04 -/

/-- No call is in progress. -/
def Quiescent (s : State K V) : Prop := ∀ i, s.pc i = .idle ∨ ∃ r, s.pc i = .done r

/-- In the quiescent state `s`, a Range call alone, and then a Len call alone: Len returns the
number of keys Range visited. -/
def LenCorrect (eqv : V → V → Option Bool) (prog : Nat → Op K V) (s : State K V) : Prop :=
  ∀ j i s' s'' es n, prog j = .range → prog i = .len → s.pc j = .idle → s.pc i = .idle →
    Solo eqv prog j s s' → s'.pc j = .done (.visited es false) →
    Solo eqv prog i s' s'' → s''.pc i = .done (.int n) → n = es.length

theorem sched_solo {go : Bool} {i : Nat} (n : Nat) : ∀ {s s' : State K V} {h h' : List (Ev K V)},
    sched eqv prog go (rep n i) s h = some (s', h') → Solo eqv prog i s s' := by
  induction n with
  | zero => intro s s' h h' he; simp [rep, sched] at he; rw [he.1]; exact .refl
  | succ n ih =>
    intro s s' h h' he
    simp only [rep, List.replicate_succ, sched] at he
    split at he
    next t ht => exact .step (fun _ => .refl _) ht (ih he)
    next => cases he

theorem sched_other {go : Bool} {is : List Nat} : ∀ {s s' : State K V} {h h' : List (Ev K V)},
    sched eqv prog go is s h = some (s', h') → ∀ i, i ∉ is → s'.pc i = s.pc i := by
  induction is with
  | nil => intro s s' h h' he; simp [sched] at he; simp [he.1]
  | cons a is ih =>
    intro s s' h h' he i hi
    simp only [List.mem_cons, not_or] at hi
    simp only [sched] at he
    split at he
    next t ht => rw [ih he i hi.2, next_other ht hi.1]
    next => cases he

/-- C04 is false: a `Clear` between the insertion and the counter update of a `Swap` leaves
Len() = 1 for an empty map, for ever. -/
theorem rwmap_len_false : ¬ ∀ (prog : Nat → Op Nat Nat) (h : List (Ev Nat Nat)) (s : State Nat Nat),
    Exec (fun a b => some (a == b)) prog h s → Quiescent s → LenCorrect (fun a b => some (a == b)) prog s := by
  intro H
  have key : ((sched (fun a b => some (a == b)) exProg true (rep 8 0 ++ rep 8 6 ++ rep 2 0)
      State.init []).bind fun x => (sched (fun a b => some (a == b)) exProg true (rep 4 5) x.1 []).bind fun y =>
      (sched (fun a b => some (a == b)) exProg true (rep 3 10) y.1 []).map fun z =>
        (x.1.pc 0, x.1.pc 6, y.1.pc 5, z.1.pc 10)) =
      some (.done (.opt none), .done .unit, .done (.visited [] false), .done (.int 1)) := rfl
  simp only [Option.bind_eq_some_iff, Option.map_eq_some_iff, Prod.mk.injEq] at key
  obtain ⟨⟨x, hx⟩, e1, ⟨y, hy⟩, e2, ⟨z, hz⟩, e3, f1, f2, f3, f4⟩ := key
  have hq : Quiescent x := by
    intro i
    by_cases hi : i ∈ rep 8 0 ++ rep 8 6 ++ rep 2 0
    · have : i = 0 ∨ i = 6 := by simp [rep] at hi; omega
      rcases this with rfl | rfl
      · exact Or.inr ⟨_, f1⟩
      · exact Or.inr ⟨_, f2⟩
    · exact Or.inl (sched_other e1 i hi)
  have hid : ∀ i, i ≠ 0 → i ≠ 6 → x.pc i = .idle := by
    intro i h0 h6
    refine sched_other e1 i ?_
    simp [rep, h0, h6]
  have := H exProg hx x (sched_exec .init e1) hq 5 10 y z [] 1 rfl rfl (hid 5 (by simp) (by simp))
    (hid 10 (by simp) (by simp)) (sched_solo 4 e2) f3 (sched_solo 3 e3) f4
  simp at this

/-- The steps of a Len call running alone. -/
theorem solo_len {i : Nat} (hop : prog i = .len) {s s' : State K V} (hsolo : Solo eqv prog i s s')
    {n : Int} (hn : n = s.sh.len)
    (hs : s.pc i = .idle ∨ s.pc i = .start ∨ s.pc i = .fin (.int n) ∨ s.pc i = .done (.int n))
    {r : Res K V} (hr : s'.pc i = .done r) : r = .int n := by
  induction hsolo with
  | refl =>
    rcases hs with h | h | h | h <;> rw [hr] at h <;> cases h
    rfl
  | @step s s1 s2 ord go _ h1 _ ih =>
    rcases hs with h | h | h | h
    · simp only [next, h, Option.some.injEq] at h1
      subst h1
      exact ih hn (Or.inr (Or.inl (by simp))) hr
    · simp only [next, h, hop, startStep, Option.some.injEq] at h1
      subst h1
      exact ih hn (Or.inr (Or.inr (Or.inl (by simp [hn])))) hr
    · simp only [next, h, Option.some.injEq] at h1
      subst h1
      exact ih hn (Or.inr (Or.inr (Or.inr (by simp)))) hr
    · simp [next, h] at h1

theorem solo_exec {i : Nat} {s s' : State K V} (hsolo : Solo eqv prog i s s') :
    ∀ {h}, Exec eqv prog h s → ∃ evs, Exec eqv prog (h ++ evs) s' ∧
      ∀ x ∈ evs, x = Ev.inv i ∨ (∃ r, x = Ev.ret i r) ∨ ∃ k v, x = Ev.visit i k v := by
  induction hsolo with
  | refl => intro h hx; exact ⟨[], by simpa using hx, by simp⟩
  | step hord h1 _ ih =>
    intro h hx
    obtain ⟨evs, h2, h3⟩ := ih (hx.step ⟨i, _, _, hord, h1, rfl⟩)
    refine ⟨_, by rw [← List.append_assoc]; exact h2, ?_⟩
    intro x hx
    rw [List.mem_append] at hx
    rcases hx with hx | hx
    · rcases event_cases (prog := prog) _ i with ⟨_, h⟩ | ⟨r, _, h⟩ | ⟨k, _, _, _, v, _, _, h⟩ | h <;> rw [h] at hx <;> simp at hx
      · exact Or.inl hx
      · exact Or.inr (Or.inl ⟨_, hx⟩)
      · exact Or.inr (Or.inr ⟨_, _, hx⟩)
    · exact h3 x hx

theorem clearAlone_append {h evs : List (Ev K V)} (hal : ClearAlone prog h) {i : Nat}
    (hi : (prog i).isMap = false) (hev : ∀ x ∈ evs, x = Ev.inv i ∨ (∃ r, x = Ev.ret i r) ∨ ∃ k v, x = Ev.visit i k v) :
    ClearAlone prog (h ++ evs) := by
  intro a b hab c j hc hj hjc hpc hpj
  have hci : c ≠ i := by rintro rfl; rw [hc] at hi; cases hi
  have hji : j ≠ i := by rintro rfl; rw [hj] at hi; cases hi
  rcases List.append_eq_append_iff.1 hab with ⟨a', rfl, h2⟩ | ⟨b', rfl, h2⟩
  · -- all of h, and part of evs
    have hr : ∀ {x : Nat}, x ≠ i → pendingIn (h ++ a') x → pendingIn h x := by
      intro x hx hp
      refine ⟨?_, fun r hr => hp.2 r (by simp [hr])⟩
      have := hp.1
      rw [List.mem_append] at this
      rcases this with h' | h'
      · exact h'
      · rcases hev (.inv x) (by rw [h2]; simp [h']) with h'' | ⟨r, h''⟩ | ⟨_, _, h''⟩
        · exact absurd (Ev.inv.inj h'') hx
        · cases h''
        · cases h''
    exact hal h [] (by simp) c j hc hj hjc (hr hci hpc) (hr hji hpj)
  · exact hal a b' rfl c j hc hj hjc hpc hpj

/-- C04 (partial): the counter is right in every quiescent state, if no `Clear` overlapped another
call (other than Range and Len).  The full statement, `rwmap_len_false`, has no such condition. -/
theorem rwmap_len_partial (hx : Exec eqv prog h s) (hq : Quiescent s) (hal : ClearAlone prog h) :
    LenCorrect eqv prog s := by
  intro j i s' s'' es n hj hi hjs his h1 hd h2 hd2
  have hij : i ≠ j := by rintro rfl; rw [hj] at hi; cases hi
  obtain ⟨evs, hx', hev⟩ := solo_exec h1 hx
  have hal' := clearAlone_append hal (i := j) (by rw [hj]; rfl) hev
  obtain ⟨g, I, hg⟩ := exec_inv hx'
  have hset : Settled prog s' := by
    intro a ha
    have haj : a ≠ j := by rintro rfl; rw [hj] at ha; cases ha
    rw [solo_other h1 haj]
    rcases hq a with h | h
    · exact Or.inl h
    · exact Or.inr (Or.inr h)
  obtain ⟨m, hm, hlen⟩ := exec_len hx' hal' hset I hg
  have e1 : Res.int (K := K) (V := V) n = .int s'.sh.len :=
    solo_len hi h2 rfl (Or.inl (by rw [solo_other h1 hij]; exact his)) hd2
  simp only [Res.int.injEq] at e1
  rw [e1, hlen]
  have hB' := exec_book hx'
  have hB := exec_book hx
  -- what Range saw
  have hret : TE.ret j (.visited es false) ∈ g.L := by
    have := (hB'.ret j _).2 hd
    rw [← hg] at this
    exact mem_hist_ret.1 this
  obtain ⟨es', stop, he, hnd, hsome, hnone⟩ := I.range_ok hj hret
  simp only [Res.visited.injEq] at he
  obtain ⟨rfl, rfl⟩ := he
  -- nothing takes effect after the invocation of Range
  have hfin : ∀ L1 L2, levs g.L = L1 ++ L2 → .inv j ∈ L1 →
      effects eqv prog L1 AMap.empty = run eqv prog g.L AMap.empty := by
    intro L1 L2 hL hjL
    obtain ⟨M1, M2, hM, k1, k2⟩ := List.filterMap_eq_append_iff.1 hL
    have k1 : levs M1 = L1 := k1
    rw [hM, run_append, ← k1, effects_levs]
    refine (run_no_lin ?_ _).symm
    intro a r ha
    have ham := I.lin_isMap (show TE.lin a r ∈ g.L by rw [hM]; simp [ha])
    have haj : a ≠ j := by rintro rfl; rw [hj] at ham; cases ham
    have hjM : TE.inv j ∈ M1 := by rw [← k1] at hjL; exact inv_mem_levs.1 hjL
    have hpa : TE.lin a r ∈ proj a g.L := mem_proj.2 ⟨by rw [hM]; simp [ha], rfl⟩
    have hpc := solo_other h1 haj
    rcases hq a with h0 | ⟨r', h0⟩
    · rw [I.map_evs (hpc.trans h0) ham] at hpa; simp [Verif.RWMap.evs] at hpa
    · have hra : Ev.ret a r' ∈ h := (hB.ret a r').2 h0
      have hnj : Ev.inv j ∉ h := fun hx => (hB.inv j).1 hx hjs
      have hh : hist M1 ++ hist M2 = h ++ evs := by rw [← hist_append, ← hM, hg]
      have : Ev.ret a r' ∈ hist M1 := by
        rcases List.append_eq_append_iff.1 hh with ⟨x, hx1, _⟩ | ⟨x, hx1, _⟩
        · exact absurd (by rw [hx1]; simp [mem_hist_inv.2 hjM]) hnj
        · rw [hx1]; simp [hra]
      exact I.no_later hM (mem_hist_ret.1 this) ha
  have hes : (run eqv prog g.L AMap.empty).Card es.length := by
    refine ⟨es.map Prod.fst, hnd, ?_, by simp⟩
    intro k
    constructor
    · intro hk
      obtain ⟨⟨k', v⟩, hkv, rfl⟩ := List.mem_map.1 hk
      obtain ⟨L1, L2, a1, a2, _, a4⟩ := hsome k' v hkv
      rw [hfin L1 L2 a1 a2] at a4
      rw [a4]; simp
    · intro hk
      by_contra hno
      obtain ⟨L1, L2, a1, a2, _, a4⟩ := hnone rfl k hno
      rw [hfin L1 L2 a1 a2] at a4
      exact hk a4
  rw [card_unique hm hes]

/-- Such an execution, with a `Clear` in it; afterwards Range visits one key and Len is 1. -/
example : ((sched (fun a b => some (a == b)) exProg true
    (rep 10 0 ++ rep 8 6 ++ rep 9 3 ++ rep 9 5 ++ rep 3 10) State.init []).map (·.2)) =
    some [.inv 0, .ret 0 (.opt none), .inv 6, .ret 6 .unit, .inv 3, .ret 3 (.opt none),
      .inv 5, .visit 5 8 2, .ret 5 (.visited [(8, 2)] false), .inv 10, .ret 10 (.int 1)] := rfl

/-! ## C05 -/

/-- C05: if only `LoadOrStore` calls write `k`, and one of them has returned, there is one winner
`w`: every such call returns the value of `w`, and reports `loaded` unless it is `w`. -/
theorem rwmap_loadOrStore_once (hx : Exec eqv prog h s) {k : K}
    (honly : ∀ i, Ev.inv i ∈ h → (prog i).writes k = true → ∃ v, prog i = .loadOrStore k v)
    {i0 : Nat} {v0 : V} {r0 : Res K V} (h0 : prog i0 = .loadOrStore k v0) (hr0 : Ev.ret i0 r0 ∈ h) :
    ∃ w v, prog w = .loadOrStore k v ∧ Ev.inv w ∈ h ∧ ∀ i vi r, prog i = .loadOrStore k vi →
      Ev.ret i r ∈ h → r = .los v (i ≠ w) := by
  obtain ⟨L, H⟩ := rwmap_linearizable hx
  exact los_winner H honly h0 hr0

/-- Two calls race, both having seen that the key is missing. -/
example : ∃ s, Exec (fun a b => some (a == b)) exProg
    [.inv 7, .inv 8, .ret 7 (.los 1 false), .ret 8 (.los 1 true)] s :=
  historyOf_exec (is := rep 2 7 ++ rep 2 8 ++ rep 8 7 ++ rep 6 8) rfl

/-! ## C06 -/

/-- C06: if at most one call (`st`) can have stored a value for `k`, at most one call reports that
it removed `k`, and the value it returns is the one stored by `st`. -/
theorem rwmap_one_remover (hx : Exec eqv prog h s) {k : K} {st : Nat}
    (honly : ∀ i, Ev.inv i ∈ h → (prog i).stores k = true → i = st)
    {i j : Nat} {r r' : Res K V} {o o' : Option V} (hi : Ev.ret i r ∈ h) (hj : Ev.ret j r' ∈ h)
    (hri : (prog i).Removed k r o) (hrj : (prog j).Removed k r' o') :
    i = j ∧ ∀ v, o = some v → (prog st).Stored k v := by
  obtain ⟨L, H⟩ := rwmap_linearizable hx
  exact one_remover H honly hi hj hri hrj

/-- Calls 9 (CompareAndDelete) and 2 (LoadAndDelete) both find the entry, and 2 has already deleted
it from `dirty` when 9 wins. -/
example : ∃ s, Exec (fun a b => some (a == b)) exProg
    [.inv 0, .ret 0 (.opt none), .inv 3, .ret 3 (.opt none), .inv 9, .inv 2,
     .ret 9 (.bool true), .ret 2 (.opt none)] s :=
  historyOf_exec (is := rep 10 0 ++ rep 7 3 ++ rep 5 9 ++ rep 7 2 ++ rep 4 9 ++ rep 3 2) rfl

/-! ## C07 -/

/-- C07: from every reachable state the calls in progress can all be completed, without any new
call; then the mutex is free. -/
theorem rwmap_can_complete (hx : Exec eqv prog h s) :
    ∃ s', Cont eqv prog s s' ∧ s'.sh.mu = none ∧
      (∀ i, (s.pc i = .idle ∨ ∃ r, s.pc i = .done r) → s'.pc i = s.pc i) ∧ Quiescent s' :=
  complete hx

/-- C07: a call that has returned does not hold the mutex; nor does a Range call that is about to
call its callback, which may therefore use the map. -/
theorem rwmap_unlocked (hx : Exec eqv prog h s) {i : Nat}
    (hi : (∃ r, s.pc i = .done r) ∨ ∃ es acc, s.pc i = .rng es acc) : s.sh.mu ≠ some i := by
  intro hm
  have := (lock_invariant hx i).2 hm
  rcases hi with ⟨r, h⟩ | ⟨es, acc, h⟩ <;> rw [h] at this <;> cases this

/-- A state with a call in the critical section and another one waiting for the mutex. -/
example : ((sched (fun a b => some (a == b)) exProg true (rep 5 0 ++ rep 2 3) State.init []).map
    (fun x => (x.1.sh.mu, x.1.pc 3))) = some (some 0, .acq) := rfl

end Verif.RWMap
