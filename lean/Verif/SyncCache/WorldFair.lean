import Verif.SyncCache.Settle
import Verif.SyncCache.Round
/-!
# The trimmer of all caches under fair schedulers (C175)

Executions of the process (`World.lean`) without end.
-/
namespace Verif.SyncCache
open Verif.Refresh (get_snoc get_lt get_keep get_new)
variable {K V : Type} [DecidableEq K]

/-! ## Specification -/

/-- An execution of the process without end: its state before the `n`-th step; what decides that step; what happens in it. `tr` is what happened before. -/
structure WForever (cfg : Nat → Cfg V) (tr : List (WEv K V)) (f : Nat → World K V) (inp : Nat → WIn K V) (ev : Nat → WEv K V) : Prop where
  start : WExec cfg tr (f 0)
  step : ∀ n, wstep cfg (f n) (inp n) = some (f (n + 1), ev n)

/-- The goroutine that trims has its turns: if from some time on it can always make a step of its round, it makes one. (Callbacks it runs come to an end.) -/
def WFair (cfg : Nat → Cfg V) (f : Nat → World K V) (inp : Nat → WIn K V) : Prop :=
  ∀ t N, (∀ n, N ≤ n → ∃ x w e, x.by t ∧ wstep cfg (f n) x = some (w, e)) → ∃ n, N ≤ n ∧ (inp n).by t

variable {cfg : Nat → Cfg V} {tr : List (WEv K V)} {w w' : World K V} {e : WEv K V} {c t n m p q N z : Nat} {x : WIn K V} {ks : List Nat}
  {f : Nat → World K V} {inp : Nat → WIn K V} {ev : Nat → WEv K V}

/-! ## Steps -/

/-- The trimmer is never in `LoadOrStore`. -/
theorem WExec.trim_los (h : WExec cfg tr w) : ∀ t c, losOf ((w.st c).pc (2 * t)) = none := by
  induction h with
  | nil => intro t c; rfl
  | @snoc tr w inp w' e h0 hs ih =>
    have hg := h0.good_view.1
    have hW := wstep_WStep hs
    intro t c
    have one : ∀ {c' i : Nat} {y : In K V} {s : State K V} {e' : Ev K V}, SyncCache.step (cfg c') (w.hist c') (w.st c') i y = some (s, e') →
        (i = 2 * t → (w.st c').pc i ≠ .idle) → losOf (((w.put c' s).st c).pc (2 * t)) = none := by
      intro c' i y s e' he hi
      by_cases hc : c = c'
      · subst hc
        simp only [World.put, Function.update_self]
        by_cases hi' : 2 * t = i
        · subst hi'
          rcases (step_Step he).losOf (hi rfl) with h1 | ⟨r, h1 | h1⟩
          · rw [h1]; exact ih t c
          · rw [h1]; rfl
          · rw [h1]; rfl
        · rw [(step_Step he).other hi']; exact ih t c
      · simp only [World.put, Function.update_of_ne hc]; exact ih t c
    cases hW with
    | @user c' i y s e h1 h2 h3 he =>
      rw [(reg_st (w := w.put c' s) (c := c') (e := e)).1]
      exact one he (fun h => by omega)
    | enter => exact ih t c
    | skip => exact ih t c
    | spawn => exact ih t c
    | leave => exact ih t c
    | @tick t' ks h1 h2 h3 h4 =>
      simp only
      split
      · by_cases ht : 2 * t = 2 * t'
        · rw [ht, State.go_pc]; rfl
        · simp only [State.go, Function.update_of_ne ht]; exact ih t c
      · exact ih t c
    | @trim t' c' ks y s e h1 h2 he h3 h4 => exact one he fun _ => (hg.busy t' c').2 ⟨_, h1, h2⟩
    | @ret t' c' ks y s e h1 he h3 h4 => exact one he fun _ => (hg.busy t' c').2 ⟨_, h1, List.mem_cons_self ..⟩
    | fin => exact ih t c

/-- What others do does not touch the round of goroutine `t`. -/
theorem wstep_frame (h : wstep cfg w x = some (w', e)) (ht : w.tpc t = .round ks) (hx : ¬ x.by t) :
    w'.tpc t = .round ks ∧ ∀ c, (w'.st c).pc (2 * t) = (w.st c).pc (2 * t) := by
  have one : ∀ {c' i : Nat} {y : In K V} {s : State K V} {e' : Ev K V}, SyncCache.step (cfg c') (w.hist c') (w.st c') i y = some (s, e') →
      2 * t ≠ i → ∀ c, ((w.put c' s).st c).pc (2 * t) = (w.st c).pc (2 * t) := by
    intro c' i y s e' he hi c
    by_cases hc : c = c'
    · subst hc
      simp only [World.put, Function.update_self]
      exact (step_Step he).other hi
    · simp only [World.put, Function.update_of_ne hc]
  cases x with
  | user c i y =>
    simp only [wstep] at h
    split at h
    · next hc =>
      split at h
      · cases h
      · next s e' he =>
        cases h
        obtain ⟨r1, -, r3, -⟩ := reg_st (w := w.put c s) (c := c) (e := e')
        rw [r1, r3]
        exact ⟨ht, one he (by omega)⟩
    · cases h
  | once c i =>
    simp only [wstep] at h
    split at h <;> cases h <;> exact ⟨ht, fun _ => rfl⟩
  | tick t' ks' =>
    simp only [wstep] at h
    split at h
    · next h1 =>
      split at h
      · cases h
        have hne : t ≠ t' := by rintro rfl; rw [ht] at h1; cases h1
        refine ⟨by simp only [Function.update_of_ne hne]; exact ht, fun c => ?_⟩
        simp only
        split
        · simp only [State.go, Function.update_of_ne (show 2 * t ≠ 2 * t' by omega)]
        · rfl
      · cases h
    · cases h
  | look t' c =>
    simp only [WIn.by] at hx
    simp only [wstep] at h
    split at h
    · cases h
    · split at h
      · split at h
        · cases h
        · next he => cases h; exact ⟨ht, one he (by omega)⟩
      · cases h
  | run t' y =>
    simp only [WIn.by] at hx
    simp only [wstep] at h
    split at h
    · split at h
      · cases h
      · split at h
        · cases h
        · next he =>
          cases h
          refine ⟨?_, one he (by omega)⟩
          simp only
          split
          · rw [Function.update_of_ne (Ne.symm hx)]; exact ht
          · exact ht
    · cases h
  | fin t' =>
    simp only [WIn.by] at hx
    simp only [wstep] at h
    split at h
    · cases h
      exact ⟨by simp only [Function.update_of_ne (Ne.symm hx)]; exact ht, fun _ => rfl⟩
    · cases h

/-- The caches not yet looked up. -/
def unseen (w : World K V) (t : Nat) (ks : List Nat) : Nat := ks.countP fun c => ((w.st c).pc (2 * t)).isReg

/-- The place in the cache whose turn it is. -/
def front (w : World K V) (t : Nat) : List Nat → Nat × Nat × Nat
  | [] => (0, 0, 0)
  | c :: _ => height ((w.st c).pc (2 * t))

abbrev lt5 : Nat × Nat × Nat × Nat × Nat → Nat × Nat × Nat × Nat × Nat → Prop := Prod.Lex (· < ·) (Prod.Lex (· < ·) lt3)

theorem lt5_wf : WellFounded lt5 :=
  (Prod.lex Nat.lt_wfRel (Prod.lex Nat.lt_wfRel (Prod.lex Nat.lt_wfRel (Prod.lex Nat.lt_wfRel Nat.lt_wfRel)))).wf

def workLeft (w : World K V) (t : Nat) (ks : List Nat) : Nat × Nat × Nat × Nat × Nat := (ks.length, unseen w t ks, front w t ks)

theorem countP_lt {P Q : Nat → Bool} {l : List Nat} (h : ∀ y, P y = true → Q y = true) {y : Nat} (hy : y ∈ l) (h1 : Q y = true) (h2 : P y = false) :
    l.countP P < l.countP Q := by
  induction l with
  | nil => cases hy
  | cons b l ih =>
    have hle : l.countP P ≤ l.countP Q := List.countP_mono_left fun y _ => h y
    rw [List.countP_cons, List.countP_cons]
    rcases List.mem_cons.1 hy with rfl | hy
    · rw [if_neg (by simp [h2]), if_pos h1]; omega
    · have := ih hy
      by_cases hb : P b = true
      · rw [if_pos hb, if_pos (h b hb)]; omega
      · rw [if_neg hb]; omega

/-- A step of the round: it ends, or there is less to do. -/
theorem wstep_workLeft (hx : WExec cfg tr w) (h : wstep cfg w x = some (w', e)) (ht : w.tpc t = .round ks) (hb : x.by t) :
    e = .fin t ∨ ∃ ks', w'.tpc t = .round ks' ∧ (∀ c ∈ ks', c ∈ ks) ∧ lt5 (workLeft w' t ks') (workLeft w t ks) := by
  have hg := hx.good_view.1
  -- in a cache, without return
  have one : ∀ {c' : Nat} {y : In K V} {s : State K V} {e' : Ev K V}, SyncCache.step (cfg c') (w.hist c') (w.st c') (2 * t) y = some (s, e') → c' ∈ ks →
      ∀ c, (((w.put c' s).st c).pc (2 * t)).isReg = true → ((w.st c).pc (2 * t)).isReg = true ∧ c ≠ c' := by
    intro c' y s e' he hc' c hc
    by_cases hcc : c = c'
    · subst hcc
      simp only [World.put, Function.update_self] at hc
      exact absurd (isReg_iff.1 hc) (step_tkReg he ((hg.busy t c).2 ⟨_, ht, hc'⟩))
    · simp only [World.put, Function.update_of_ne hcc] at hc
      exact ⟨hc, hcc⟩
  cases x with
  | user => exact hb.elim
  | once => exact hb.elim
  | tick => exact hb.elim
  | look t' c =>
    simp only [WIn.by] at hb
    subst hb
    simp only [wstep, ht] at h
    split at h
    · next h2 =>
      split at h
      · cases h
      · next s e' he =>
        cases h
        right
        refine ⟨ks, ht, fun _ h => h, .right _ (.left _ _ (countP_lt (fun y hy => (one he h2.1 y hy).1) h2.1 h2.2 ?_))⟩
        cases hr : (((w.put c s).st c).pc (2 * t')).isReg with
        | false => rfl
        | true => exact absurd rfl (one he h2.1 c hr).2
    · cases h
  | run t' y =>
    simp only [WIn.by] at hb
    subst hb
    cases ks with
    | nil => simp [wstep, ht] at h
    | cons c ks =>
      simp only [wstep, ht] at h
      split at h
      · cases h
      · next h2 =>
        split at h
        · cases h
        · next s e' he =>
          cases h
          right
          cases hr : e'.isRet with
          | true =>
            refine ⟨ks, by simp, fun _ h => List.mem_cons_of_mem _ h, .left _ _ (by simp)⟩
          | false =>
            refine ⟨c :: ks, by simpa using ht, fun _ h => h, ?_⟩
            have hi := (hg.busy t' c).2 ⟨_, ht, List.mem_cons_self ..⟩
            have hle : unseen (w.put c s) t' (c :: ks) ≤ unseen w t' (c :: ks) :=
              List.countP_mono_left fun y _ hy => (one he (List.mem_cons_self ..) y hy).1
            have hlt : lt3 (front (w.put c s) t' (c :: ks)) (front w t' (c :: ks)) := by
              simp only [front, World.put, Function.update_self]
              rcases (step_Step he).rank hi with h1 | ⟨k, a, h1, -⟩
              · exact h1
              · rw [hx.trim_los] at h1; cases h1
            rcases Nat.lt_or_eq_of_le hle with h1 | h1
            · exact .right _ (.left _ _ h1)
            · show Prod.Lex _ _ (_, unseen (w.put c s) t' (c :: ks), front (w.put c s) t' (c :: ks)) (_, unseen w t' (c :: ks), front w t' (c :: ks))
              rw [h1]
              exact .right _ (.right _ hlt)
  | fin t' =>
    simp only [WIn.by] at hb
    subst hb
    simp only [wstep] at h
    split at h
    · cases h; exact .inl rfl
    · cases h

/-- A round can go on, unless a callback has panicked. -/
theorem WExec.can_go (h : WExec cfg tr w) (ht : w.tpc t = .round ks) (hp : ∀ c ∈ ks, (w.st c).pc (2 * t) ≠ .done .panicked) :
    ∃ x w' e, x.by t ∧ wstep cfg w x = some (w', e) := by
  cases ks with
  | nil => exact ⟨.fin t, { w with tpc := Function.update w.tpc t .wait }, .fin t, rfl, by simp only [wstep, ht]⟩
  | cons c ks =>
    have hi := (h.good_view.1.busy t c).2 ⟨_, ht, List.mem_cons_self ..⟩
    by_cases hr : (w.st c).pc (2 * t) = .tkReg
    · have hl : ∃ x, wstep cfg w (.look t c) = some x := by
        simp only [wstep, ht]
        rw [if_pos ⟨List.mem_cons_self .., isReg_iff.2 hr⟩]
        simp only [step, hr]
        exact ⟨_, rfl⟩
      obtain ⟨⟨w', e⟩, hl⟩ := hl
      exact ⟨.look t c, w', e, rfl, hl⟩
    · obtain ⟨y, s', e, hs⟩ := sync_no_wait (world_cache h c) hi
      have hl : ∃ x, wstep cfg w (.run t y) = some x := by
        simp only [wstep, ht]
        rw [if_neg (by rw [isReg_iff, isPanic_iff]; exact fun h => h.elim hr (hp c (List.mem_cons_self ..))), hs]
        exact ⟨_, rfl⟩
      obtain ⟨⟨w', e⟩, hl⟩ := hl
      exact ⟨.run t y, w', e, rfl, hl⟩

/-- In a cache the trimmer makes no calls but those of its rounds. -/
theorem WExec.only_tick {op : Op K V} (h : WExec cfg tr w) (hz : (view c tr)[z]? = some (.call (2 * t) op)) : op = .tick := by
  obtain ⟨m, -, y, h2, h3⟩ := view_take_get hz
  cases y with
  | tick t' ks =>
    simp only [WEv.on] at h3
    split at h3
    · injection h3 with h3; injection h3 with _ h3; exact h3.symm
    · cases h3
  | ev c' e' =>
    simp only [WEv.on] at h3
    split at h3
    swap
    · cases h3
    cases h3
    obtain ⟨w0, y, w1, b1, b2⟩ := h.at h2
    generalize hE : (WEv.ev c' (.call (2 * t) op) : WEv K V) = E at b2
    have hW := wstep_WStep b2
    cases hW with
    | user h1 h2 h3 he =>
      cases hE
      have := (step_Step he).tid
      simp only [Ev.tid] at this
      omega
    | @trim t' c' ks y s e h1 h2 he h3 h4 =>
      cases hE
      exact absurd (step_isCall he) ((b1.good_view.1.busy _ _).2 ⟨_, h1, h2⟩)
    | ret h1 he h3 h4 => cases hE; cases h3
    | _ => cases hE
  | _ => cases h3

/-- If the trimmer has panicked in a cache, a callback did. -/
theorem WExec.panicked (h : WExec cfg tr w) (hp : tr[p]? = some (.tick t ks)) (hc : c ∈ ks) (hd : (w.st c).pc (2 * t) = .done .panicked) :
    ∃ n, p < n ∧ tr[n]? = some (.ev c (.cbEnd (2 * t) false)) := by
  have hx := world_cache h c
  obtain ⟨p', op, h1, h2⟩ := hx.blame _ hd
  have hop := h.only_tick h1.1
  subst hop
  have hp' : (view c tr)[(view c (tr.take p)).length]? = some (.call (2 * t) .tick) := view_get hp (by simp [WEv.on, hc])
  have hle : (view c (tr.take p)).length ≤ p' := by
    by_contra hno
    exact h1.2 _ _ (by omega) hp'
  rcases h2 with ⟨n, h3, h4⟩ | ⟨n, h3, h4⟩ | ⟨_, _, _, _, h3, _⟩ | ⟨_, h3, _⟩
  · obtain ⟨m, m1, m2, m3⟩ := view_ev h4 nofun
    exact ⟨m, view_lt (c := c) (tr := tr) (by omega), m3⟩
  · exact absurd h4 (hx.tick_yield ⟨by have := get_lt h4; omega, h1.1, fun k op' a _ => h1.2 k op' a⟩ h3 (get_lt h4))
  · cases h3
  · exact h3.elim

/-! ## Executions without end -/

/-- What has happened before the `n`-th step. -/
def wsofar (tr : List (WEv K V)) (ev : Nat → WEv K V) (n : Nat) : List (WEv K V) := tr ++ (List.range n).map ev

omit [DecidableEq K] in
theorem wsofar_succ : wsofar tr ev (n + 1) = wsofar tr ev n ++ [ev n] := by simp [wsofar, List.range_succ]

omit [DecidableEq K] in
theorem wsofar_get (h : z < n) : (wsofar tr ev n)[tr.length + z]? = some (ev z) := by simp [wsofar, h]

omit [DecidableEq K] in
theorem wsofar_length : (wsofar tr ev n).length = tr.length + n := by simp [wsofar]

omit [DecidableEq K] in
theorem wsofar_take (h : z ≤ n) : (wsofar tr ev n).take (tr.length + z) = wsofar tr ev z := by
  simp [wsofar, List.take_append, ← List.map_take, List.take_range, Nat.min_eq_left h]

theorem WForever.exec (hf : WForever cfg tr f inp ev) (n : Nat) : WExec cfg (wsofar tr ev n) (f n) := by
  induction n with
  | zero => simpa [wsofar] using hf.start
  | succ n ih => rw [wsofar_succ]; exact .snoc ih (hf.step n)

theorem wstep_tick (h : wstep cfg w x = some (w', .tick t ks)) : w'.tpc t = .round ks := by
  generalize hE : (WEv.tick t ks : WEv K V) = E at h
  have hW := wstep_WStep h
  cases hW with
  | tick => cases hE; simp
  | _ => cases hE

/-- **C175**: under a fair scheduler a round of the trimmer comes to an end, whatever the users of the caches do, unless a callback that it runs panics. -/
theorem C175_round (hf : WForever cfg tr f inp ev) (hfair : WFair cfg f inp) (hn : ev n = .tick t ks)
    (hcb : ∀ m c, n < m → c ∈ ks → ev m ≠ .ev c (.cbEnd (2 * t) false)) : ∃ m, n < m ∧ ev m = .fin t := by
  by_contra hno
  -- the round goes on
  have nopanic : ∀ m c, c ∈ ks → n < m → ((f m).st c).pc (2 * t) ≠ .done .panicked := by
    intro m c hc hm hd
    obtain ⟨y, h1, h2⟩ := (hf.exec m).panicked (p := tr.length + n) (by rw [wsofar_get hm, hn]) hc hd
    have := get_lt h2
    rw [wsofar_length] at this
    obtain ⟨y, rfl⟩ := Nat.exists_eq_add_of_le (show tr.length ≤ y by omega)
    rw [wsofar_get (by omega), Option.some.injEq] at h2
    exact hcb y c (by omega) hc h2
  have stays : ∀ d, ∃ ks', (f (n + 1 + d)).tpc t = .round ks' ∧ ∀ c ∈ ks', c ∈ ks := by
    intro d
    induction d with
    | zero =>
      have h := hf.step n
      rw [hn] at h
      exact ⟨ks, wstep_tick h, fun _ h => h⟩
    | succ d ih =>
      obtain ⟨ks', h1, h2⟩ := ih
      by_cases hb : (inp (n + 1 + d)).by t
      · rcases wstep_workLeft (hf.exec _) (hf.step _) h1 hb with h3 | ⟨ks'', h3, h4, -⟩
        · exact absurd ⟨_, by omega, h3⟩ hno
        · exact ⟨ks'', h3, fun c hc => h2 c (h4 c hc)⟩
      · exact ⟨ks', (wstep_frame (hf.step _) h1 hb).1, h2⟩
  have go : ∀ N, n < N → ∃ m, N ≤ m ∧ (inp m).by t := by
    intro N hN
    refine hfair t N fun m hm => ?_
    obtain ⟨d, rfl⟩ := Nat.exists_eq_add_of_le (show n + 1 ≤ m by omega)
    obtain ⟨ks', h1, h2⟩ := stays d
    exact (hf.exec _).can_go h1 fun c hc => nopanic _ c (h2 c hc) (by omega)
  have down : ∀ (y : Nat × Nat × Nat × Nat × Nat) (N : Nat) (ks' : List Nat), n < N → (f N).tpc t = .round ks' → workLeft (f N) t ks' = y → False := by
    intro y
    induction y using lt5_wf.induction with
    | h y ih =>
      rintro N ks' hN h1 rfl
      obtain ⟨m, ⟨hm, hb⟩, hfirst⟩ := least (go N hN)
      have same : ∀ d, N + d ≤ m → (f (N + d)).tpc t = .round ks' ∧ ∀ c, ((f (N + d)).st c).pc (2 * t) = ((f N).st c).pc (2 * t) := by
        intro d
        induction d with
        | zero => intro _; exact ⟨h1, fun _ => rfl⟩
        | succ d ihd =>
          intro hd
          obtain ⟨h2, h3⟩ := ihd (by omega)
          obtain ⟨h4, h5⟩ := wstep_frame (hf.step (N + d)) h2 fun hb' => hfirst (N + d) (by omega) ⟨by omega, hb'⟩
          exact ⟨h4, fun c => (h5 c).trans (h3 c)⟩
      obtain ⟨d, rfl⟩ := Nat.exists_eq_add_of_le hm
      obtain ⟨h2, h3⟩ := same d (Nat.le_refl _)
      rcases wstep_workLeft (hf.exec _) (hf.step _) h2 hb with h4 | ⟨ks'', h4, -, h5⟩
      · exact hno ⟨_, by omega, h4⟩
      · refine ih _ ?_ (N + d + 1) ks'' (by omega) h4 rfl
        have : workLeft (f (N + d)) t ks' = workLeft (f N) t ks' := by
          cases ks' <;> simp only [workLeft, unseen, front, h3]
        rw [this] at h5
        exact h5
  have h := hf.step n
  rw [hn] at h
  exact down _ (n + 1) ks (by omega) (wstep_tick h) rfl

theorem wstep_cache {e : Ev K V} (h : wstep cfg w x = some (w', .ev c e)) : ∃ i y s, step (cfg c) (w.hist c) (w.st c) i y = some (s, e) := by
  generalize hE : (WEv.ev c e : WEv K V) = E at h
  have hW := wstep_WStep h
  cases hW with
  | user h1 h2 h3 he => cases hE; exact ⟨_, _, _, he⟩
  | trim h1 h2 he h3 h4 => cases hE; exact ⟨_, _, _, he⟩
  | ret h1 he h3 h4 => cases hE; exact ⟨_, _, _, he⟩
  | _ => cases hE

theorem wstep_tick_wait (h : wstep cfg w x = some (w', .tick t ks)) : w.tpc t = .wait := by
  generalize hE : (WEv.tick t ks : WEv K V) = E at h
  have hW := wstep_WStep h
  cases hW with
  | tick => cases hE; assumption
  | _ => cases hE

/-- From the beginning of a round to its end. -/
theorem WForever.round (hf : WForever cfg tr f inp ev) (hn : ev n = .tick t ks) (hm : n < m) (hfin : ev m = .fin t) (hno : ∀ y, n < y → y < m → ev y ≠ .fin t)
    (hz : m < z) : Round (wsofar tr ev z) t (tr.length + n) ks (tr.length + m) := by
  have stays : ∀ d, n + 1 + d ≤ m → ∃ ks', (f (n + 1 + d)).tpc t = .round ks' := by
    intro d
    induction d with
    | zero =>
      intro _
      have h := hf.step n
      rw [hn] at h
      exact ⟨ks, wstep_tick h⟩
    | succ d ih =>
      intro hd
      obtain ⟨ks', h1⟩ := ih (by omega)
      by_cases hb : (inp (n + 1 + d)).by t
      · rcases wstep_workLeft (hf.exec _) (hf.step _) h1 hb with h3 | ⟨ks'', h3, -⟩
        · exact absurd h3 (hno _ (by omega) (by omega))
        · exact ⟨ks'', h3⟩
      · exact ⟨ks', (wstep_frame (hf.step _) h1 hb).1⟩
  refine ⟨by omega, by rw [wsofar_get (by omega), hn], by rw [wsofar_get hz, hfin], fun y ks' h1 h2 hy => ?_⟩
  obtain ⟨y, rfl⟩ := Nat.exists_eq_add_of_le (show tr.length ≤ y by omega)
  rw [wsofar_get (by omega), Option.some.injEq] at hy
  obtain ⟨d, rfl⟩ := Nat.exists_eq_add_of_le (show n + 1 ≤ y by omega)
  obtain ⟨ks'', h3⟩ := stays d (by omega)
  have h := hf.step (n + 1 + d)
  rw [hy] at h
  rw [wstep_tick_wait h] at h3
  cases h3

theorem WForever.content (hf : WForever cfg tr f inp ev) (h : z ≤ n) (k : K) :
    SyncCache.content (view c ((wsofar tr ev n).take (tr.length + z))) k = ((f z).st c).m.get k := by
  rw [wsofar_take h]; exact ((world_cache (hf.exec z) c).glob.map k).symm

/-- An entry that has left a cache does not come back. -/
theorem WForever.gone (hf : WForever cfg tr f inp ev) {k k' : K} {a : Nat} (h0 : ((f n).st c).m.get k = some a) (h1 : ((f m).st c).m.get k ≠ some a) (hnm : n ≤ m)
    (hz : m ≤ z) : ((f z).st c).m.get k' ≠ some a := by
  intro h2
  have hx := world_cache (hf.exec z) c
  have cut : ∀ {y}, y ≤ z → ∀ k, SyncCache.content ((view c (wsofar tr ev z)).take (view c ((wsofar tr ev z).take (tr.length + y))).length) k = ((f y).st c).m.get k := by
    intro y hy k
    rw [← view_take, hf.content hy]
  refine hx.gone (k := k) (k' := k') (a := a) (z1 := (view c ((wsofar tr ev z).take (tr.length + n))).length)
    (z2 := (view c ((wsofar tr ev z).take (tr.length + m))).length) (z3 := (view c ((wsofar tr ev z).take (tr.length + z))).length) ?_ ?_
    (view_mono (by omega)) (view_mono (by omega)) ?_
  · rw [cut (by omega)]; exact h0
  · rw [cut hz]; exact h1
  · rw [cut (Nat.le_refl _)]; exact h2

/-- **C175**: a cache staying registered, the scheduler being fair, rounds of the trimmer beginning again and again and no callback panicking in them: an entry of
this cache that has expired for good leaves it for good, whatever is done with this cache and the others. -/
theorem C175_trimmed {a : Nat} {x : Int} (hf : WForever cfg tr f inp ev) (hfair : WFair cfg f inp) (hreg : ∀ n, N ≤ n → c ∈ (f n).regs)
    (htick : ∀ M, ∃ n t ks, M ≤ n ∧ ev n = .tick t ks) (hcb : ∀ n c' t, N ≤ n → ev n ≠ .ev c' (.cbEnd (2 * t) false))
    (hclk : ∀ n t now, N ≤ n → ev n = .ev c (.clock (2 * t) now) → x < ms now)
    (hexp : ∀ n y, N ≤ n → ((f n).st c).ents[a]? = some y → y.2 ≤ x) : ∃ M, ∀ n k, M ≤ n → ((f n).st c).m.get k ≠ some a := by
  by_cases hin : ∃ n k, N ≤ n ∧ ((f n).st c).m.get k = some a
  swap
  · exact ⟨N, fun n k hn h => hin ⟨n, k, hn, h⟩⟩
  obtain ⟨n0, k, hn0, h0⟩ := hin
  obtain ⟨n, t, ks, hn, htk⟩ := htick n0
  by_cases h1 : ((f n).st c).m.get k = some a
  swap
  · exact ⟨n, fun z k' hz => hf.gone h0 h1 hn hz⟩
  obtain ⟨m, ⟨hnm, hfin⟩, hno⟩ := least (C175_round hf hfair htk fun m c' hm _ => hcb m c' t (by omega))
  refine ⟨m + 1, fun z k' hz hg => ?_⟩
  have hr : Round (wsofar tr ev z) t (tr.length + n) ks (tr.length + m) := hf.round htk hnm hfin (fun y a1 a2 a3 => hno y a2 ⟨a1, a3⟩) (by omega)
  obtain ⟨y, now, g1, g2, g3, g4⟩ := world_trim (c := c) (hf.exec z) hr fun y b1 b2 => by
    obtain ⟨y, rfl⟩ := Nat.exists_eq_add_of_le (show tr.length ≤ y by omega)
    rw [wsofar_take (by omega), ← (world_cache (hf.exec y) c).regOf]
    exact ((hf.exec y).good_view.1.regs c).1 (hreg y (by omega))
  obtain ⟨y, rfl⟩ := Nat.exists_eq_add_of_le (show tr.length ≤ y by omega)
  rw [wsofar_get (by omega), Option.some.injEq] at g3
  have hlt := hclk y t now (by omega) g3
  rcases g4 k a (by rw [hf.content (by omega)]; exact h1) with h5 | ⟨v, d1, d2, d3, d4⟩
  · exact h5 (tr.length + z) k' (by omega) (by rw [hf.content (Nat.le_refl _)]; exact hg)
  · obtain ⟨v, rfl⟩ := Nat.exists_eq_add_of_le (show tr.length ≤ v by omega)
    rw [wsofar_take (by omega)] at d4
    rw [wsofar_get (by omega), Option.some.injEq] at d3
    have hs := hf.step v
    rw [d3] at hs
    obtain ⟨i, u, s, hs⟩ := wstep_cache hs
    have hs' := step_Step hs
    obtain ⟨y, hy⟩ := hs'.seen_ent
    have h6 := hexp v y (by omega) hy
    rw [(world_cache (hf.exec v) c).glob.exp a y hy] at h6
    omega

/-! ## A run without end -/

namespace WRounds

def one {A : Type} (y d : A) (c : Nat) : A := if c = 0 then y else d

theorem one0 {A : Type} (y d : A) : one y d 0 = y := rfl

theorem one_upd {A : Type} (y y' d : A) : Function.update (one y d) 0 y' = one y' d := by
  funext c; by_cases h : c = 0 <;> simp [one, h, Function.update]

theorem one_mem {A : Type} (y d : A) (g : Nat → A) : (fun c => if c = 0 then g c else one y d c) = one (g 0) d := by
  funext c; by_cases h : c = 0 <;> simp [one, h]

def at_ (m : Map Nat) (q : PC Nat Nat) : State Nat Nat := { m := m, ents := [(7, 110)], reg := true, pc := Storm.pcs q .idle }

/-- Cache 0 has been started; the trimmer makes one round after the other, and the first one finds an expired entry. -/
def st (n : Nat) : State Nat Nat :=
  match n with
  | 0 => at_ [(1, 0)] .idle
  | 1 => at_ [(1, 0)] .tkReg
  | 2 => at_ [(1, 0)] .trNow
  | 3 => at_ [(1, 0)] (.iStart (.trim 111))
  | 4 => at_ [(1, 0)] (.iter ⟨.trim 111, [1], 10⟩)
  | 5 => at_ [(1, 0)] (.tChk 1 0 111 ⟨.trim 111, [], 10⟩)
  | 6 => at_ [(1, 0)] (.cad 1 0 (.iter ⟨.trim 111, [], 10⟩))
  | 7 => at_ [] (.iter ⟨.trim 111, [], 10⟩)
  | 8 => at_ [] (.done .unit)
  | 9 => at_ [] .idle
  | n + 10 => match n % 7 with
    | 0 => at_ [] .idle
    | 1 => at_ [] .tkReg
    | 2 => at_ [] .trNow
    | 3 => at_ [] (.iStart (.trim 111))
    | 4 => at_ [] (.iter ⟨.trim 111, [], 6 * (n / 7) + 19⟩)
    | 5 => at_ [] (.done .unit)
    | _ => at_ [] .idle

def tp (n : Nat) : TPC :=
  match n with
  | 0 => .wait
  | 9 => .round []
  | 1 | 2 | 3 | 4 | 5 | 6 | 7 | 8 => .round [0]
  | n + 10 => match n % 7 with
    | 0 => .wait
    | 6 => .round []
    | _ => .round [0]

def inps (n : Nat) : WIn Nat Nat :=
  match n with
  | 0 => .tick 0 [0]
  | 1 => .look 0 0
  | 2 => .run 0 (.time 111000000)
  | 3 => .run 0 (.snap [1])
  | 4 => .run 0 (.visit 10)
  | 9 => .fin 0
  | 5 | 6 | 7 | 8 => .run 0 .go
  | n + 10 => match n % 7 with
    | 0 => .tick 0 [0]
    | 1 => .look 0 0
    | 2 => .run 0 (.time 111000000)
    | 3 => .run 0 (.snap [])
    | 6 => .fin 0
    | _ => .run 0 .go

def evs (n : Nat) : WEv Nat Nat :=
  match n with
  | 0 => .tick 0 [0]
  | 2 => .ev 0 (.clock 0 111000000)
  | 5 => .ev 0 (.seen 0 0)
  | 6 => .ev 0 (.del 0 1 0)
  | 8 => .ev 0 (.ret 0 .unit)
  | 9 => .fin 0
  | 1 | 3 | 4 | 7 => .ev 0 (.tau 0)
  | n + 10 => match n % 7 with
    | 0 => .tick 0 [0]
    | 2 => .ev 0 (.clock 0 111000000)
    | 5 => .ev 0 (.ret 0 .unit)
    | 6 => .fin 0
    | _ => .ev 0 (.tau 0)

def past0 : List (Map Nat) := [[], [], [], [(1, 0)], [(1, 0)], [(1, 0)], [(1, 0)], [(1, 0)]]

def past (n : Nat) : List (Map Nat) :=
  match n with
  | 0 => past0
  | 1 => past0 ++ List.replicate 1 [(1, 0)]
  | 2 => past0 ++ List.replicate 2 [(1, 0)]
  | 3 => past0 ++ List.replicate 3 [(1, 0)]
  | 4 => past0 ++ List.replicate 4 [(1, 0)]
  | 5 => past0 ++ List.replicate 5 [(1, 0)]
  | 6 => past0 ++ List.replicate 6 [(1, 0)]
  | 7 => past0 ++ List.replicate 6 [(1, 0)] ++ List.replicate 1 []
  | 8 => past0 ++ List.replicate 6 [(1, 0)] ++ List.replicate 2 []
  | 9 => past0 ++ List.replicate 6 [(1, 0)] ++ List.replicate 3 []
  | n + 10 => past0 ++ List.replicate 6 [(1, 0)] ++ List.replicate (6 * (n / 7) + n % 7 + 3) []

def run (n : Nat) : World Nat Nat := ⟨one (st n) .init, one (past n) [[]], [0], .done, fun _ _ => .none, 1, one (tp n) .wait⟩

set_option linter.unusedSimpArgs false in
theorem step_ (n : Nat) : wstep (fun _ => SyncCache.cfg false) (run n) (inps n) = some (run (n + 1), evs n) := by
  have e1 : ms 111000000 = 111 := by decide
  by_cases hn : n < 10
  · have : n = 0 ∨ n = 1 ∨ n = 2 ∨ n = 3 ∨ n = 4 ∨ n = 5 ∨ n = 6 ∨ n = 7 ∨ n = 8 ∨ n = 9 := by omega
    rcases this with rfl | rfl | rfl | rfl | rfl | rfl | rfl | rfl | rfl | rfl
    all_goals
      simp [run, wstep, inps, evs, st, tp, past, past0, at_, one0, one_upd, one_mem, World.put, step, State.go, Storm.pcs0, Storm.upd0, enter, e1, PC.isReg, PC.isPanic,
        Ev.isRet, Iter.visit, Map.get, Map.erase, afterDel, SyncCache.cfg, After.next]
  · obtain ⟨n, rfl⟩ := Nat.exists_eq_add_of_le' (show 10 ≤ n by omega)
    have : n % 7 = 0 ∨ n % 7 = 1 ∨ n % 7 = 2 ∨ n % 7 = 3 ∨ n % 7 = 4 ∨ n % 7 = 5 ∨ n % 7 = 6 := by omega
    rw [show n + 10 + 1 = (n + 1) + 10 by omega]
    have rep : ∀ l, List.replicate l ([] : Map Nat) ++ [([] : Map Nat)] = List.replicate (l + 1) [] := fun l => (List.replicate_succ' ..).symm
    rcases this with h | h | h | h | h | h | h
    · have h1 : (n + 1) % 7 = 1 := by omega
      have h2 : (n + 1) / 7 = n / 7 := by omega
      simp [run, wstep, inps, evs, st, tp, past, at_, one0, one_upd, one_mem, World.put, step, State.go, Storm.pcs0, Storm.upd0, enter, h, h1, h2, rep, Nat.add_assoc]
    · have h1 : (n + 1) % 7 = 2 := by omega
      have h2 : (n + 1) / 7 = n / 7 := by omega
      simp [run, wstep, inps, evs, st, tp, past, at_, one0, one_upd, one_mem, World.put, step, State.go, Storm.pcs0, Storm.upd0, PC.isReg, h, h1, h2, rep, Nat.add_assoc]
    · have h1 : (n + 1) % 7 = 3 := by omega
      have h2 : (n + 1) / 7 = n / 7 := by omega
      simp [run, wstep, inps, evs, st, tp, past, at_, one0, one_upd, one_mem, World.put, step, State.go, Storm.pcs0, Storm.upd0, PC.isReg, PC.isPanic, Ev.isRet, e1, h, h1, h2, rep, Nat.add_assoc]
    · have h1 : (n + 1) % 7 = 4 := by omega
      have h2 : (n + 1) / 7 = n / 7 := by omega
      simp [run, wstep, inps, evs, st, tp, past, past0, at_, one0, one_upd, one_mem, World.put, step, State.go, Storm.pcs0, Storm.upd0, PC.isReg, PC.isPanic, Ev.isRet, h, h1, h2, rep, Nat.add_assoc]
    · have h1 : (n + 1) % 7 = 5 := by omega
      have h2 : (n + 1) / 7 = n / 7 := by omega
      simp [run, wstep, inps, evs, st, tp, past, at_, one0, one_upd, one_mem, World.put, step, State.go, Storm.pcs0, Storm.upd0, PC.isReg, PC.isPanic, Ev.isRet, h, h1, h2, rep, Nat.add_assoc]
    · have h1 : (n + 1) % 7 = 6 := by omega
      have h2 : (n + 1) / 7 = n / 7 := by omega
      simp [run, wstep, inps, evs, st, tp, past, at_, one0, one_upd, one_mem, World.put, step, State.go, Storm.pcs0, Storm.upd0, PC.isReg, PC.isPanic, Ev.isRet, h, h1, h2, rep, Nat.add_assoc]
    · have h1 : (n + 1) % 7 = 0 := by omega
      have h2 : (n + 1) / 7 = n / 7 + 1 := by omega
      have h3 : 6 * (n / 7 + 1) + 3 = 6 * (n / 7) + 6 + 3 := by omega
      simp [run, wstep, inps, evs, st, tp, past, at_, one_upd, one0, h, h1, h2, h3]

def first : List (WEv Nat Nat) :=
  [.ev 0 (.call 1 (.store 1 7 10000000)), .ev 0 (.mk 1 0 7 100000000 10000000), .ev 0 (.put 1 1 0), .ev 0 (.ret 1 .unit), .ev 0 (.call 1 .start), .ev 0 (.reg 1 true),
    .enter 0 1, .spawn 0 1 0, .leave 0 1, .ev 0 (.ret 1 .unit)]

theorem start : WExec (fun _ => SyncCache.cfg false) first (run 0) := by
  have h1 := WExec.nil (K := Nat) (cfg := fun _ => SyncCache.cfg false)
  have h2 := h1.snoc (inp := .user 0 1 (.call (.store 1 7 10000000))) rfl
  have h3 := h2.snoc (inp := .user 0 1 (.time 100000000)) rfl
  have h4 := h3.snoc (inp := .user 0 1 .go) rfl
  have h5 := h4.snoc (inp := .user 0 1 .go) rfl
  have h6 := h5.snoc (inp := .user 0 1 (.call .start)) rfl
  have h7 := h6.snoc (inp := .user 0 1 .go) rfl
  have h8 := h7.snoc (inp := .once 0 1) rfl
  have h9 := h8.snoc (inp := .once 0 1) rfl
  have h10 := h9.snoc (inp := .once 0 1) rfl
  have h11 := h10.snoc (inp := .user 0 1 .go) rfl
  have hs : ∀ w : World Nat Nat, WExec (fun _ => SyncCache.cfg false) first w → (w.st 0).m = [(1, 0)] → (w.st 0).ents = [(7, 110)] → (w.st 0).reg = true →
      (∀ j, (w.st 0).pc j = .idle) → (∀ c, c ≠ 0 → w.st c = .init) → w.hist 0 = past0 → (∀ c, c ≠ 0 → w.hist c = [[]]) → w.regs = [0] → w.once = .done →
      (∀ c i, w.stage c i = .none) → w.trims = 1 → (∀ t, w.tpc t = .wait) → WExec (fun _ => SyncCache.cfg false) first (run 0) := by
    rintro ⟨wst, whist, _, _, wstage, _, wtpc⟩ hx a1 a2 a3 a4 a5 a6 a7 rfl rfl a8 rfl a9
    have e1 : wst = one (st 0) .init := by
      funext c
      by_cases hc : c = 0
      · subst hc
        rw [one0]
        show wst 0 = _
        rcases h : wst 0 with ⟨m, en, rg, pc⟩
        simp only [h] at a1 a2 a3 a4
        have : pc = Storm.pcs .idle .idle := by funext j; exact (a4 j).trans (by simp [Storm.pcs])
        subst a1 a2 a3 this; rfl
      · rw [one, if_neg hc]; exact a5 c hc
    have e2 : whist = one (past 0) [[]] := by
      funext c
      by_cases hc : c = 0
      · subst hc; exact a6
      · rw [one, if_neg hc]; exact a7 c hc
    have e3 : wstage = fun _ _ => .none := by funext c i; exact a8 c i
    have e4 : wtpc = one (tp 0) .wait := by funext t; rw [show wtpc t = .wait from a9 t]; unfold one; split <;> rfl
    subst e1 e2 e3 e4
    exact hx
  refine hs _ h11 rfl rfl rfl (fun j => ?_) (fun c hc => ?_) rfl (fun c hc => ?_) rfl rfl (fun c i => ?_) rfl fun t => rfl
  · by_cases h : j = 1
    · subst h; rfl
    · simp [World.to, World.put, World.reg, World.init, State.go, State.mk_, State.init]
  · simp [World.to, World.put, World.reg, World.init, hc]
  · simp [World.to, World.put, World.reg, World.init, hc]
  · by_cases h : c = 0 ∧ i = 1
    · obtain ⟨rfl, rfl⟩ := h; rfl
    · simp [World.to, World.put, World.reg, World.init, h]

theorem forever : WForever (fun _ => SyncCache.cfg false) first run inps evs := ⟨start, step_⟩

theorem by0 (n : Nat) (h : tp n ≠ .wait) : (inps n).by 0 := by
  by_cases hn : n < 10
  · have : n = 0 ∨ n = 1 ∨ n = 2 ∨ n = 3 ∨ n = 4 ∨ n = 5 ∨ n = 6 ∨ n = 7 ∨ n = 8 ∨ n = 9 := by omega
    rcases this with rfl | rfl | rfl | rfl | rfl | rfl | rfl | rfl | rfl | rfl
    all_goals first | rfl | exact absurd rfl h
  · obtain ⟨n, rfl⟩ := Nat.exists_eq_add_of_le' (show 10 ≤ n by omega)
    have : n % 7 = 0 ∨ n % 7 = 1 ∨ n % 7 = 2 ∨ n % 7 = 3 ∨ n % 7 = 4 ∨ n % 7 = 5 ∨ n % 7 = 6 := by omega
    rcases this with h' | h' | h' | h' | h' | h' | h'
    all_goals simp only [tp, inps, h', WIn.by, ne_eq, not_true_eq_false] at h ⊢

theorem fair : WFair (fun _ => SyncCache.cfg false) run inps := by
  intro t N h
  have round : ∀ {n x w e}, (x : WIn Nat Nat).by t → wstep (fun _ => SyncCache.cfg false) (run n) x = some (w, e) → (run n).tpc t ≠ .wait := by
    intro n x w e hb hx hw
    cases x <;> simp only [WIn.by] at hb <;> subst hb <;> simp [wstep, hw] at hx
  obtain ⟨x, w, e, hb, hx⟩ := h N (Nat.le_refl _)
  have := round hb hx
  by_cases ht : t = 0
  · subst ht
    exact ⟨N, Nat.le_refl _, by0 N this⟩
  · exact absurd (by simp [run, one, ht]) this

end WRounds

/-- The first round ends. -/
example : ∃ m, 0 < m ∧ WRounds.evs m = .fin 0 :=
  C175_round (ks := [0]) WRounds.forever WRounds.fair rfl (by
    intro n c _ _
    unfold WRounds.evs
    repeat' split
    all_goals simp)

/-- The entry that is there at first expires, and leaves the cache. -/
example : ((WRounds.run 0).st 0).m.get 1 = some 0 ∧ ∃ M, ∀ n k, M ≤ n → ((WRounds.run n).st 0).m.get k ≠ some 0 := by
  refine ⟨rfl, C175_trimmed (N := 0) (x := 110) WRounds.forever WRounds.fair ?_ ?_ ?_ ?_ ?_⟩
  · intro n _; simp [WRounds.run]
  · intro M
    refine ⟨7 * M + 10, 0, [0], by omega, ?_⟩
    simp only [WRounds.evs, show 7 * M % 7 = 0 by omega]
  · intro n c t _
    unfold WRounds.evs
    repeat' split
    all_goals simp
  · intro n t now _ h
    unfold WRounds.evs at h
    repeat' split at h
    all_goals simp at h
    all_goals (obtain ⟨_, rfl⟩ := h; decide)
  · intro n y _ h
    have : ((WRounds.run n).st 0).ents = [(7, 110)] := by
      simp only [WRounds.run, WRounds.one0]; unfold WRounds.st
      repeat' split
      all_goals rfl
    rw [this] at h
    cases h
    decide

end Verif.SyncCache
