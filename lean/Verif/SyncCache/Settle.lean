import Verif.SyncCache.Fair
/-!
# The trimmer under fair schedulers (C174)

Executions without end, in which rounds of the trimmer are begun again and again.
-/
namespace Verif.SyncCache
open Verif.Refresh (get_snoc get_lt get_keep get_new)
variable {K V : Type} [DecidableEq K]
variable {c : Cfg V} {tr : List (Ev K V)} {i j n m N z : Nat} {k : K} {a : Nat} {op : Op K V}
  {f : Nat → List (Map K) × State K V} {who : Nat → Nat} {ev : Nat → Ev K V} {x : Int}

/-! ## Traces -/

/-- What has happened before the `n`-th step. -/
def sofar (tr : List (Ev K V)) (ev : Nat → Ev K V) (n : Nat) : List (Ev K V) := tr ++ (List.range n).map ev

omit [DecidableEq K] in
theorem sofar_succ : sofar tr ev (n + 1) = sofar tr ev n ++ [ev n] := by simp [sofar, List.range_succ]

omit [DecidableEq K] in
theorem sofar_length : (sofar tr ev n).length = tr.length + n := by simp [sofar]

omit [DecidableEq K] in
theorem sofar_get (h : z < n) : (sofar tr ev n)[tr.length + z]? = some (ev z) := by
  simp [sofar, h]

omit [DecidableEq K] in
theorem sofar_take (h : z ≤ n) : (sofar tr ev n).take (tr.length + z) = sofar tr ev z := by
  simp [sofar, List.take_append, ← List.map_take, List.take_range, Nat.min_eq_left h]

theorem Forever.exec (hf : Forever c tr f who ev) (n : Nat) : Exec c (sofar tr ev n) (f n).1 (f n).2 := by
  induction n with
  | zero => simpa [sofar] using hf.start
  | succ n ih =>
    obtain ⟨inp, h⟩ := hf.step n
    rw [sofar_succ, hf.hist n]
    exact .snoc ih h

/-- The map, as the trace has it. -/
theorem Forever.content (hf : Forever c tr f who ev) (h : z ≤ n) : SyncCache.content ((sofar tr ev n).take (tr.length + z)) k = (f z).2.m.get k := by
  rw [sofar_take h]; exact ((hf.exec z).glob.map k).symm

theorem least {P : Nat → Prop} (h : ∃ n, P n) : ∃ n, P n ∧ ∀ m, m < n → ¬ P m := by
  obtain ⟨n, hn⟩ := h
  induction n using Nat.strongRecOn with
  | _ n ih =>
    by_cases hc : ∃ m, m < n ∧ P m
    · obtain ⟨m, h1, h2⟩ := hc; exact ih m h1 h2
    · exact ⟨n, hn, fun m h1 h2 => hc ⟨m, h1, h2⟩⟩

theorem Step.call_idle {hist : List (Map K)} {s s' : State K V} (h : Step c hist s i s' (.call j op)) : j = i ∧ s.pc i = .idle := by
  cases h; exact ⟨rfl, by assumption⟩

/-- A call that returns. -/
theorem Forever.callAt (hf : Forever c tr f who ev) (hn : ev n = .call i op) (hm : n < m) (hno : ∀ m', n < m' → m' < m → ∀ r, ev m' ≠ .ret i r) :
    CallAt (sofar tr ev (m + 1)) i (tr.length + n) op (tr.length + m) := by
  refine ⟨by omega, by rw [sofar_get (by omega), hn], fun x op' h1 h2 hx => ?_⟩
  obtain ⟨y, rfl⟩ := Nat.exists_eq_add_of_le (show tr.length ≤ x by omega)
  rw [sofar_get (by omega)] at hx
  have hb : ∀ d, n + 1 + d ≤ m → (f (n + 1 + d)).2.pc i ≠ .idle := by
    intro d
    induction d with
    | zero =>
      intro _
      have h := hf.at n
      rw [hn] at h
      obtain ⟨h1, h2⟩ := h.call_pc
      rw [← h1] at h2
      rw [Nat.add_zero, h2]; exact enter_ne_idle
    | succ d ih =>
      intro hd hc
      by_cases hw : who (n + 1 + d) = i
      · have h := hf.at (n + 1 + d)
        rw [hw] at h
        obtain ⟨r, hr⟩ := h.to_idle hc
        exact hno _ (by omega) (by omega) r hr
      · rw [← Nat.add_assoc, (hf.at (n + 1 + d)).other (Ne.symm hw)] at hc
        exact ih (by omega) hc
  have h := hf.at y
  rw [Option.some.injEq] at hx
  rw [hx] at h
  obtain ⟨h3, h4⟩ := h.call_idle
  rw [← h3] at h4
  obtain ⟨d, rfl⟩ := Nat.exists_eq_add_of_le (show n + 1 ≤ y by omega)
  exact hb d (by omega) h4

/-- A round of the trimmer calls no function given to `Range`. -/
theorem Exec.tick_yield {tr : List (Ev K V)} {hist : List (Map K)} {s : State K V} {p q : Nat} {b : Option Bool} (h : Exec c tr hist s) (hc : CallAt tr i p .tick q)
    (h1 : p < n) (h2 : n < q) : tr[n]? ≠ some (.yieldEnd i b) := by
  intro hn
  have hc' : CallAt tr i p .tick n := ⟨h1, hc.at_, fun k op' a1 a2 => hc.only k op' a1 (by omega)⟩
  obtain ⟨s0, s1, hist', g1, g2, g3⟩ := h.inside hn hc'
  replace g3 : s0.pc i ≠ .idle → Know c (tr.take n) i p .tick (s0.pc i) := g3
  replace g2 : Step c hist' s0 i s1 (.yieldEnd i b) := g2
  cases g2
  all_goals
    next it hpc =>
    rw [hpc] at g3
    obtain ⟨b1, b3⟩ := g3 nofun
    have := b3.ok
    rw [b1] at this
    cases this

theorem Step.seen_ent {hist : List (Map K)} {s s' : State K V} (h : Step c hist s i s' (.seen j a)) : ∃ y, s.ents[a]? = some y := by
  cases h <;> exact ⟨_, by assumption⟩

/-- **C174**: the cache staying registered, the scheduler being fair, rounds of the trimmer beginning again and again and the callback not panicking: an entry that
has expired for good leaves the cache for good, however many other calls are made. -/
theorem C174_trimmed (hf : Forever c tr f who ev) (hfair : Fair f who) (hreg : ∀ n, N ≤ n → (f n).2.reg = true)
    (htick : ∀ M, ∃ n i, M ≤ n ∧ ev n = .call i .tick) (hcb : ∀ n j, N ≤ n → ev n ≠ .cbEnd j false)
    (hclk : ∀ n j now, N ≤ n → ev n = .clock j now → x < ms now)
    (hexp : ∀ n y, N ≤ n → (f n).2.ents[a]? = some y → y.2 ≤ x) : ∃ M, ∀ n k, M ≤ n → (f n).2.m.get k ≠ some a := by
  by_cases hin : ∃ n k, N ≤ n ∧ (f n).2.m.get k = some a
  swap
  · exact ⟨N, fun n k hn h => hin ⟨n, k, hn, h⟩⟩
  obtain ⟨n0, k, hn0, h0⟩ := hin
  obtain ⟨n, i, hn, hcall⟩ := htick n0
  obtain ⟨m, ⟨hnm, r, hret⟩, hno⟩ := least (C173_others_partial hf hfair hcall nofun |>.imp fun m h => (⟨h.choose_spec.1, _, h.choose_spec.2⟩ : n < m ∧ ∃ r, ev m = .ret i r))
  have hc : CallAt (sofar tr ev (m + 1)) i (tr.length + n) .tick (tr.length + m) :=
    hf.callAt hcall hnm fun m' h1 h2 r h3 => hno m' h2 ⟨h1, r, h3⟩
  have hx := hf.exec (m + 1)
  have hq : (sofar tr ev (m + 1))[tr.length + m]? = some (.ret i r) := by rw [sofar_get (by omega), hret]
  have hnp : r ≠ .panicked := by
    rintro rfl
    rcases sync_panic hx hc hq with ⟨y, h1, h2, h3 | h3⟩ | ⟨_, _, _, _, h, _⟩ | ⟨b, h | h | ⟨_, h⟩ | ⟨_, h⟩, _⟩
    · obtain ⟨y, rfl⟩ := Nat.exists_eq_add_of_le (show tr.length ≤ y by omega)
      rw [sofar_get (by omega), Option.some.injEq] at h3
      exact hcb y i (by omega) h3
    · exact hx.tick_yield hc h1 h2 h3
    all_goals cases h
  have hu : r = .unit := sync_results hx hc hq hnp
  subst hu
  -- after the round the entry is not there
  have hgone : (f (m + 1)).2.m.get k ≠ some a := by
    intro hg
    have stay : ∀ z, n0 ≤ z → z ≤ m + 1 → (f z).2.m.get k = some a := by
      intro z h1 h2
      by_contra hno
      refine hx.gone (k := k) (k' := k) (a := a) (z1 := tr.length + n0) (z2 := tr.length + z) (z3 := tr.length + (m + 1)) ?_ ?_ (by omega) (by omega) ?_
      · rw [hf.content (by omega)]; exact h0
      · rw [hf.content h2]; exact hno
      · rw [hf.content (Nat.le_refl _)]; exact hg
    rcases sync_trim hx hc hq with ⟨z, h1, h2, h3⟩ | ⟨y, now, h1, h2, h3, h4⟩
    · obtain ⟨z, rfl⟩ := Nat.exists_eq_add_of_le (show tr.length ≤ z by omega)
      rw [sofar_take (by omega), ← (hf.exec z).regOf, hreg z (by omega)] at h3
      cases h3
    · obtain ⟨y, rfl⟩ := Nat.exists_eq_add_of_le (show tr.length ≤ y by omega)
      rw [sofar_get (by omega), Option.some.injEq] at h3
      have hlt := hclk y i now (by omega) h3
      rcases h4 k a (by rw [show tr.length + n + 1 = tr.length + (n + 1) by omega, hf.content (by omega)]; exact stay _ (by omega) (by omega)) with h5 | ⟨w, g1, g2, g3, g4⟩
      · exact h5 (tr.length + (m + 1)) k (by omega) (by rw [hf.content (Nat.le_refl _)]; exact hg)
      · obtain ⟨w, rfl⟩ := Nat.exists_eq_add_of_le (show tr.length ≤ w by omega)
        rw [sofar_take (by omega)] at g4
        rw [sofar_get (by omega), Option.some.injEq] at g3
        have hs := hf.at w
        rw [g3] at hs
        obtain ⟨y, hy⟩ := hs.seen_ent
        have h6 := hexp w y (by omega) hy
        rw [(hf.exec w).glob.exp a y hy] at h6
        omega
  refine ⟨m + 1, fun z k' hz hg => ?_⟩
  refine (hf.exec z).gone (k := k) (k' := k') (a := a) (z1 := tr.length + n0) (z2 := tr.length + (m + 1)) (z3 := tr.length + z) ?_ ?_ (by omega) (by omega) ?_
  · rw [hf.content (by omega)]; exact h0
  · rw [hf.content hz]; exact hgone
  · rw [hf.content (Nat.le_refl _)]; exact hg

/-! ## A run without end -/

namespace Rounds

/-- Thread 1 makes one round of the trimmer after the other; the first one finds an expired entry. -/
def st (n : Nat) : State Nat Nat :=
  let at_ (m : Map Nat) (q : PC Nat Nat) : State Nat Nat := { m := m, ents := [(7, 110)], reg := true, pc := Storm.pcs .idle q }
  match n with
  | 0 => at_ [(1, 0)] .idle
  | 1 => at_ [(1, 0)] .tkReg
  | 2 => at_ [(1, 0)] .trNow
  | 3 => at_ [(1, 0)] (.iStart (.trim 111))
  | 4 => at_ [(1, 0)] (.iter ⟨.trim 111, [1], 10⟩)
  | 5 => at_ [(1, 0)] (.tChk 1 0 111 ⟨.trim 111, [], 10⟩)
  | 6 => at_ [(1, 0)] (.cad 1 0 (.iter ⟨.trim 111, [], 10⟩))
  | 7 => at_ [] (.iter ⟨.trim 111, [], 10⟩)
  | 8 => at_ [] (.done .unit)
  | n + 9 => match n % 6 with
    | 0 => at_ [] .idle
    | 1 => at_ [] .tkReg
    | 2 => at_ [] .trNow
    | 3 => at_ [] (.iStart (.trim 111))
    | 4 => at_ [] (.iter ⟨.trim 111, [], n + 15⟩)
    | _ => at_ [] (.done .unit)

def inp : Nat → In Nat Nat
  | 0 => .call .tick
  | 2 => .time 111000000
  | 3 => .snap [1]
  | 4 => .visit 10
  | 1 | 5 | 6 | 7 | 8 => .go
  | n + 9 => match n % 6 with
    | 0 => .call .tick
    | 2 => .time 111000000
    | 3 => .snap []
    | _ => .go

def evs : Nat → Ev Nat Nat
  | 0 => .call 1 .tick
  | 2 => .clock 1 111000000
  | 5 => .seen 1 0
  | 6 => .del 1 1 0
  | 8 => .ret 1 .unit
  | 1 | 3 | 4 | 7 => .tau 1
  | n + 9 => match n % 6 with
    | 0 => .call 1 .tick
    | 2 => .clock 1 111000000
    | 5 => .ret 1 .unit
    | _ => .tau 1

def past : Nat → List (Map Nat)
  | 0 => [[], [], [], [(1, 0)], [(1, 0)], [(1, 0)], [(1, 0)], [(1, 0)]]
  | n + 1 => past n ++ [(st (n + 1)).m]

theorem past_length (n : Nat) : (past n).length = n + 8 := by
  induction n with
  | zero => rfl
  | succ n ih => simp [past, ih]

def run (n : Nat) : List (Map Nat) × State Nat Nat := (past n, st n)

def first : List (Ev Nat Nat) := [.call 0 (.store 1 7 10000000), .mk 0 0 7 100000000 10000000, .put 0 1 0, .ret 0 .unit, .call 0 .start, .reg 0 true, .ret 0 .unit]

theorem start : Exec (cfg false) first (run 0).1 (run 0).2 := by
  have h1 := Exec.nil (K := Nat) (c := cfg false)
  have h2 := h1.snoc (i := 0) (inp := .call (.store 1 7 10000000)) rfl
  have h3 := h2.snoc (i := 0) (inp := .time 100000000) rfl
  have h4 := h3.snoc (i := 0) (inp := .go) rfl
  have h5 := h4.snoc (i := 0) (inp := .go) rfl
  have h6 := h5.snoc (i := 0) (inp := .call .start) rfl
  have h7 := h6.snoc (i := 0) (inp := .go) rfl
  have h8 := h7.snoc (i := 0) (inp := .go) rfl
  have hs : ∀ s : State Nat Nat, Exec (cfg false) first (past 0) s → s.m = [(1, 0)] → s.ents = [(7, 110)] → s.reg = true → (∀ j, s.pc j = .idle) →
      Exec (cfg false) first (past 0) (st 0) := by
    rintro ⟨_, _, _, pc⟩ hx rfl rfl rfl h
    have : pc = Storm.pcs .idle .idle := by funext j; exact (h j).trans (by simp [Storm.pcs])
    subst this; exact hx
  refine hs _ h8 rfl rfl rfl fun j => ?_
  by_cases h : j = 0
  · subst h; rfl
  · simp [State.go, State.mk_, State.init]

theorem step_ (n : Nat) : step (cfg false) (past n) (st n) 1 (inp n) = some (st (n + 1), evs n) := by
  by_cases hn : n < 9
  · have : n = 0 ∨ n = 1 ∨ n = 2 ∨ n = 3 ∨ n = 4 ∨ n = 5 ∨ n = 6 ∨ n = 7 ∨ n = 8 := by omega
    have e1 : ms 111000000 = 111 := by decide
    rcases this with rfl | rfl | rfl | rfl | rfl | rfl | rfl | rfl | rfl
    · simp [step, st, inp, evs, State.go, Storm.pcs1, Storm.upd1, enter]
    · simp [step, st, inp, evs, State.go, Storm.pcs1, Storm.upd1]
    · simp [step, st, inp, evs, State.go, Storm.pcs1, Storm.upd1, e1]
    · simp [step, st, inp, evs, State.go, Storm.pcs1, Storm.upd1, past_length]
    · simp [step, st, inp, evs, State.go, Storm.pcs1, Storm.upd1, past, Map.get, Iter.visit]
    · simp [step, st, inp, evs, State.go, Storm.pcs1, Storm.upd1]
    · simp [step, st, inp, evs, State.go, Storm.pcs1, Storm.upd1, Map.get, Map.erase, afterDel, cfg, After.next]
    · simp [step, st, inp, evs, State.go, Storm.pcs1, Storm.upd1]
    · simp [step, st, inp, evs, State.go, Storm.pcs1, Storm.upd1]
  · obtain ⟨n, rfl⟩ := Nat.exists_eq_add_of_le' (show 9 ≤ n by omega)
    have : n % 6 = 0 ∨ n % 6 = 1 ∨ n % 6 = 2 ∨ n % 6 = 3 ∨ n % 6 = 4 ∨ n % 6 = 5 := by omega
    have e1 : ms 111000000 = 111 := by decide
    rw [show n + 9 + 1 = (n + 1) + 9 by omega]
    rcases this with h | h | h | h | h | h
    · simp [step, st, inp, evs, State.go, Storm.pcs1, Storm.upd1, enter, h, show (n + 1) % 6 = 1 by omega]
    · simp [step, st, inp, evs, State.go, Storm.pcs1, Storm.upd1, h, show (n + 1) % 6 = 2 by omega]
    · simp [step, st, inp, evs, State.go, Storm.pcs1, Storm.upd1, e1, h, show (n + 1) % 6 = 3 by omega]
    · simp [step, st, inp, evs, State.go, Storm.pcs1, Storm.upd1, past_length, h, show (n + 1) % 6 = 4 by omega]
    · simp [step, st, inp, evs, State.go, Storm.pcs1, Storm.upd1, h, show (n + 1) % 6 = 5 by omega]
    · simp [step, st, inp, evs, State.go, Storm.pcs1, Storm.upd1, h, show (n + 1) % 6 = 0 by omega]

theorem forever : Forever (cfg false) first run (fun _ => 1) evs where
  start := start
  step n := ⟨inp n, step_ n⟩
  hist _ := rfl

theorem fair : Fair run (fun _ => 1) := by
  intro i N hi
  by_cases h1 : i = 1
  · exact ⟨N, Nat.le_refl _, h1.symm⟩
  · exfalso
    refine hi N (Nat.le_refl _) ?_
    simp only [run]
    unfold st
    simp only
    repeat' split
    all_goals simp [Storm.pcs, h1]

end Rounds

/-- The entry that is there at first expires, and leaves the cache. -/
example : (Rounds.run 0).2.m.get 1 = some 0 ∧ ∃ M, ∀ n k, M ≤ n → (Rounds.run n).2.m.get k ≠ some 0 := by
  refine ⟨rfl, C174_trimmed (N := 0) (x := 110) Rounds.forever Rounds.fair ?_ ?_ ?_ ?_ ?_⟩
  · intro n _
    simp only [Rounds.run]; unfold Rounds.st; simp only
    repeat' split
    all_goals rfl
  · intro M
    refine ⟨6 * M + 9, 1, by omega, ?_⟩
    simp only [Rounds.evs, show 6 * M % 6 = 0 by omega]
  · intro n j _
    unfold Rounds.evs
    repeat' split
    all_goals simp
  · intro n j now _ h
    unfold Rounds.evs at h
    repeat' split at h
    all_goals simp at h
    all_goals (obtain ⟨_, rfl⟩ := h; decide)
  · intro n y _ h
    have : (Rounds.run n).2.ents = [(7, 110)] := by
      simp only [Rounds.run]; unfold Rounds.st; simp only
      repeat' split
      all_goals rfl
    rw [this] at h
    cases h
    decide

end Verif.SyncCache
