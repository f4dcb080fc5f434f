import Verif.Lib.GMap
import Mathlib.Data.List.Induction
/-!
# Loops over Go maps whose functions change the map (C134, C135)

`GenMap.Range` (genmap.go:54-61), `GenMap.DeleteFunc` (genmap.go:125-127, `maps.DeleteFunc`: `for k, v := range m { if del(k, v) { delete(m, k) } }`),
`Set.Range` (set.go:85-91, whose result is dropped), and `GenMap.LoadOrStoreFunc` (genmap.go:72-80).

The function called is anything: between its start and its end it may write into the map and delete from it as it likes, also by calling methods
of the map, other loops over it among them. What happens is a list of events.

Go leaves the order of a loop open: an entry removed before it is reached is not passed, an entry made during the loop may be passed or not; every
other one is passed, once. `due` are the keys whose entry was there at the beginning, has been there ever since and has not been passed; `done`
those whose entry has been passed and is still there. The loop goes on with any entry there is that has not been passed, and may end when none is due.
-/
namespace Verif.GenMap.During

/-- What happens: the function is called, writes, deletes, comes back; `DeleteFunc` removes an entry; the loop ends. -/
inductive Ev (K V : Type) where
  | call (k : K) (v : V)
  | put (k : K) (v : V)
  | del (k : K)
  | back (b : Bool)
  | rm (k : K)
  | ret (b : Bool)
deriving DecidableEq

/-! ## Specification -/
section Spec
variable {K V : Type} [DecidableEq K]

/-- What an event does to the map. -/
def Ev.on (e : Ev K V) (g : K → Option V) : K → Option V :=
  match e with
  | .put k v => fun x => if x = k then some v else g x
  | .del k | .rm k => fun x => if x = k then none else g x
  | _ => g

/-- The map after some events. -/
def after (g : K → Option V) (tr : List (Ev K V)) : K → Option V := tr.foldl (fun g e => e.on g) g

/-- The entry of `k` is taken out. -/
def Ev.drops (k : K) : Ev K V → Prop
  | .del a | .rm a => a = k
  | _ => False

/-- Calls of the function. -/
def calls (tr : List (Ev K V)) : List (K × V) := tr.filterMap fun | .call k v => some (k, v) | _ => none

/-- How many entries are made. -/
def made (g : K → Option V) : List (Ev K V) → Nat
  | [] => 0
  | e :: tr => (match e with | .put k _ => if (g k).isSome then 0 else 1 | _ => 0) + made (e.on g) tr

/-- The function changes nothing. -/
def Ev.pure : Ev K V → Prop
  | .put _ _ | .del _ => False
  | _ => True
end Spec

/-! ## Model -/

/-- The loop: what the answer of the function does. -/
inductive Kind where
  | range
  | deleteFunc

inductive PC (K : Type) where
  | loop
  | body (k : K)
  | rm (k : K)
  | fin
  | over

structure It (K V : Type) where
  m : List (K × V)
  due : List K
  done : List K
  pc : PC K

/-- What decides a step: the order of the loop, the function. -/
inductive In (K V : Type) where
  | go
  | pick (k : K)
  | put (k : K) (v : V)
  | del (k : K)
  | back (b : Bool)

variable {K V : Type}

/-- The beginning of the loop. -/
def start (m : List (K × V)) : It K V := ⟨m, m.map (·.1), [], .loop⟩

/-- genmap.go:56-59; `maps.DeleteFunc`. -/
def Kind.next : Kind → K → Bool → PC K
  | .range, _, true => .loop
  | .range, _, false => .fin
  | .deleteFunc, k, true => .rm k
  | .deleteFunc, _, false => .loop

variable [DecidableEq K]

def It.drop (s : It K V) (k : K) : It K V := { s with m := adel s.m k, due := s.due.filter (· ≠ k), done := s.done.filter (· ≠ k) }

/-- One step. -/
def step (kd : Kind) (s : It K V) (inp : In K V) : Option (It K V × Ev K V) :=
  match s.pc, inp with
  | .loop, .pick k =>
    match aget s.m k with
    | none => none
    | some v => if k ∈ s.done then none else
        some ({ s with due := s.due.filter (· ≠ k), done := k :: s.done, pc := .body k }, .call k v)
  | .loop, .go => if s.due.isEmpty then some ({ s with pc := .over }, .ret true) else none
  | .body _, .put k v => some ({ s with m := aput s.m k v }, .put k v)
  | .body _, .del k => some (s.drop k, .del k)
  | .body k, .back b => some ({ s with pc := kd.next k b }, .back b)
  | .rm k, .go => some ({ s.drop k with pc := .loop }, .rm k)
  | .fin, .go => some ({ s with pc := .over }, .ret false)
  | _, _ => none

/-- Runs of the loop over `m`. -/
inductive Runs (kd : Kind) (m : List (K × V)) : List (Ev K V) → It K V → Prop where
  | nil : Runs kd m [] (start m)
  | snoc {tr s inp s' e} : Runs kd m tr s → step kd s inp = some (s', e) → Runs kd m (tr ++ [e]) s'

/-- Running a schedule. -/
def play (kd : Kind) : List (In K V) → It K V → Option (List (Ev K V))
  | [], _ => some []
  | inp :: l, s =>
    match step kd s inp with
    | none => none
    | some (s', e) => (play kd l s').map (e :: ·)

theorem play_runs {kd : Kind} {m : List (K × V)} {l : List (In K V)} : ∀ {tr s}, Runs kd m tr s → ∀ {tr'}, play kd l s = some tr' →
    ∃ s', Runs kd m (tr ++ tr') s' := by
  induction l with
  | nil => intro tr s h tr' h'; cases h'; exact ⟨s, by simpa using h⟩
  | cons inp l ih =>
    intro tr s h tr' h'
    simp only [play] at h'
    split at h'
    · cases h'
    · next s' e he =>
      rw [Option.map_eq_some_iff] at h'
      obtain ⟨t, ht, rfl⟩ := h'
      obtain ⟨s'', h''⟩ := ih (h.snoc he) ht
      exact ⟨s'', by simpa using h''⟩

/-! ## The invariant -/
/-- Steps as a relation. -/
inductive Step (kd : Kind) (s : It K V) : It K V → Ev K V → Prop where
  | call {k v} : s.pc = .loop → aget s.m k = some v → k ∉ s.done →
      Step kd s { s with due := s.due.filter (· ≠ k), done := k :: s.done, pc := .body k } (.call k v)
  | ret : s.pc = .loop → s.due = [] → Step kd s { s with pc := .over } (.ret true)
  | put {a k v} : s.pc = .body a → Step kd s { s with m := aput s.m k v } (.put k v)
  | del {a k} : s.pc = .body a → Step kd s (s.drop k) (.del k)
  | back {k b} : s.pc = .body k → Step kd s { s with pc := kd.next k b } (.back b)
  | rm {k} : s.pc = .rm k → Step kd s { s.drop k with pc := .loop } (.rm k)
  | fin : s.pc = .fin → Step kd s { s with pc := .over } (.ret false)

variable {kd : Kind} {m : List (K × V)} {tr : List (Ev K V)} {s s' : It K V} {e : Ev K V} {k : K} {v w : V}

theorem step_Step {inp : In K V} (h : step kd s inp = some (s', e)) : Step kd s s' e := by
  cases hpc : s.pc <;> cases inp <;> simp only [step, hpc, reduceCtorEq] at h
  case loop.pick k =>
    split at h
    · cases h
    · next v hv =>
      split at h
      · cases h
      · next hd => cases h; exact .call hpc hv hd
  case loop.go =>
    split at h
    · next hd => cases h; exact .ret hpc (List.isEmpty_iff.1 hd)
    · cases h
  all_goals cases h
  · rw [← hpc]; exact .put hpc
  · exact .del hpc
  · exact .back hpc
  · exact .rm hpc
  · exact .fin hpc

theorem after_snoc (g : K → Option V) (tr : List (Ev K V)) (e : Ev K V) : after g (tr ++ [e]) = e.on (after g tr) := by
  simp [after]

theorem calls_snoc (tr : List (Ev K V)) (e : Ev K V) :
    calls (tr ++ [e]) = calls tr ++ (match e with | .call k v => [(k, v)] | _ => []) := by
  simp only [calls, List.filterMap_append]
  cases e <;> rfl

/-- The last call with `k` since the entry was made. -/
def Passed (tr : List (Ev K V)) (k : K) : Prop := ∃ t1 t2 v, tr = t1 ++ .call k v :: t2 ∧ ∀ e ∈ t2, ¬ e.drops k

theorem Passed.snoc_iff {tr : List (Ev K V)} {e : Ev K V} {k : K} :
    Passed (tr ++ [e]) k ↔ (∃ v, e = .call k v) ∨ (Passed tr k ∧ ¬ e.drops k) := by
  constructor
  · rintro ⟨t1, t2, v, h, hd⟩
    rcases List.eq_nil_or_concat t2 with rfl | ⟨t2', e', rfl⟩
    · have := List.append_inj' h rfl
      simp only [List.cons.injEq, and_true] at this
      exact .inl ⟨v, this.2⟩
    · have h' : tr ++ [e] = (t1 ++ .call k v :: t2') ++ [e'] := by rw [h]; simp
      obtain ⟨h1, h2⟩ := List.append_inj' h' rfl
      simp only [List.cons.injEq, and_true] at h2
      subst h2
      exact .inr ⟨⟨t1, t2', v, h1, fun x hx => hd x (by simp [hx])⟩, hd e (by simp)⟩
  · rintro (⟨v, rfl⟩ | ⟨⟨t1, t2, v, rfl, hd⟩, he⟩)
    · exact ⟨tr, [], v, rfl, by simp⟩
    · refine ⟨t1, t2 ++ [e], v, by simp, ?_⟩
      intro x hx
      rcases List.mem_append.1 hx with hx | hx
      · exact hd x hx
      · simp only [List.mem_singleton] at hx; subst hx; exact he

/-- What it is for a key to be due. -/
def Due (m : List (K × V)) (tr : List (Ev K V)) (k : K) : Prop := (aget m k).isSome ∧ (∀ e ∈ tr, ¬ e.drops k) ∧ ∀ v, .call k v ∉ tr

theorem Due.snoc_iff : Due m (tr ++ [e]) k ↔ Due m tr k ∧ ¬ e.drops k ∧ ∀ v, e ≠ .call k v := by
  constructor
  · rintro ⟨h1, h2, h3⟩
    exact ⟨⟨h1, fun x hx => h2 x (List.mem_append_left _ hx), fun v hv => h3 v (List.mem_append_left _ hv)⟩, h2 e (by simp),
      fun v hv => h3 v (by simp [hv])⟩
  · rintro ⟨⟨h1, h2, h3⟩, h4, h5⟩
    refine ⟨h1, fun x hx => ?_, fun v hv => ?_⟩
    · rcases List.mem_append.1 hx with hx | hx
      · exact h2 x hx
      · simp only [List.mem_singleton] at hx; subst hx; exact h4
    · rcases List.mem_append.1 hv with hv | hv
      · exact h3 v hv
      · simp only [List.mem_singleton] at hv; exact h5 v hv.symm

structure Inv (m : List (K × V)) (tr : List (Ev K V)) (s : It K V) : Prop where
  awf : AWF s.m
  get : ∀ k, aget s.m k = after (aget m) tr k
  due : ∀ k, k ∈ s.due ↔ Due m tr k
  done : ∀ k, k ∈ s.done ↔ Passed tr k
  have_ : ∀ k ∈ s.done, (aget s.m k).isSome
  nodup : s.done.Nodup

theorem Inv.of_drop (h : Inv m tr s) {k : K} (hon : ∀ g : K → Option V, e.on g = fun x => if x = k then none else g x)
    (hd : ∀ x, e.drops x ↔ x = k) (hc : ∀ x v, e ≠ .call x v) (pc : PC K) : Inv m (tr ++ [e]) { s.drop k with pc := pc } where
  awf := awf_adel h.awf k
  get x := by
    simp only [It.drop]
    rw [after_snoc, hon, aget_adel, h.get]
    by_cases hx : x = k
    · subst hx; simp
    · simp [hx, Ne.symm hx]
  due x := by
    simp only [It.drop, List.mem_filter, h.due, Due.snoc_iff, hd, decide_eq_true_eq]
    exact and_congr_right fun _ => ⟨fun h' => ⟨h', hc x⟩, And.left⟩
  done x := by
    simp only [It.drop, List.mem_filter, h.done, Passed.snoc_iff, hd, decide_eq_true_eq]
    constructor
    · exact .inr
    · rintro (⟨v, rfl⟩ | h')
      · exact absurd rfl (hc x v)
      · exact h'
  have_ x hx := by
    simp only [It.drop, List.mem_filter, decide_eq_true_eq] at hx ⊢
    rw [aget_adel, if_neg (Ne.symm hx.2)]
    exact h.have_ x hx.1
  nodup := h.nodup.filter _

theorem Inv.same (h : Inv m tr s) (hon : ∀ g : K → Option V, e.on g = g) (hd : ∀ x, ¬ e.drops x) (hc : ∀ x v, e ≠ .call x v) (pc : PC K) :
    Inv m (tr ++ [e]) { s with pc := pc } where
  awf := h.awf
  get x := by rw [after_snoc, hon]; exact h.get x
  due x := by
    rw [h.due, Due.snoc_iff]
    exact ⟨fun h' => ⟨h', hd x, hc x⟩, And.left⟩
  done x := by
    simp only [h.done, Passed.snoc_iff]
    exact ⟨fun h' => .inr ⟨h', hd x⟩, fun h' => h'.elim (fun ⟨v, hv⟩ => absurd hv (hc x v)) And.left⟩
  have_ := h.have_
  nodup := h.nodup

theorem Inv.step (h : Inv m tr s) (hs : Step kd s s' e) : Inv m (tr ++ [e]) s' := by
  cases hs with
  | call h1 h2 h3 =>
    rename_i k v
    refine ⟨h.awf, fun x => ?_, fun x => ?_, fun x => ?_, ?_, ?_⟩
    · rw [after_snoc]; exact h.get x
    · simp only [List.mem_filter, h.due, Due.snoc_iff, decide_eq_true_eq, ne_eq, Ev.call.injEq, not_and]
      refine and_congr_right fun _ => ⟨fun h' => ⟨id, fun _ hx => absurd hx.symm h'⟩, fun h' hx => h'.2 v hx.symm rfl⟩
    · simp only [List.mem_cons, h.done, Passed.snoc_iff, Ev.call.injEq]
      constructor
      · rintro (rfl | hx)
        · exact .inl ⟨v, rfl, rfl⟩
        · exact .inr ⟨hx, id⟩
      · rintro (⟨w, hx, _⟩ | hx)
        · exact .inl hx.symm
        · exact .inr hx.1
    · intro x hx
      rcases List.mem_cons.1 hx with rfl | hx
      · simp [h2]
      · exact h.have_ x hx
    · exact List.nodup_cons.2 ⟨h3, h.nodup⟩
  | ret h1 h2 => exact h.same (fun _ => rfl) (fun _ => id) (by intro _ _ h; cases h) _
  | put h1 =>
    rename_i a k v
    refine ⟨awf_aput h.awf _ _, fun x => ?_, fun x => ?_, fun x => ?_, ?_, h.nodup⟩
    · simp only
      rw [after_snoc, aget_aput, h.get]
      simp only [Ev.on]
      by_cases hx : x = k
      · subst hx; simp
      · simp [hx, Ne.symm hx]
    · rw [h.due, Due.snoc_iff]
      exact ⟨fun h' => ⟨h', id, by intro _ h; cases h⟩, And.left⟩
    · simp only [h.done, Passed.snoc_iff]
      exact ⟨fun h' => .inr ⟨h', id⟩, fun h' => h'.elim (fun ⟨v, hv⟩ => nomatch hv) And.left⟩
    · intro x hx
      have := h.have_ x hx
      simp only
      rw [aget_aput]
      split
      · rfl
      · exact this
  | del h1 =>
    have := h.of_drop (e := .del ‹K›) (fun _ => rfl) (by intro x; exact ⟨fun h => Eq.symm h, fun h => Eq.symm h⟩) (by intro _ _ h; cases h) s.pc
    exact this
  | back h1 => exact h.same (fun _ => rfl) (fun _ => id) (by intro _ _ h; cases h) _
  | rm h1 => exact h.of_drop (fun _ => rfl) (by intro x; exact ⟨fun h => Eq.symm h, fun h => Eq.symm h⟩) (by intro _ _ h; cases h) _
  | fin h1 => exact h.same (fun _ => rfl) (fun _ => id) (by intro _ _ h; cases h) _

theorem Runs.inv (h : Runs kd m tr s) (hw : AWF m) : Inv m tr s := by
  induction h with
  | nil =>
    refine ⟨hw, fun k => rfl, fun k => ?_, fun k => ?_, ?_, List.nodup_nil⟩
    · simp only [start, ← aget_isSome, Due]; simp
    · simp [start, Passed]
    · intro k hk; cases hk
  | snoc _ h2 ih => exact ih.step (step_Step h2)

/-- What was the state at an event. -/
theorem Runs.at (h : Runs kd m tr s) {t1 t2 : List (Ev K V)} (ht : tr = t1 ++ e :: t2) :
    ∃ s0 s1, Runs kd m t1 s0 ∧ Step kd s0 s1 e ∧ Runs kd m (t1 ++ [e]) s1 := by
  induction h generalizing t2 with
  | nil => simp at ht
  | snoc h1 h2 ih =>
    rename_i tr0 s0 inp s1 e0
    rcases List.eq_nil_or_concat t2 with rfl | ⟨t2', e', rfl⟩
    · obtain ⟨rfl, h'⟩ := List.append_inj' ht rfl
      simp only [List.cons.injEq, and_true] at h'
      subst h'
      exact ⟨_, _, h1, step_Step h2, h1.snoc h2⟩
    · have h' : tr0 ++ [e0] = (t1 ++ e :: t2') ++ [e'] := by rw [ht]; simp
      exact ih (List.append_inj' h' rfl).1

/-! ## C134 -/

/-- **C134**: the function is given the value that the map has for the key at that moment. -/
theorem range_current (h : Runs kd m tr s) (hw : AWF m) {t1 t2 : List (Ev K V)} (ht : tr = t1 ++ .call k v :: t2) : after (aget m) t1 k = some v := by
  obtain ⟨s0, s1, h1, h2, _⟩ := h.at ht
  cases h2 with
  | call _ h3 _ => rw [← (h1.inv hw).get]; exact h3

/-- **C134**: no key is passed twice, unless its entry has been removed in between. -/
theorem range_once (h : Runs kd m tr s) (hw : AWF m) {t1 t2 t3 : List (Ev K V)} (ht : tr = t1 ++ .call k v :: t2 ++ .call k w :: t3) :
    ∃ e ∈ t2, e.drops k := by
  obtain ⟨s0, s1, h1, h2, _⟩ := h.at ht
  cases h2 with
  | call _ _ h3 =>
    by_contra hc
    refine h3 (((h1.inv hw).done k).2 ⟨t1, t2, v, rfl, fun e he hd => hc ⟨e, he, hd⟩⟩)

/-- Where the loop is after an event. -/
theorem Step.pc_ (h : Step kd s s' e) :
    match e with
    | .call k _ => s'.pc = .body k
    | .put _ _ | .del _ => ∃ k, s.pc = .body k ∧ s'.pc = .body k
    | .back b => ∃ k, s.pc = .body k ∧ s'.pc = kd.next k b
    | .rm k => s.pc = .rm k ∧ s'.pc = .loop
    | .ret b => s.pc = (if b then .loop else .fin) ∧ s'.pc = .over := by
  cases h with
  | call => rfl
  | ret h1 _ => exact ⟨h1, rfl⟩
  | put h1 => exact ⟨_, h1, h1⟩
  | del h1 => exact ⟨_, h1, h1⟩
  | back h1 => exact ⟨_, h1, rfl⟩
  | rm h1 => exact ⟨h1, rfl⟩
  | fin h1 => exact ⟨h1, rfl⟩

theorem Step.not_over (h : Step kd s s' e) : s.pc ≠ .over := by
  cases h <;> simp_all

theorem Runs.last (h : Runs kd m (tr ++ [e]) s) : ∃ s0, Runs kd m tr s0 ∧ Step kd s0 s e := by
  generalize hx : tr ++ [e] = x at h
  cases h with
  | nil => simp at hx
  | snoc h1 h2 =>
    obtain ⟨rfl, h5⟩ := List.append_inj' hx rfl
    simp only [List.cons.injEq, and_true] at h5
    subst h5
    exact ⟨_, h1, step_Step h2⟩

/-- Nothing happens after the end. -/
theorem Runs.ends (h : Runs kd m tr s) {b : Bool} {t1 t2 : List (Ev K V)} (ht : tr = t1 ++ .ret b :: t2) : t2 = [] := by
  cases t2 with
  | nil => rfl
  | cons e t2 =>
    exfalso
    obtain ⟨s0, s1, h1, h2, _⟩ := h.at (t1 := t1 ++ [.ret b]) (e := e) (t2 := t2) (by rw [ht]; simp)
    obtain ⟨_, _, h3⟩ := h1.last
    exact h2.not_over h3.pc_.2

/-- **C134**: a loop that has come to its end has passed every entry that was there when it began and has not been removed since. -/
theorem range_all (h : Runs kd m (tr ++ [.ret true]) s) (hw : AWF m) (hk : (aget m k).isSome) (hno : ∀ e ∈ tr, ¬ e.drops k) : ∃ v, .call k v ∈ tr := by
  obtain ⟨s0, s1, h1, h2, _⟩ := h.at rfl
  cases h2 with
  | ret _ h3 =>
    by_contra hc
    have : k ∈ s0.due := ((h1.inv hw).due k).2 ⟨hk, hno, fun v hv => hc ⟨v, hv⟩⟩
    rw [h3] at this
    cases this

/-- **C134**: when the function returns false, `Range` makes no more calls and returns false. -/
theorem range_stops (h : Runs .range m tr s) {t1 t2 : List (Ev K V)} (ht : tr = t1 ++ .back false :: t2) : t2 = [] ∨ t2 = [.ret false] := by
  cases t2 with
  | nil => exact .inl rfl
  | cons e t2 =>
    right
    obtain ⟨s0, s1, h1, h2, h2'⟩ := h.at (t1 := t1 ++ [.back false]) (e := e) (t2 := t2) (by rw [ht]; simp)
    obtain ⟨_, _, h3⟩ := h1.last
    obtain ⟨k, _, h4⟩ := h3.pc_
    simp only [Kind.next] at h4
    cases h2 <;> simp_all
    exact h.ends (t1 := t1 ++ [.back false]) (b := false) (by simp [ht])

theorem Runs.at_fin (h : Runs kd m tr s) (hf : s.pc = .fin) : ∃ t, tr = t ++ [.back false] := by
  cases h with
  | nil => cases hf
  | snoc h1 h2 =>
    rename_i t s0 inp e
    have h3 := (step_Step h2).pc_
    cases e with
    | back b =>
      cases b with
      | false => exact ⟨_, rfl⟩
      | true =>
        obtain ⟨k, _, h4⟩ := h3
        rw [hf] at h4
        cases kd <;> simp [Kind.next] at h4
    | call => rw [hf] at h3; cases h3
    | put => obtain ⟨k, _, h4⟩ := h3; rw [hf] at h4; cases h4
    | del => obtain ⟨k, _, h4⟩ := h3; rw [hf] at h4; cases h4
    | rm => have h4 := h3.2; rw [hf] at h4; cases h4
    | ret => have h4 := h3.2; rw [hf] at h4; cases h4

/-- **C134**: `Range` returns false exactly if its function did. -/
theorem range_result {b : Bool} (h : Runs .range m (tr ++ [.ret b]) s) : b = false ↔ .back false ∈ tr := by
  obtain ⟨s0, h1, h2⟩ := h.last
  constructor
  · rintro rfl
    obtain ⟨t, rfl⟩ := h1.at_fin h2.pc_.1
    simp
  · intro hm
    obtain ⟨t1, t2, rfl⟩ := List.append_of_mem hm
    rcases range_stops h (t1 := t1) (t2 := t2 ++ [.ret b]) (by simp) with h3 | h3
    · simp at h3
    · cases t2 with
      | nil => simpa using h3
      | cons => simp at h3

/-! ### How many calls -/

theorem made_snoc (g : K → Option V) (tr : List (Ev K V)) (e : Ev K V) :
    made g (tr ++ [e]) = made g tr + match e with | .put k _ => if (after g tr k).isSome then 0 else 1 | _ => 0 := by
  induction tr generalizing g with
  | nil => cases e <;> simp [made, after] <;> rfl
  | cons x tr ih =>
    simp only [List.cons_append, made, ih]
    rw [Nat.add_assoc]
    rfl

theorem Runs.count (h : Runs kd m tr s) (hw : AWF m) : (calls tr).length + s.m.length ≤ m.length + made (aget m) tr + s.done.length := by
  induction h with
  | nil => simp [calls, start]
  | snoc h1 h2 ih =>
    rename_i tr s inp s' e
    have hi := h1.inv hw
    have drop : ∀ k, (s.drop k).m.length + s.done.length ≤ s.m.length + (s.drop k).done.length := by
      intro k
      simp only [It.drop]
      have h3 : s.done.length ≤ (s.done.filter (· ≠ k)).length + 1 := by
        by_cases hk : k ∈ s.done
        · have := hi.nodup.erase_eq_filter k
          have h4 := List.length_erase_of_mem hk
          rw [this] at h4
          have h5 : (s.done.filter (· != k)) = s.done.filter (· ≠ k) := List.filter_congr fun x _ => by by_cases hx : x = k <;> simp [hx]
          rw [h5] at h4
          omega
        · rw [List.filter_eq_self.2]
          · omega
          · intro x hx; simp only [decide_eq_true_eq]; rintro rfl; exact hk hx
      have h6 := length_adel hi.awf k
      by_cases hk : k ∈ s.done
      · have := hi.have_ k hk
        rw [if_pos this] at h6
        have h7 : 0 < s.m.length := by
          have := List.length_pos_of_mem (aget_isSome.1 this)
          simpa using this
        omega
      · rw [List.filter_eq_self.2]
        · split at h6 <;> omega
        · intro x hx; simp only [decide_eq_true_eq]; rintro rfl; exact hk hx
    rw [calls_snoc, made_snoc, List.length_append]
    cases step_Step h2 with
    | call => simp only [List.length_cons, List.length_nil]; omega
    | ret => simpa using ih
    | put h3 =>
      rename_i a k v
      have := length_aput (m := s.m) k v
      rw [hi.get] at this
      simp only [List.length_nil]
      split at this <;> rename_i h4 <;> simp only [h4, if_true, if_false, Bool.false_eq_true] <;> omega
    | del h3 => rename_i a k; have := drop k; simp only [List.length_nil]; omega
    | back => simpa using ih
    | rm h3 => rename_i k; have := drop k; simp only [List.length_nil]; omega
    | fin => simpa using ih

/-- **C134**: there are no more calls than entries at the beginning and entries made by the function. -/
theorem range_bound (h : Runs kd m tr s) (hw : AWF m) : (calls tr).length ≤ m.length + made (aget m) tr := by
  have h1 := h.count hw
  have hi := h.inv hw
  have : s.done.length ≤ s.m.length := by
    have : s.done.Subperm (s.m.map (·.1)) := hi.nodup.subperm fun k hk => aget_isSome.1 (hi.have_ k hk)
    simpa using this.length_le
  omega

theorem after_some {g : K → Option V} (hk : (g k).isSome) (hno : ∀ e ∈ tr, ¬ e.drops k) : (after g tr k).isSome := by
  induction tr generalizing g with
  | nil => exact hk
  | cons e tr ih =>
    refine ih (g := e.on g) ?_ fun x hx => hno x (List.mem_cons_of_mem _ hx)
    have := hno e (List.mem_cons_self ..)
    cases e with
    | put a v => simp only [Ev.on]; split <;> simp_all
    | del a => simp only [Ev.on]; rw [if_neg (fun h => this h.symm)]; exact hk
    | rm a => simp only [Ev.on]; rw [if_neg (fun h => this h.symm)]; exact hk
    | _ => exact hk

/-- **C134**: outside the function, the loop can go on. -/
theorem range_goes (h : Runs kd m tr s) (hw : AWF m) (hp : s.pc ≠ .over) (hb : ∀ k, s.pc ≠ .body k) : ∃ inp s' e, step kd s inp = some (s', e) := by
  cases hpc : s.pc with
  | loop =>
    cases hd : s.due with
    | nil => exact ⟨.go, by simp [step, hpc, hd]⟩
    | cons k ks =>
      have hi := h.inv hw
      have hk : Due m tr k := (hi.due k).1 (by simp [hd])
      obtain ⟨v, hv⟩ := Option.isSome_iff_exists.1 (after_some hk.1 hk.2.1)
      rw [← hi.get] at hv
      have hn : k ∉ s.done := by
        intro hc
        obtain ⟨t1, t2, w, rfl, _⟩ := (hi.done k).1 hc
        exact hk.2.2 w (by simp)
      exact ⟨.pick k, by simp [step, hpc, hv, hn]⟩
  | body k => exact absurd hpc (hb k)
  | rm k => exact ⟨.go, by simp [step, hpc]⟩
  | fin => exact ⟨.go, by simp [step, hpc]⟩
  | over => exact absurd hpc hp

/-! ### Functions that make no entries -/

/-- Inside the function, and before the removal of `DeleteFunc`: the function was called for this key. -/
theorem Runs.inside (h : Runs kd m tr s) : (∀ k, s.pc = .body k → ∃ t1 t2 v, tr = t1 ++ .call k v :: t2 ∧ ∀ e ∈ t2, ¬ e.pure) ∧
    ∀ k, s.pc = .rm k → ∃ t1 t2 v, tr = t1 ++ .call k v :: t2 ++ [.back true] ∧ ∀ e ∈ t2, ¬ e.pure := by
  induction h with
  | nil => exact ⟨nofun, nofun⟩
  | snoc h1 h2 ih =>
    rename_i tr s inp s' e
    have hs := step_Step h2
    have hpc := hs.pc_
    refine ⟨fun k hk => ?_, fun k hk => ?_⟩
    · cases e with
      | call a v =>
        have h3 : s'.pc = .body a := hpc
        rw [hk] at h3; cases h3
        exact ⟨tr, [], v, rfl, nofun⟩
      | put a v =>
        obtain ⟨b, h3, h4⟩ := hpc
        rw [hk] at h4; cases h4
        obtain ⟨t1, t2, w, rfl, h5⟩ := ih.1 _ h3
        exact ⟨t1, t2 ++ [.put a v], w, by simp, by
          intro x hx; rcases List.mem_append.1 hx with hx | hx
          · exact h5 x hx
          · simp only [List.mem_singleton] at hx; subst hx; exact id⟩
      | del a =>
        obtain ⟨b, h3, h4⟩ := hpc
        rw [hk] at h4; cases h4
        obtain ⟨t1, t2, w, rfl, h5⟩ := ih.1 _ h3
        exact ⟨t1, t2 ++ [.del a], w, by simp, by
          intro x hx; rcases List.mem_append.1 hx with hx | hx
          · exact h5 x hx
          · simp only [List.mem_singleton] at hx; subst hx; exact id⟩
      | back b =>
        obtain ⟨a, _, h4⟩ := hpc
        rw [hk] at h4
        cases kd <;> cases b <;> cases h4
      | rm a => have h4 := hpc.2; rw [hk] at h4; cases h4
      | ret b => have h4 := hpc.2; rw [hk] at h4; cases h4
    · cases e with
      | call a v => have h3 : s'.pc = .body a := hpc; rw [hk] at h3; cases h3
      | put a v => obtain ⟨b, h3, h4⟩ := hpc; rw [hk] at h4; cases h4
      | del a => obtain ⟨b, h3, h4⟩ := hpc; rw [hk] at h4; cases h4
      | back b =>
        obtain ⟨a, h3, h4⟩ := hpc
        rw [hk] at h4
        cases kd <;> cases b <;> cases h4
        obtain ⟨t1, t2, w, rfl, h5⟩ := ih.1 _ h3
        exact ⟨t1, t2, w, rfl, h5⟩
      | rm a => have h4 := hpc.2; rw [hk] at h4; cases h4
      | ret b => have h4 := hpc.2; rw [hk] at h4; cases h4

theorem Runs.rm_called (h : Runs kd m tr s) (hp : s.pc = .rm k) : ∃ v, .call k v ∈ tr := by
  obtain ⟨t1, t2, v, rfl, _⟩ := h.inside.2 k hp
  exact ⟨v, by simp⟩

theorem Runs.shrinks (h : Runs kd m tr s) (hn : ∀ k v, .put k v ∉ tr) :
    (∀ k v, aget s.m k = some v → aget m k = some v) ∧ (∀ x ∈ calls tr, x.1 ∈ s.done ∨ aget s.m x.1 = none) ∧
    (∀ x ∈ calls tr, aget m x.1 = some x.2) ∧ ((calls tr).map (·.1)).Nodup := by
  induction h with
  | nil => exact ⟨fun _ _ => id, nofun, nofun, List.nodup_nil⟩
  | snoc h1 h2 ih =>
    rename_i tr s inp s' e
    obtain ⟨i1, i2, i3, i4⟩ := ih fun k v hc => hn k v (List.mem_append_left _ hc)
    have drop : ∀ k, (∀ x v, aget (s.drop k).m x = some v → aget m x = some v) ∧
        (∀ x ∈ calls tr, x.1 ∈ (s.drop k).done ∨ aget (s.drop k).m x.1 = none) := by
      intro k
      simp only [It.drop, aget_adel, List.mem_filter, decide_eq_true_eq]
      refine ⟨fun x v => ?_, fun x hx => ?_⟩
      · split
        · exact nofun
        · exact i1 x v
      · by_cases hk : k = x.1
        · exact .inr (if_pos hk)
        · rw [if_neg hk]
          exact (i2 x hx).imp (fun h => ⟨h, Ne.symm hk⟩) id
    rw [calls_snoc]
    cases step_Step h2 with
    | call h3 h4 h5 =>
      rename_i k v
      refine ⟨i1, ?_, ?_, ?_⟩
      · intro x hx
        rcases List.mem_append.1 hx with hx | hx
        · exact (i2 x hx).imp (List.mem_cons_of_mem _) id
        · simp only [List.mem_singleton] at hx; subst hx; exact .inl (List.mem_cons_self ..)
      · intro x hx
        rcases List.mem_append.1 hx with hx | hx
        · exact i3 x hx
        · simp only [List.mem_singleton] at hx; subst hx; exact i1 _ _ h4
      · rw [List.map_append, List.nodup_append]
        refine ⟨i4, by simp, ?_⟩
        intro a ha b hb
        simp only [List.map_cons, List.map_nil, List.mem_singleton] at hb
        subst hb
        rintro rfl
        obtain ⟨x, hx, rfl⟩ := List.mem_map.1 ha
        rcases i2 x hx with h6 | h6
        · exact h5 h6
        · rw [h6] at h4; cases h4
    | put h3 => exact absurd (List.mem_append_right _ (List.mem_singleton.2 rfl)) (hn _ _)
    | ret => rw [List.append_nil]; exact ⟨i1, i2, i3, i4⟩
    | back => rw [List.append_nil]; exact ⟨i1, i2, i3, i4⟩
    | fin => rw [List.append_nil]; exact ⟨i1, i2, i3, i4⟩
    | del => rw [List.append_nil]; exact ⟨(drop _).1, (drop _).2, i3, i4⟩
    | rm => rw [List.append_nil]; exact ⟨(drop _).1, (drop _).2, i3, i4⟩

/-- **C134**: if the function makes no entries, and removes none that have not been passed, the loop passes the entries there were at the beginning, once
each, in some order: the case of a function that only looks at the map, or removes the entry it is given. -/
theorem range_perm (h : Runs kd m (tr ++ [.ret true]) s) (hw : AWF m) (hn : ∀ k v, .put k v ∉ tr)
    (hd : ∀ t1 k t2, tr = t1 ++ .del k :: t2 → ∃ v, .call k v ∈ t1) : (calls tr).Perm m := by
  obtain ⟨s0, h1, h2⟩ := h.last
  obtain ⟨_, _, i3, i4⟩ := h1.shrinks hn
  have hnd : (calls tr).Nodup := List.Pairwise.of_map (·.1) (fun a b hne he => hne (he ▸ rfl)) i4
  have hmd : m.Nodup := List.Pairwise.of_map (·.1) (fun a b hne he => hne (he ▸ rfl)) hw
  rw [List.perm_ext_iff_of_nodup hnd hmd]
  rintro ⟨k, v⟩
  constructor
  · intro hx; exact mem_of_aget (i3 _ hx)
  · intro hx
    have hk := aget_of_mem hw hx
    suffices ∃ w, .call k w ∈ tr by
      obtain ⟨w, hc⟩ := this
      have hc' : (k, w) ∈ calls tr := List.mem_filterMap.2 ⟨_, hc, rfl⟩
      have := i3 _ hc'
      simp only [hk, Option.some.injEq] at this
      subst this
      exact hc'
    by_cases hdr : ∃ e ∈ tr, e.drops k
    · obtain ⟨e, he, hdr⟩ := hdr
      obtain ⟨t1, t2, rfl⟩ := List.append_of_mem he
      cases e with
      | del a =>
        have : a = k := hdr
        subst this
        obtain ⟨w, hc⟩ := hd t1 a t2 rfl
        exact ⟨w, List.mem_append_left _ hc⟩
      | rm a =>
        have : a = k := hdr
        subst this
        obtain ⟨s1, s2, h5, h6, _⟩ := h1.at rfl
        obtain ⟨w, hc⟩ := h5.rm_called h6.pc_.1
        exact ⟨w, List.mem_append_left _ hc⟩
      | _ => exact absurd hdr id
    · refine range_all h hw (by simp [hk]) fun e he hde => hdr ⟨e, he, hde⟩

/-- Keys 0 to 3, and a function that removes odd keys, adds 4 when given 2, and changes the value of 3 when given 0. -/
example : play .range [.pick 2, .put 4 40, .back true, .pick 0, .put 3 31, .back true, .pick 3, .del 3, .back true, .pick 1, .del 1, .back true,
      .pick 4, .back true, .go] (start [(0, 0), (1, 10), (2, 20), (3, 30)]) =
    some [.call 2 20, .put 4 40, .back true, .call 0 0, .put 3 31, .back true, .call 3 31, .del 3, .back true, .call 1 10, .del 1, .back true,
      .call 4 40, .back true, .ret true] := by rfl

/-- An entry removed and made again may be passed again, an entry removed before it is reached is not, a new entry may be left out. -/
example : play .range [.pick 0, .del 0, .put 0 1, .del 1, .put 2 2, .back true, .pick 0, .back true, .go] (start [(0, 0), (1, 10)]) =
    some [.call 0 0, .del 0, .put 0 1, .del 1, .put 2 2, .back true, .call 0 1, .back true, .ret true] := by rfl
example : play .range [.pick 0, .back true, .pick 0] (start [(0, 0), (1, 10)]) = none := by rfl
example : play .range [.pick 0, .back true, .go] (start [(0, 0), (1, 10)]) = none := by rfl
example : play .range [.pick 1, .back false, .go] (start [(0, 0), (1, 10)]) = some [.call 1 10, .back false, .ret false] := by rfl

/-- A loop whose function makes an entry for each it is given need not come to an end. -/
theorem range_endless (n : Nat) : ∃ tr s, Runs .range [(0, 0)] tr s ∧ (calls tr).length = n := by
  suffices h : ∃ (tr : List (Ev Nat Nat)) (s : It Nat Nat), Runs .range [(0, 0)] tr s ∧ (calls tr).length = n ∧ s.pc = .loop ∧ aget s.m n = some 0 ∧
      ∀ k ∈ s.done, k < n by
    obtain ⟨tr, s, h1, h2, _⟩ := h
    exact ⟨tr, s, h1, h2⟩
  induction n with
  | zero => exact ⟨[], _, .nil, rfl, rfl, rfl, nofun⟩
  | succ n ih =>
    obtain ⟨tr, s, h1, h2, h3, h4, h5⟩ := ih
    have hn : n ∉ s.done := fun hc => Nat.lt_irrefl _ (h5 n hc)
    have s1 : step .range s (.pick n) =
        some ({ s with due := s.due.filter (· ≠ n), done := n :: s.done, pc := .body n }, .call n 0) := by
      simp only [step, h3, h4, if_neg hn]
    have h6 := h1.snoc s1
    have h7 := h6.snoc (inp := .put (n + 1) 0) rfl
    have h8 := h7.snoc (inp := .back true) rfl
    refine ⟨_, _, h8, ?_, rfl, ?_, ?_⟩
    · rw [calls_snoc, calls_snoc, calls_snoc]; simp [h2]
    · simp [aget_aput]
    · intro k hk
      rcases List.mem_cons.1 hk with rfl | hk
      · omega
      · have := h5 k hk; omega

/-! ## C135 -/

/-- **C135**: `DeleteFunc` removes an entry only after its function, called for the key, has returned true. -/
theorem deleteFunc_only (h : Runs .deleteFunc m tr s) {t1 t2 : List (Ev K V)} (ht : tr = t1 ++ .rm k :: t2) :
    ∃ t t' v, t1 = t ++ .call k v :: t' ++ [.back true] ∧ ∀ e ∈ t', ¬ e.pure := by
  obtain ⟨s0, s1, h1, h2, _⟩ := h.at ht
  exact h1.inside.2 k h2.pc_.1

/-- **C135**: and when it has returned true, the entry is removed, whatever it is now, before anything else happens. -/
theorem deleteFunc_true (h : Runs .deleteFunc m tr s) {t1 t2 t3 : List (Ev K V)} (ht : tr = t1 ++ .call k v :: t2 ++ .back true :: t3)
    (hp : ∀ e ∈ t2, ¬ e.pure) : t3 = [] ∨ ∃ t4, t3 = .rm k :: t4 := by
  cases t3 with
  | nil => exact .inl rfl
  | cons e t4 =>
    right
    obtain ⟨s0, s1, h1, h2, _⟩ := h.at (t1 := t1 ++ .call k v :: t2 ++ [.back true]) (e := e) (t2 := t4) (by rw [ht]; simp)
    obtain ⟨s2, h3, h4⟩ := h1.last
    obtain ⟨a, h5, h6⟩ := h4.pc_
    obtain ⟨u1, u2, w, h7, h8⟩ := h3.inside.1 a h5
    have : a = k := by
      have key : ∀ (t2 u2 : List (Ev K V)), t1 ++ .call k v :: t2 = u1 ++ .call a w :: u2 → (∀ e ∈ t2, ¬ e.pure) → (∀ e ∈ u2, ¬ e.pure) → a = k := by
        intro t2
        induction t2 using List.reverseRecOn with
        | nil =>
          intro u2 h9 _ h10
          rcases List.eq_nil_or_concat u2 with rfl | ⟨u, x, rfl⟩
          · have := (List.append_inj' h9 rfl).2
            simp only [List.cons.injEq, Ev.call.injEq, and_true] at this
            exact this.1.symm
          · have h9' : t1 ++ [.call k v] = (u1 ++ .call a w :: u) ++ [x] := by rw [h9]; simp
            have := (List.append_inj' h9' rfl).2
            simp only [List.cons.injEq, and_true] at this
            exact absurd (this ▸ trivial) (h10 x (by simp))
        | append_singleton t y ih =>
          intro u2 h9 h11 h10
          have h9' : (t1 ++ .call k v :: t) ++ [y] = u1 ++ .call a w :: u2 := by rw [← h9]; simp
          rcases List.eq_nil_or_concat u2 with rfl | ⟨u, x, rfl⟩
          · have := (List.append_inj' h9' rfl).2
            simp only [List.cons.injEq, and_true] at this
            exact absurd (this ▸ trivial) (h11 y (by simp))
          · have h12 : (t1 ++ .call k v :: t) ++ [y] = (u1 ++ .call a w :: u) ++ [x] := by rw [h9']; simp
            exact ih u (List.append_inj' h12 rfl).1 (fun e he => h11 e (by simp [he])) (fun e he => h10 e (by simp [he]))
      exact key t2 u2 h7 hp h8
    subst this
    have h6 : s0.pc = .rm a := h6
    clear h h1 h3 h4 h5 h7 ht
    cases h2 with
    | rm h9 => rw [h6] at h9; cases h9; exact ⟨t4, rfl⟩
    | call h9 => rw [h6] at h9; cases h9
    | ret h9 => rw [h6] at h9; cases h9
    | put h9 => rw [h6] at h9; cases h9
    | del h9 => rw [h6] at h9; cases h9
    | back h9 => rw [h6] at h9; cases h9
    | fin h9 => rw [h6] at h9; cases h9

/-- **C135**: `DeleteFunc` never stops early. -/
theorem deleteFunc_goes_on {b : Bool} (h : Runs .deleteFunc m (tr ++ [.ret b]) s) : b = true := by
  cases b with
  | true => rfl
  | false =>
    obtain ⟨s0, h1, h2⟩ := h.last
    have h3 : s0.pc = .fin := h2.pc_.1
    exfalso
    cases h1 with
    | nil => cases h3
    | snoc h4 h5 =>
      rename_i t s1 inp e
      have := (step_Step h5).pc_
      cases e with
      | call => rw [h3] at this; cases this
      | put => obtain ⟨_, _, h6⟩ := this; rw [h3] at h6; cases h6
      | del => obtain ⟨_, _, h6⟩ := this; rw [h3] at h6; cases h6
      | back b => obtain ⟨_, _, h6⟩ := this; rw [h3] at h6; cases b <;> cases h6
      | rm => have h6 := this.2; rw [h3] at h6; cases h6
      | ret => have h6 := this.2; rw [h3] at h6; cases h6

/-- `DeleteFunc` with a function that gives the key 1 a new value and answers true for it: the new value is removed. -/
example : play .deleteFunc [.pick 1, .put 1 11, .put 5 50, .back true, .go, .pick 0, .back false, .go] (start [(0, 0), (1, 10)]) =
    some [.call 1 10, .put 1 11, .put 5 50, .back true, .rm 1, .call 0 0, .back false, .ret true] := by rfl

/-- `LoadOrStoreFunc`, genmap.go:72-80, with a function that may change the map: the map after the call, the value, whether it was there, and whether
the function was called. -/
def loadOrStoreFunc (m : List (K × V)) (k : K) (f : List (K × V) → List (K × V) × V) : List (K × V) × V × Bool × Bool :=
  match aget m k with
  | some v => (m, v, true, false)
  | none =>
    let (m', v) := f m
    (aput m' k v, v, false, true)

/-- **C135**: `LoadOrStoreFunc` calls its function exactly if the key is not in the map; afterwards the map has the value that was returned, whatever the
function did to the map, and is otherwise as the function left it. -/
theorem loadOrStoreFunc_spec (m : List (K × V)) (k : K) (f : List (K × V) → List (K × V) × V) :
    let r := loadOrStoreFunc m k f
    (r.2.2.2 = true ↔ aget m k = none) ∧ r.2.2.1 = (aget m k).isSome ∧ aget r.1 k = some r.2.1 ∧
    (∀ v, aget m k = some v → r.1 = m ∧ r.2.1 = v) ∧
    (aget m k = none → r.2.1 = (f m).2 ∧ ∀ x, x ≠ k → aget r.1 x = aget (f m).1 x) := by
  simp only [loadOrStoreFunc]
  cases h : aget m k with
  | some v => simp [h]
  | none =>
    simp only [aget_aput]
    refine ⟨by simp, by simp, by simp, nofun, fun _ => ⟨by simp, fun x hx => by simp [Ne.symm hx]⟩⟩

/-- The function stores the key itself: its value is overwritten by what it returns. -/
example : loadOrStoreFunc [(0, 0)] 1 (fun m => (aput (aput m 1 7) 2 8, 9)) = ([(0, 0), (1, 9), (2, 8)], 9, false, true) := by rfl
example : loadOrStoreFunc [(0, 0), (1, 5)] 1 (fun m => (aput m 1 7, 9)) = ([(0, 0), (1, 5)], 5, true, false) := by rfl
end Verif.GenMap.During
