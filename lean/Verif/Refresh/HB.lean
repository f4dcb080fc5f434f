import Verif.Refresh.Obs
import Mathlib.Logic.Relation
import Mathlib.Tactic.Tauto
import Mathlib.Tactic.IntervalCases
/-!
# What happens before what in `RefreshCache` (C157)

The happens-before order of the Go memory model: program order within a goroutine, an atomic load after the atomic store whose
value it observes, and `Lock` after the previous `Unlock`.
-/
namespace Verif.Refresh.HB
variable {T E F A : Type}

/-! ## The order -/

/-- What goroutines synchronize by: the fields of atomic types and those accessed by `sync/atomic` (refreshcache.go:16, 17, 65-67, 69), the lock (line 71). -/
inductive Place where
  | err | data | last | lastErr | lock | rf | cf
deriving DecidableEq

/-- An event as far as the order goes: who, and what it loads (or locks) and stores (or unlocks). -/
structure Label where
  tid : Nat
  acq : Option Place
  rel : Option Place

/-- Two events of one goroutine. -/
def PO (ls : List Label) (n m : Nat) : Prop := n < m ∧ ∃ a b, ls[n]? = some a ∧ ls[m]? = some b ∧ a.tid = b.tid
/-- A load observes the last store; a lock follows the last unlock. -/
def SW (ls : List Label) (n m : Nat) : Prop := n < m ∧ ∃ a b pl, ls[n]? = some a ∧ ls[m]? = some b ∧ a.rel = some pl ∧ b.acq = some pl ∧
  ∀ k d, n < k → k < m → ls[k]? = some d → d.rel ≠ some pl
/-- Happens before. -/
def Before (ls : List Label) : Nat → Nat → Prop := Relation.TransGen (fun n m => PO ls n m ∨ SW ls n m)

/-- The load that a step makes by `sync/atomic` or an atomic type, or its lock: refreshcache.go:49, 53, 29 (`RefreshFunc`, `ClearFunc`), 99, 180, 156 (`last`),
101, 109, 125, 142, 147, 182, 187 (`data`), 103, 184, 164 (`lastErr`), 104, 112, 185, 187 (`err`), 106, 129 (`lock`).  The plain reads in lines 108 and 111 do not synchronize. -/
def acq : PC T E F A → Option Place
  | .cGet _ | .cRefresh _ => some .rf
  | .cClear _ => some .cf
  | .gLast _ _ | .wRaw | .rdLast => some .last
  | .gData | .lData | .old _ _ | .kLoad _ _ | .wRawData | .wRawBoth => some .data
  | .gErrChk _ _ _ | .wRawErrChk _ | .rdLastErr => some .lastErr
  | .gErr | .lErr | .wRawErr | .wRawBoth2 _ => some .err
  | .gLock _ _ | .rLock _ _ => some .lock
  | _ => none
/-- The store that a step makes, or its unlock: refreshcache.go:45, 37, 116-118, 120-122, 133-135, 137-139, 148, 151, 107, 130. -/
def rel : PC T E F A → Option Place
  | .setRefresh _ => some .rf
  | .setClear _ => some .cf
  | .wData _ _ => some .data
  | .wLast _ _ | .wErrClr _ | .kStore _ => some .last
  | .wLastErr _ | .wErrLast _ _ => some .lastErr
  | .wErr _ _ => some .err
  | .unlock _ => some .lock
  | _ => none

/-- The label of the step of `e` from `s`. -/
def label (s : State T E F A) (e : Ev T E F A) : Label := ⟨e.tid, acq (s.pc e.tid), rel (s.pc e.tid)⟩
/-- The labels of an execution, each from the state before. -/
def labels (c : Cfg T) (rf : F) (tr : List (Ev T E F A)) (ss : List (State T E F A)) : List Label := List.zipWith label (init c rf :: ss) tr

/-! ## What is passed on -/

/-- What calls, functions and the cache hand to each other. -/
inductive Thing (T E F : Type) where
  | val (v : T) | err (e : E) | time (t : Int) | fn (f : F) | clr (f : F)

/-- What comes from an event: a function returns a value and an error, the clock a time, a caller passes functions. -/
def gives : Ev T E F A → List (Thing T E F)
  | .finish _ (.ret v none) => [.val v]
  | .finish _ (.ret v (some e)) => [.val v, .err e]
  | .clock _ t => [.time t]
  | .call _ (.get f _) | .call _ (.refresh f _) | .call _ (.setRefresh f) => [.fn f]
  | .call _ (.clear (some f) _) | .call _ (.setClear (some f)) => [.clr f]
  | _ => []

/-- What a call returns. -/
def ofRes : Res T E → List (Thing T E F)
  | .val v none => [.val v]
  | .val v (some e) => [.val v, .err e]
  | .time t => [.time t]
  | .err _ | .panicked | .unit => []

/-- What can be seen in an event: the results of calls, but for the error of `Clear`; the functions called and the old values they are given. -/
def shows : Ev T E F A → List (Thing T E F)
  | .ret _ r => ofRes r
  | .start _ f _ old => [.fn f, .val old]
  | .clearStart _ f _ old => [.clr f, .val old]
  | _ => []

/-- What is there from the beginning. -/
def Initial (c : Cfg T) (rf : F) : Thing T E F → Prop
  | .val v => v = c.zero
  | .time t => t = 0
  | .fn f => f = rf
  | _ => False

/-! ## Proof -/

/-- What a goroutine has at hand. -/
def cargo : PC T E F A → List (Thing T E F)
  | .setRefresh f => [.fn f]
  | .setClear (some f) => [.clr f]
  | .gLast f _ | .gChk f _ _ | .gErrNow f _ | .gErrChk f _ _ | .gLock f _ | .lLast f _ | .lNow f _ | .lChk f _ _ | .lCmp f _ _ | .lErrNow f _ | .lErrChk f _ _
  | .rLock f _ | .old f _ => [.fn f]
  | .wData v r => .val v :: ofRes r
  | .wNow r | .wLastErr r | .wErrNow r | .wErrClr r | .unlock r | .done r => ofRes r
  | .wLast now r | .wErrLast now r => .time now :: ofRes r
  | .wErr e r => .err e :: ofRes r
  | .kLoad f _ => [.clr f]
  | .kStore (some (f, _, d)) | .kCall f _ d => [.clr f, .val d]
  | .wRawBoth2 d => [.val d]
  | _ => []

/-- What a field holds. -/
def held (s : State T E F A) : Place → List (Thing T E F)
  | .err => match s.err with
    | some e => [.err e]
    | none => []
  | .data => [.val s.data]
  | .last => [.time s.last]
  | .lastErr => [.time s.lastErr]
  | .lock => []
  | .rf => [.fn s.rf]
  | .cf => match s.cf with
    | some f => [.clr f]
    | none => []

variable {c : Cfg T} {rf : F} {tr : List (Ev T E F A)} {ss : List (State T E F A)} {i j n m : Nat}
  {s s' : State T E F A} {e : Ev T E F A} {inp : In T E F A} {ls : List Label} {x : Thing T E F} {pl : Place}

theorem entry_cargo {op : Op F A} (h : x ∈ cargo (entry op : PC T E F A)) : x ∈ gives (.call i op : Ev T E F A) := by
  cases op with
  | clear f a => cases f <;> simpa [entry, cargo, gives] using h
  | setClear f => cases f <;> simpa [entry, cargo, gives] using h
  | _ => simpa [entry, cargo, gives] using h

theorem gNext_cargo {f : F} {a : A} : cargo (gNext c f a : PC T E F A) = [.fn f] := by unfold gNext; split <;> rfl
theorem lNext_cargo {f : F} {a : A} : cargo (lNext c f a : PC T E F A) = [.fn f] := by unfold lNext; split <;> rfl
theorem rawNext_cargo : cargo (rawNext c : PC T E F A) = [] := by unfold rawNext; split <;> rfl

theorem back_cargo {o : Outcome T E} (h : x ∈ cargo (o.back c : PC T E F A)) : Initial c rf x ∨ x ∈ gives (.finish i o : Ev T E F A) := by
  rcases o with ⟨v, _ | e⟩ | _
  · right; simpa [Outcome.back, cargo, ofRes, gives] using h
  · right; simp [Outcome.back, cargo, ofRes, gives] at h ⊢; tauto
  · left
    simp only [Outcome.back, cargo, ofRes, List.mem_cons, List.not_mem_nil, or_false] at h
    subst h
    rfl

theorem mem_ofRes {v : T} (h : x ∈ (ofRes (.val v s.err) : List (Thing T E F))) : x = .val v ∨ x ∈ held s .err := by
  cases he : s.err <;> simp [he, ofRes, held] at h ⊢ <;> tauto

/-- What a goroutine has after a step. -/
theorem step_cargo (h : step c s i inp = some (s', e)) (hx : x ∈ cargo (s'.pc i)) :
    Initial c rf x ∨ x ∈ gives e ∨ x ∈ cargo (s.pc i) ∨ ∃ pl, acq (s.pc i) = some pl ∧ x ∈ held s pl := by
  cases hpc : s.pc i <;> cases inp <;> simp only [step, hpc, reduceCtorEq, Option.some.injEq, Prod.mk.injEq] at h
  all_goals first
    | (obtain ⟨rfl, rfl⟩ := h)
    | (split at h <;> first | (cases h; done) | (simp only [Option.some.injEq, Prod.mk.injEq] at h; obtain ⟨rfl, rfl⟩ := h))
  all_goals simp only [State.go, Function.update_self] at hx
  case idle.call op => exact .inr (.inl (entry_cargo hx))
  case running.fin o => exact (back_cargo hx).imp_right .inl
  all_goals first
    | exact .inr (.inr (.inl hx))
    | (simp [cargo] at hx; done)
    | exact .inr (.inr (.inr ⟨_, rfl, hx⟩))
    | exact .inr (.inr (.inl (List.mem_cons_of_mem _ hx)))
    | exact (List.mem_cons.1 hx).elim (fun h => .inr (.inl (h ▸ List.mem_singleton_self _))) fun h => .inr (.inr (.inl h))
    | exact (mem_ofRes hx).elim (fun h => .inl (h ▸ rfl)) fun h => .inr (.inr (.inr ⟨_, rfl, h⟩))
    | exact (mem_ofRes hx).elim (fun h => .inr (.inr (.inl (h ▸ List.mem_singleton_self _)))) fun h => .inr (.inr (.inr ⟨_, rfl, h⟩))
    | (split at hx <;> first
        | exact .inr (.inr (.inl hx))
        | (simp [cargo] at hx; done)
        | (rw [gNext_cargo] at hx; exact .inr (.inr (.inl hx)))
        | (rw [lNext_cargo] at hx; exact .inr (.inr (.inl hx))))
    | skip
  case cClear.go =>
    cases hc : s.cf <;> simp only [hc] at hx
    · simp [cargo] at hx
    · refine .inr (.inr (.inr ⟨_, rfl, ?_⟩))
      simpa [held, hc, cargo] using hx
  case setClear.go => simp [cargo, ofRes] at hx
  case kLoad.go =>
    simp only [cargo, List.mem_cons, List.not_mem_nil, or_false] at hx
    rcases hx with rfl | rfl
    · exact .inr (.inr (.inl (List.mem_singleton_self _)))
    · exact .inr (.inr (.inr ⟨_, rfl, List.mem_singleton_self _⟩))
  case wRawChk.time.isFalse =>
    split at hx
    · simp [cargo] at hx
    · simp [rawNext_cargo] at hx

/-- What the fields hold after a step. -/
theorem step_held (h : step c s i inp = some (s', e)) (hx : x ∈ held s' pl) :
    (x ∈ held s pl ∧ rel (s.pc i) ≠ some pl) ∨ (rel (s.pc i) = some pl ∧ (Initial c rf x ∨ x ∈ cargo (s.pc i))) := by
  cases hpc : s.pc i <;> cases inp <;> simp only [step, hpc, reduceCtorEq, Option.some.injEq, Prod.mk.injEq] at h
  all_goals first
    | (obtain ⟨rfl, rfl⟩ := h)
    | (split at h <;> first | (cases h; done) | (simp only [Option.some.injEq, Prod.mk.injEq] at h; obtain ⟨rfl, rfl⟩ := h))
  all_goals first
    | (refine .inl ⟨hx, ?_⟩; simp [rel]; done)
    | skip
  case setClear.go f =>
    cases f <;> cases pl <;> first
      | (refine .inl ⟨hx, ?_⟩; simp [rel]; done)
      | exact .inr ⟨rfl, .inr hx⟩
  all_goals cases pl
  all_goals first
    | (refine .inl ⟨hx, ?_⟩; simp [rel]; done)
    | (refine .inr ⟨rfl, .inl ?_⟩; rw [List.mem_singleton.1 hx]; rfl)
    | (refine .inr ⟨rfl, .inr ?_⟩; rw [List.mem_singleton.1 hx]; exact List.mem_cons_self)
    | exact absurd hx (List.not_mem_nil)

/-- What is seen in a step. -/
theorem step_shows (h : step c s i inp = some (s', e)) (hx : x ∈ shows e) : x ∈ cargo (s.pc i) ∨ ∃ pl, acq (s.pc i) = some pl ∧ x ∈ held s pl := by
  cases hpc : s.pc i <;> cases inp <;> simp only [step, hpc, reduceCtorEq, Option.some.injEq, Prod.mk.injEq] at h
  all_goals first
    | (obtain ⟨rfl, rfl⟩ := h)
    | (split at h <;> first | (cases h; done) | (simp only [Option.some.injEq, Prod.mk.injEq] at h; obtain ⟨rfl, rfl⟩ := h))
  all_goals first
    | (simp [shows] at hx; done)
    | exact .inl hx
    | skip
  case old.go f a =>
    simp only [shows, List.mem_cons, List.not_mem_nil, or_false] at hx
    rcases hx with rfl | rfl
    · exact .inl (List.mem_singleton_self _)
    · exact .inr ⟨_, rfl, List.mem_singleton_self _⟩

/-! ### Labels -/

theorem at_end (h : Exec c rf tr ss s) : (init c rf :: ss)[tr.length]? = some s := by
  cases h with
  | nil => rfl
  | snoc h1 h2 =>
    have := h1.len
    simp [this]

theorem labels_len (h : Exec c rf tr ss s) : (labels c rf tr ss).length = tr.length := by
  have := h.len
  simp [labels, this]

theorem labels_snoc (h : Exec c rf tr ss s) (e : Ev T E F A) (s' : State T E F A) :
    labels c rf (tr ++ [e]) (ss ++ [s']) = labels c rf tr ss ++ [label s e] := by
  have hl := h.len
  have h1 : init c rf :: ss = (init c rf :: ss).take tr.length ++ [s] := by
    have := at_end h
    rw [← List.take_append_drop tr.length (init c rf :: ss)]
    congr 1
    · simp
    · rw [List.drop_eq_getElem?_toList_append, this]
      simp [hl]
  have h2 : ((init c rf :: ss).take tr.length).length = tr.length := by simp; omega
  unfold labels
  have h3 : List.zipWith label ((init c rf :: ss).take tr.length ++ [s]) tr = List.zipWith label ((init c rf :: ss).take tr.length) tr := by
    have := List.zipWith_append (f := label) (l₁ := (init c rf :: ss).take tr.length) (l₁' := [s]) (l₂ := tr) (l₂' := []) h2
    simpa using this
  rw [← h1] at h3
  rw [h3, ← List.cons_append, h1, List.append_assoc, List.zipWith_append h2, ← h1]
  simp

theorem PO.keep {a : Label} (h : PO ls n m) : PO (ls ++ [a]) n m := by
  obtain ⟨h1, a, b, h2, h3, h4⟩ := h
  exact ⟨h1, a, b, get_keep h2, get_keep h3, h4⟩

theorem SW.keep {a : Label} (h : SW ls n m) : SW (ls ++ [a]) n m := by
  obtain ⟨h1, a, b, pl, h2, h3, h4, h5, h6⟩ := h
  refine ⟨h1, a, b, pl, get_keep h2, get_keep h3, h4, h5, fun k d k1 k2 k3 => ?_⟩
  rcases get_snoc.1 k3 with k3 | ⟨rfl, -⟩
  · exact h6 k d k1 k2 k3
  · have := get_lt h3; omega

theorem Before.keep {a : Label} (h : Before ls n m) : Before (ls ++ [a]) n m := by
  induction h with
  | single h => exact .single (h.imp PO.keep SW.keep)
  | tail _ h ih => exact ih.tail (h.imp PO.keep SW.keep)

theorem Before.lt (h : Before ls n m) : n < m := by
  induction h with
  | single h => exact h.elim (·.1) (·.1)
  | tail _ h ih => exact Nat.lt_trans ih (h.elim (·.1) (·.1))

/-- Something that goroutine `i` has done comes after `n`. -/
def Knows (ls : List Label) (i n : Nat) : Prop := ∃ m a, ls[m]? = some a ∧ a.tid = i ∧ (n = m ∨ Before ls n m)

theorem Knows.keep {a : Label} (h : Knows ls i n) : Knows (ls ++ [a]) i n := by
  obtain ⟨m, b, h1, h2, h3⟩ := h
  exact ⟨m, b, get_keep h1, h2, h3.imp_right Before.keep⟩

/-- What a goroutine knows comes before what it does next. -/
theorem Knows.next {a : Label} (h : Knows ls a.tid n) : Before (ls ++ [a]) n ls.length := by
  obtain ⟨m, b, h1, h2, h3⟩ := h
  have h4 : PO (ls ++ [a]) m ls.length := ⟨get_lt h1, b, a, get_keep h1, get_new, h2⟩
  rcases h3 with rfl | h3
  · exact .single (.inl h4)
  · exact h3.keep.tail (.inl h4)

theorem Knows.new {a : Label} (h : n = ls.length ∨ Before (ls ++ [a]) n ls.length) : Knows (ls ++ [a]) a.tid n :=
  ⟨ls.length, a, get_new, rfl, h⟩

/-- `n` comes before (or is) the last store to a place. -/
def Left (ls : List Label) (pl : Place) (n : Nat) : Prop :=
  ∃ w a, ls[w]? = some a ∧ a.rel = some pl ∧ (∀ k d, w < k → ls[k]? = some d → d.rel ≠ some pl) ∧ (n = w ∨ Before ls n w)

theorem Left.keep {a : Label} (h : Left ls pl n) (ha : a.rel ≠ some pl) : Left (ls ++ [a]) pl n := by
  obtain ⟨w, b, h1, h2, h3, h4⟩ := h
  refine ⟨w, b, get_keep h1, h2, fun k d k1 k2 => ?_, h4.imp_right Before.keep⟩
  rcases get_snoc.1 k2 with k2 | ⟨-, rfl⟩
  · exact h3 k d k1 k2
  · exact ha

theorem Left.new {a : Label} (h : n = ls.length ∨ Before (ls ++ [a]) n ls.length) (ha : a.rel = some pl) : Left (ls ++ [a]) pl n := by
  refine ⟨ls.length, a, get_new, ha, fun k d k1 k2 => ?_, h⟩
  have := get_lt k2
  simp at this; omega

/-- What was left at a place comes before a load. -/
theorem Left.load {a : Label} (h : Left ls pl n) (ha : a.acq = some pl) : Before (ls ++ [a]) n ls.length := by
  obtain ⟨w, b, h1, h2, h3, h4⟩ := h
  have h5 : SW (ls ++ [a]) w ls.length := by
    refine ⟨get_lt h1, b, a, pl, get_keep h1, get_new, h2, ha, fun k d k1 k2 k3 => ?_⟩
    rcases get_snoc.1 k3 with k3 | ⟨rfl, -⟩
    · exact h3 k d k1 k3
    · omega
  rcases h4 with rfl | h4
  · exact .single (.inr h5)
  · exact h4.keep.tail (.inr h5)

/-! ### Invariants -/

/-- Where things come from. -/
structure Inv (c : Cfg T) (rf : F) (tr : List (Ev T E F A)) (ls : List Label) (s : State T E F A) : Prop where
  cargo : ∀ i x, x ∈ cargo (s.pc i) → Initial c rf x ∨ ∃ n e, tr[n]? = some e ∧ x ∈ gives e ∧ Knows ls i n
  held : ∀ pl x, x ∈ held s pl → Initial c rf x ∨ ∃ n e, tr[n]? = some e ∧ x ∈ gives e ∧ Left ls pl n
  shows : ∀ q e x, tr[q]? = some e → x ∈ shows e → Initial c rf x ∨ ∃ n e', tr[n]? = some e' ∧ x ∈ gives e' ∧ Before ls n q

theorem inv (h : Exec c rf tr ss s) : Inv c rf tr (labels c rf tr ss) s := by
  induction h with
  | nil =>
    refine ⟨fun i x h => by simp [init, cargo] at h, fun pl x h => .inl ?_, fun q e x h => by simp at h⟩
    cases pl <;> simp [init, held] at h <;> subst h <;> rfl
  | snoc h1 h2 ih =>
    rename_i tr ss s i inp s' e
    rw [labels_snoc h1]
    have hl : (labels c rf tr ss).length = tr.length := labels_len h1
    have ht := step_tid h2
    generalize labels c rf tr ss = ls at ih hl ⊢
    have hlt : (label s e).tid = i := ht
    have hac : (label s e).acq = acq (s.pc i) := by simp [label, ht]
    have hre : (label s e).rel = rel (s.pc i) := by simp [label, ht]
    -- what comes from the goroutine or from a place comes before the new event
    have own : ∀ x, x ∈ cargo (s.pc i) → Initial c rf x ∨ ∃ n e', (tr ++ [e])[n]? = some e' ∧ x ∈ gives e' ∧ Before (ls ++ [label s e]) n ls.length := by
      intro x hx
      refine (ih.cargo i x hx).imp_right ?_
      rintro ⟨n, e', a1, a2, a3⟩
      exact ⟨n, e', get_keep a1, a2, Knows.next (by rw [hlt]; exact a3)⟩
    have load : ∀ x pl, acq (s.pc i) = some pl → x ∈ held s pl →
        Initial c rf x ∨ ∃ n e', (tr ++ [e])[n]? = some e' ∧ x ∈ gives e' ∧ Before (ls ++ [label s e]) n ls.length := by
      intro x pl hp hx
      refine (ih.held pl x hx).imp_right ?_
      rintro ⟨n, e', a1, a2, a3⟩
      exact ⟨n, e', get_keep a1, a2, a3.load (hac.trans hp)⟩
    refine ⟨fun j x hx => ?_, fun pl x hx => ?_, fun q e' x hq hx => ?_⟩
    · by_cases hji : j = i
      · subst hji
        rcases step_cargo (rf := rf) h2 hx with h3 | h3 | h3 | ⟨pl, h3, h4⟩
        · exact .inl h3
        · exact .inr ⟨tr.length, e, get_new, h3, by rw [← hlt]; exact Knows.new (.inl hl.symm)⟩
        · refine (own x h3).imp_right ?_
          rintro ⟨n, e', a1, a2, a3⟩
          exact ⟨n, e', a1, a2, by rw [← hlt]; exact Knows.new (.inr a3)⟩
        · refine (load x pl h3 h4).imp_right ?_
          rintro ⟨n, e', a1, a2, a3⟩
          exact ⟨n, e', a1, a2, by rw [← hlt]; exact Knows.new (.inr a3)⟩
      · rw [step_other h2 hji] at hx
        refine (ih.cargo j x hx).imp_right ?_
        rintro ⟨n, e', a1, a2, a3⟩
        exact ⟨n, e', get_keep a1, a2, a3.keep⟩
    · rcases step_held (rf := rf) h2 hx with ⟨h3, h4⟩ | ⟨h3, h4⟩
      · refine (ih.held pl x h3).imp_right ?_
        rintro ⟨n, e', a1, a2, a3⟩
        exact ⟨n, e', get_keep a1, a2, a3.keep (by rw [hre]; exact h4)⟩
      · rcases h4 with h4 | h4
        · exact .inl h4
        · refine (own x h4).imp_right ?_
          rintro ⟨n, e', a1, a2, a3⟩
          exact ⟨n, e', a1, a2, Left.new (.inr a3) (hre.trans h3)⟩
    · rcases get_snoc.1 hq with hq | ⟨rfl, rfl⟩
      · refine (ih.shows q e' x hq hx).imp_right ?_
        rintro ⟨n, e', a1, a2, a3⟩
        exact ⟨n, e', get_keep a1, a2, a3.keep⟩
      · rw [← hl]
        rcases step_shows h2 hx with h3 | ⟨pl, h3, h4⟩
        · exact own x h3
        · exact load x pl h3 h4

/-- **C157**: whatever a call returns (the error of `Clear` aside), and whatever function is called and old value passed to it: it has been there from the
beginning, or it was returned by a function, read from the clock or passed by a caller in an event that happens before. -/
theorem C157_sources (h : Exec c rf tr ss s) {q : Nat} (hq : tr[q]? = some e) (hx : x ∈ shows e) :
    Initial c rf x ∨ ∃ n e', tr[n]? = some e' ∧ x ∈ gives e' ∧ Before (labels c rf tr ss) n q := (inv h).shows q e x hq hx


/-! ### The lock -/

/-- The `n`-th event is one of the goroutine that has the lock. -/
def InLock (c : Cfg T) (rf : F) (tr : List (Ev T E F A)) (ss : List (State T E F A)) (n : Nat) : Prop :=
  ∃ s0 e, (init c rf :: ss)[n]? = some s0 ∧ tr[n]? = some e ∧ (s0.pc e.tid).crit

theorem rel_lock {pc : PC T E F A} : rel pc = some .lock ↔ ∃ r, pc = .unlock r := by
  cases pc <;> simp [rel]

theorem step_locked (h : step c s i inp = some (s', .locked j)) : acq (s.pc i) = some .lock ∧ rel (s.pc i) = none := by
  cases hpc : s.pc i <;> cases inp <;> simp only [step, hpc, reduceCtorEq, Option.some.injEq, Prod.mk.injEq] at h
  all_goals first
    | exact ⟨rfl, rfl⟩
    | (obtain ⟨rfl, h⟩ := h; cases h; done)
    | (split at h <;> first | (cases h; done) | (simp only [Option.some.injEq, Prod.mk.injEq] at h; obtain ⟨rfl, h⟩ := h; cases h; done))

theorem step_unlocks (h : step c s i inp = some (s', e)) (h1 : (s.pc i).crit) (h2 : ¬ (s'.pc i).crit) : rel (s.pc i) = some .lock := by
  cases hpc : s.pc i <;> rw [hpc] at h1 <;> first | (cases h1; done) | skip
  all_goals cases inp <;> simp only [step, hpc, reduceCtorEq, Option.some.injEq, Prod.mk.injEq] at h
  case unlock.go => rfl
  all_goals first
    | (obtain ⟨rfl, rfl⟩ := h)
    | (split at h <;> first | (cases h; done) | (simp only [Option.some.injEq, Prod.mk.injEq] at h; obtain ⟨rfl, rfl⟩ := h))
  all_goals simp only [State.go, Function.update_self] at h2
  all_goals first
    | exact absurd trivial h2
    | exact absurd back_crit h2
    | (split at h2 <;> first | exact absurd trivial h2 | exact absurd lNext_crit h2)

theorem unlock_step {r : Res T E} (h : step c s i inp = some (s', e)) (hp : s.pc i = .unlock r) : ¬ (s'.pc i).crit := by
  cases inp <;> simp only [step, hp, reduceCtorEq, Option.some.injEq, Prod.mk.injEq] at h
  obtain ⟨rfl, rfl⟩ := h
  simp only [State.go, Function.update_self]
  exact fun h => h

structure Serial (c : Cfg T) (rf : F) (tr : List (Ev T E F A)) (ss : List (State T E F A)) (ls : List Label) (s : State T E F A) : Prop where
  free : s.lock = none → ∀ n, InLock c rf tr ss n → Left ls .lock n
  taken : ∀ i, s.lock = some i → ∀ n, InLock c rf tr ss n → Knows ls i n
  order : ∀ n m, n < m → InLock c rf tr ss n → InLock c rf tr ss m → Before ls n m

theorem serial (h : Exec c rf tr ss s) : Serial c rf tr ss (labels c rf tr ss) s := by
  induction h with
  | nil =>
    have : ∀ n, ¬ InLock c rf ([] : List (Ev T E F A)) [] n := by
      rintro n ⟨s0, e, -, h, -⟩
      simp at h
    exact ⟨fun _ n h => absurd h (this n), fun _ _ n h => absurd h (this n), fun n _ _ h => absurd h (this n)⟩
  | snoc h1 h2 ih =>
    rename_i tr ss s i inp s' e
    rw [labels_snoc h1]
    have hl : (labels c rf tr ss).length = tr.length := labels_len h1
    have ht := step_tid h2
    have hend := at_end h1
    have hll := h1.len
    generalize labels c rf tr ss = ls at ih hl ⊢
    have hlt : (label s e).tid = i := ht
    have hac : (label s e).acq = acq (s.pc i) := by simp [label, ht]
    have hre : (label s e).rel = rel (s.pc i) := by simp [label, ht]
    have hin : ∀ n, InLock c rf (tr ++ [e]) (ss ++ [s']) n → InLock c rf tr ss n ∨ n = ls.length ∧ (s.pc i).crit := by
      rintro n ⟨s0, e', a1, a2, a3⟩
      rw [← List.cons_append] at a1
      rcases get_snoc.1 a2 with a2 | ⟨rfl, rfl⟩
      · rcases get_snoc.1 a1 with a1 | ⟨rfl, -⟩
        · exact .inl ⟨s0, e', a1, a2, a3⟩
        · have := get_lt a2
          simp at this; omega
      · rcases get_snoc.1 a1 with a1 | ⟨a1, -⟩
        · rw [hend] at a1
          cases a1
          rw [ht] at a3
          exact .inr ⟨hl.symm, a3⟩
        · simp at a1; omega
    have hlen : ∀ n, InLock c rf tr ss n → n < tr.length := by
      rintro n ⟨_, _, -, a, -⟩
      exact get_lt a
    -- events in the lock before an event in the lock
    have ord : ((s.pc i).crit → ∀ n, InLock c rf tr ss n → Before (ls ++ [label s e]) n ls.length) →
        ∀ n m, n < m → InLock c rf (tr ++ [e]) (ss ++ [s']) n → InLock c rf (tr ++ [e]) (ss ++ [s']) m → Before (ls ++ [label s e]) n m := by
      intro hb n m hnm hn hm
      rcases hin m hm with hm' | ⟨rfl, hm'⟩
      · rcases hin n hn with hn' | ⟨rfl, -⟩
        · exact (ih.order n m hnm hn' hm').keep
        · have := hlen m hm'; omega
      · rcases hin n hn with hn' | ⟨rfl, -⟩
        · exact hb hm' n hn'
        · omega
    have mine : (s.pc i).crit → ∀ n, InLock c rf tr ss n → Before (ls ++ [label s e]) n ls.length := by
      intro hc n hn
      exact Knows.next (by rw [hlt]; exact ih.taken i ((h1.lock.crit i).2 hc) n hn)
    refine ⟨fun hf n hn => ?_, fun j hj n hn => ?_, ord mine⟩
    · rcases step_lock h2 with ⟨a, b, -, -⟩ | ⟨-, b, -, -⟩ | ⟨a, -, b, -⟩
      · rw [a] at hf
        have hnc : ¬ (s.pc i).crit := fun hc => by
          have := (h1.lock.crit i).2 hc
          rw [hf] at this; cases this
        rcases hin n hn with hn' | ⟨-, hn'⟩
        · refine (ih.free hf n hn').keep ?_
          rw [hre]
          intro hr
          obtain ⟨r, hr⟩ := rel_lock.1 hr
          exact hnc (by rw [hr]; trivial)
        · exact absurd hn' hnc
      · rw [b] at hf; cases hf
      · refine Left.new ?_ (hre.trans (step_unlocks h2 a b))
        rcases hin n hn with hn' | ⟨hn', -⟩
        · exact .inr (mine a n hn')
        · exact .inl hn'
    · rcases step_lock h2 with ⟨a, b, -, -⟩ | ⟨a, b, -, rfl⟩ | ⟨-, b, -⟩
      · rw [a] at hj
        rcases hin n hn with hn' | ⟨hn', hc⟩
        · exact (ih.taken j hj n hn').keep
        · have := (h1.lock.crit i).2 hc
          rw [hj] at this
          cases this
          rw [← hlt]
          exact Knows.new (.inl hn')
      · rw [b] at hj
        cases hj
        obtain ⟨h3, -⟩ := step_locked h2
        rcases hin n hn with hn' | ⟨-, hn'⟩
        · rw [← hlt]
          exact Knows.new (.inr ((ih.free a n hn').load (hac.trans h3)))
        · have := (h1.lock.crit i).2 hn'
          rw [a] at this; cases this
      · rw [b] at hj; cases hj

theorem start_inLock (h : Exec c rf tr ss s) {n : Nat} (hn : tr[n]? = some e) (he : e.isStart ∨ e.isFinish) : InLock c rf tr ss n := by
  obtain ⟨s0, inp, s1, h1, h2, -⟩ := h.at hn
  have hl := get_lt hn
  have hs := at_end h1
  rw [List.length_take, Nat.min_eq_left (by omega)] at hs
  refine ⟨s0, e, ?_, hn, ?_⟩
  · rcases n with _ | n
    · simpa using hs
    · rw [List.getElem?_cons_succ] at hs ⊢
      exact (get_take.1 hs).2
  · rcases step_lock h2 with ⟨-, -, -, a⟩ | ⟨-, -, -, a⟩ | ⟨a, -⟩
    · exact a he
    · rw [a] at he
      rcases he with he | he <;> cases he
    · exact a

/-- **C157**: refresh functions are run one after the other: the beginnings and ends of their runs, by whatever goroutines, happen before each other in
the order in which they occur.  So what a refresh function does happens before what the next one does. -/
theorem C157_serial (h : Exec c rf tr ss s) {n m : Nat} {e e' : Ev T E F A} (hn : tr[n]? = some e) (he : e.isStart ∨ e.isFinish)
    (hm : tr[m]? = some e') (he' : e'.isStart ∨ e'.isFinish) (hnm : n < m) : Before (labels c rf tr ss) n m :=
  (serial h).order n m hnm (start_inLock h hn he) (start_inLock h hm he')

/-! ### `Clear` -/

/-- The calls that look at `last`: `Get`, `Raw`, `Last`. -/
def Looks : Op F A → Prop
  | .get _ _ | .cget _ | .raw | .last => True
  | _ => False

/-- Such a call has not looked yet. -/
def pre : PC T E F A → Prop
  | .cGet _ | .gLast _ _ | .wRaw | .rdLast => True
  | _ => False

theorem step_pre (h : step c s i inp = some (s', e)) (hp : pre (s.pc i)) : pre (s'.pc i) ∨ acq (s.pc i) = some .last := by
  cases hpc : s.pc i <;> rw [hpc] at hp <;> first | (cases hp; done) | exact .inr rfl | skip
  cases inp <;> simp only [step, hpc, reduceCtorEq, Option.some.injEq, Prod.mk.injEq] at h
  obtain ⟨rfl, rfl⟩ := h
  left
  simp only [State.go, Function.update_self]
  trivial

theorem step_call {op : Op F A} (h : step c s i inp = some (s', .call j op)) (hl : Looks op) : pre (s'.pc i) := by
  cases hpc : s.pc i <;> cases inp <;> simp only [step, hpc, reduceCtorEq, Option.some.injEq, Prod.mk.injEq] at h
  case idle.call op' =>
    obtain ⟨rfl, h⟩ := h
    cases h
    simp only [State.go, Function.update_self]
    cases op <;> first | (cases hl; done) | trivial
  all_goals first
    | (obtain ⟨rfl, h⟩ := h; cases h; done)
    | (split at h <;> first | (cases h; done) | (simp only [Option.some.injEq, Prod.mk.injEq] at h; obtain ⟨rfl, h⟩ := h; cases h; done))

theorem step_event (h : step c s i inp = some (s', e)) (he : e.isStart ∨ ∃ r, e = .ret i r) : ¬ pre (s.pc i) := by
  cases hpc : s.pc i <;> first | exact fun h => h | skip
  all_goals
    exfalso
    cases inp <;> simp only [step, hpc, reduceCtorEq, Option.some.injEq, Prod.mk.injEq] at h
    obtain ⟨rfl, rfl⟩ := h
    rcases he with he | ⟨r, he⟩ <;> cases he

/-- The call of `j` at `p` has looked at `last` before `z`. -/
def Looked (ls : List Label) (j p z : Nat) : Prop := ∃ m a, p < m ∧ m < z ∧ ls[m]? = some a ∧ a.tid = j ∧ a.acq = some .last

theorem Looked.keep {a : Label} {p z z' : Nat} (h : Looked ls j p z) (hz : z ≤ z') : Looked (ls ++ [a]) j p z' := by
  obtain ⟨m, b, h1, h2, h3, h4⟩ := h
  exact ⟨m, b, h1, by omega, get_keep h3, h4⟩

structure Looking (tr : List (Ev T E F A)) (ls : List Label) (s : State T E F A) : Prop where
  now : ∀ j p op, CallAt tr j p op tr.length → Looks op → pre (s.pc j) ∨ Looked ls j p tr.length
  past : ∀ j p q op e, CallAt tr j p op q → Looks op → tr[q]? = some e → e.tid = j → (e.isStart ∨ ∃ r, e = .ret j r) → Looked ls j p q

theorem looking (h : Exec c rf tr ss s) : Looking tr (labels c rf tr ss) s := by
  induction h with
  | nil => exact ⟨fun j p op h => absurd h.lt (by simp), fun j p q op e _ _ h => by simp at h⟩
  | snoc h1 h2 ih =>
    rename_i tr ss s i inp s' e
    rw [labels_snoc h1]
    have hl : (labels c rf tr ss).length = tr.length := labels_len h1
    have ht := step_tid h2
    generalize labels c rf tr ss = ls at ih hl ⊢
    have hac : (label s e).acq = acq (s.pc i) := by simp [label, ht]
    have back : ∀ {j p q op}, CallAt (tr ++ [e]) j p op q → q ≤ tr.length → CallAt tr j p op q := by
      rintro j p q op ⟨a1, a2, a3⟩ hq
      rcases get_snoc.1 a2 with a2 | ⟨a2, -⟩
      · exact ⟨a1, a2, fun k op' k1 k2 k3 => a3 k op' k1 k2 (get_keep k3)⟩
      · omega
    refine ⟨fun j p op hc hk => ?_, fun j p q op e' hc hk hq hj he => ?_⟩
    · rw [List.length_append, List.length_singleton] at hc ⊢
      by_cases hp : p = tr.length
      · subst hp
        have := hc.at_
        rcases get_snoc.1 this with h3 | ⟨-, rfl⟩
        · have := get_lt h3; omega
        · have hij : j = i := ht
          subst hij
          exact .inl (step_call h2 hk)
      · have hc' : CallAt tr j p op tr.length := by
          have h3 := hc.lt
          refine back ⟨by omega, hc.at_, fun k op' k1 k2 => hc.only k op' k1 (by omega)⟩ (Nat.le_refl _)
        rcases ih.now j p op hc' hk with h3 | h3
        · by_cases hji : j = i
          · subst hji
            refine (step_pre h2 h3).imp_right fun h4 => ?_
            exact ⟨ls.length, label s e, by rw [hl]; exact hc'.lt, by omega, get_new, ht, hac.trans h4⟩
          · left
            rw [step_other h2 hji]
            exact h3
        · exact .inr (h3.keep (by omega))
    · rcases get_snoc.1 hq with hq | ⟨rfl, rfl⟩
      · exact (ih.past j p q op e' (back hc (Nat.le_of_lt (get_lt hq))) hk hq hj he).keep (Nat.le_refl _)
      · have hij : j = i := hj.symm.trans ht
        subst hij
        exact ((ih.now j p op (back hc (Nat.le_refl _)) hk).resolve_left (step_event h2 he)).keep (Nat.le_refl _)

/-- The last store to a place before `m`. -/
theorem last_store {k : Nat} {a : Label} (ha : ls[k]? = some a) (hr : a.rel = some pl) : ∀ m, k < m →
    ∃ w b, k ≤ w ∧ w < m ∧ ls[w]? = some b ∧ b.rel = some pl ∧ ∀ z d, w < z → z < m → ls[z]? = some d → d.rel ≠ some pl := by
  intro m hm
  induction m with
  | zero => omega
  | succ m ih =>
    rcases Nat.lt_or_ge k m with h | h
    · rcases hd : ls[m]? with _ | d
      · obtain ⟨w, b, h1, h2, h3, h4, h5⟩ := ih h
        refine ⟨w, b, h1, by omega, h3, h4, fun z d z1 z2 z3 => ?_⟩
        rcases Nat.lt_or_ge z m with h | h
        · exact h5 z d z1 h z3
        · have : z = m := by omega
          rw [this, hd] at z3; cases z3
      · by_cases hr' : d.rel = some pl
        · exact ⟨m, d, by omega, by omega, hd, hr', fun z d z1 z2 => by omega⟩
        · obtain ⟨w, b, h1, h2, h3, h4, h5⟩ := ih h
          refine ⟨w, b, h1, by omega, h3, h4, fun z d' z1 z2 z3 => ?_⟩
          rcases Nat.lt_or_ge z m with h | h
          · exact h5 z d' z1 h z3
          · have : z = m := by omega
            rw [this, hd] at z3; cases z3
            exact hr'
    · have : k = m := by omega
      subst this
      exact ⟨k, a, Nat.le_refl _, by omega, ha, hr, fun z d z1 z2 => by omega⟩

theorem label_at (h : Exec c rf tr ss s) {n : Nat} (hn : tr[n]? = some e) :
    ∃ s0 inp s1 a, step c s0 e.tid inp = some (s1, e) ∧ (labels c rf tr ss)[n]? = some a ∧ a = label s0 e := by
  induction h with
  | nil => simp at hn
  | snoc h1 h2 ih =>
    rename_i tr ss s i inp s' e'
    rw [labels_snoc h1]
    rcases get_snoc.1 hn with hn | ⟨rfl, rfl⟩
    · obtain ⟨s0, inp, s1, a, a1, a2, a3⟩ := ih hn
      exact ⟨s0, inp, s1, a, a1, get_keep a2, a3⟩
    · refine ⟨s, inp, s', _, by rw [step_tid h2]; exact h2, ?_, rfl⟩
      rw [← labels_len h1]
      exact get_new

theorem step_cleared (h : step c s i inp = some (s', .cleared j)) : rel (s.pc i) = some .last := by
  cases hpc : s.pc i <;> cases inp <;> simp only [step, hpc, reduceCtorEq, Option.some.injEq, Prod.mk.injEq] at h
  all_goals first
    | rfl
    | (obtain ⟨rfl, h⟩ := h; cases h; done)
    | (split at h <;> first | (cases h; done) | (simp only [Option.some.injEq, Prod.mk.injEq] at h; obtain ⟨rfl, h⟩ := h; cases h; done))

/-- **C157**: when a `Get`, `Raw` or `Last` that was called after `Clear` took effect returns, or starts the refresh function, then `Clear`, or a later change of
the time of the value, has happened before. -/
theorem C157_clear (h : Exec c rf tr ss s) {k p q : Nat} {op : Op F A} (hk : tr[k]? = some (.cleared i)) (hkp : k < p) (hc : CallAt tr j p op q) (ho : Looks op)
    (hq : tr[q]? = some e) (hj : e.tid = j) (he : e.isStart ∨ ∃ r, e = .ret j r) :
    ∃ w a, k ≤ w ∧ (labels c rf tr ss)[w]? = some a ∧ a.rel = some .last ∧ Before (labels c rf tr ss) w q := by
  obtain ⟨m, b, h1, h2, h3, h4, h5⟩ := (looking h).past j p q op e hc ho hq hj he
  obtain ⟨s0, inp, s1, a, a1, a2, rfl⟩ := label_at h hk
  obtain ⟨w, d, w1, w2, w3, w4, w5⟩ := last_store (pl := .last) a2 (step_cleared a1) m (by omega)
  refine ⟨w, d, w1, w3, w4, .head (.inr ⟨w2, d, b, .last, w3, h3, w4, h5, w5⟩) (.single (.inl ?_))⟩
  obtain ⟨s0, inp, s1, a, -, b2, rfl⟩ := label_at h hq
  exact ⟨h2, b, _, h3, b2, h4.trans hj.symm⟩

/-- **C157**: so `Clear` happens before that, if nothing has changed the time since. -/
theorem C157_clear_last (h : Exec c rf tr ss s) {k p q : Nat} {op : Op F A} (hk : tr[k]? = some (.cleared i)) (hkp : k < p) (hc : CallAt tr j p op q) (ho : Looks op)
    (hq : tr[q]? = some e) (hj : e.tid = j) (he : e.isStart ∨ ∃ r, e = .ret j r)
    (hl : ∀ w a, k < w → w < q → (labels c rf tr ss)[w]? = some a → a.rel ≠ some .last) : Before (labels c rf tr ss) k q := by
  obtain ⟨w, a, h1, h2, h3, h4⟩ := C157_clear h hk hkp hc ho hq hj he
  rcases Nat.lt_or_ge k w with h5 | h5
  · exact absurd h3 (hl w a h5 h4.lt h2)
  · have : w = k := by omega
    rwa [this] at h4

/-- Nothing before `z` happens before anything from `z` on, if it is by other goroutines and loads nothing that was stored before. -/
theorem no_before {z : Nat} (hz : ∀ n m a b, n < z → z ≤ m → ls[n]? = some a → ls[m]? = some b → a.tid ≠ b.tid ∧ (a.rel = none ∨ a.rel ≠ b.acq)) {n m : Nat}
    (hn : n < z) (hm : z ≤ m) : ¬ Before ls n m := by
  intro h
  have : m < z := by
    clear hm
    induction h with
    | single h =>
      rcases h with ⟨-, a, b, h1, h2, h3⟩ | ⟨-, a, b, pl, h1, h2, h3, h4, -⟩
      · by_contra hc
        exact (hz _ _ a b hn (by omega) h1 h2).1 h3
      · by_contra hc
        rcases (hz _ _ a b hn (by omega) h1 h2).2 with h5 | h5
        · rw [h3] at h5; cases h5
        · exact h5 (h3.trans h4.symm)
    | tail _ h ih =>
      rcases h with ⟨-, a, b, h1, h2, h3⟩ | ⟨-, a, b, pl, h1, h2, h3, h4, -⟩
      · by_contra hc
        exact (hz _ _ a b ih (by omega) h1 h2).1 h3
      · by_contra hc
        rcases (hz _ _ a b ih (by omega) h1 h2).2 with h5 | h5
        · rw [h3] at h5; cases h5
        · exact h5 (h3.trans h4.symm)
  omega

/-- `Clear` by goroutine 0, then `Refresh` by goroutine 1. -/
def exClear : List (Nat × In Nat Nat Nat Nat) :=
  [(0, .call (.clear none 0)), (0, .go), (0, .go), (1, .call (.refresh 0 0)), (1, .go), (1, .go)]
def exClearTrace : List (Ev Nat Nat Nat Nat) :=
  [.call 0 (.clear none 0), .cleared 0, .ret 0 (.err none), .call 1 (.refresh 0 0), .locked 1, .start 1 0 0 0]

/-- **C157**: but `Refresh` does not look at the time: a `Clear` that has returned before `Refresh` is called need not happen before the refresh function is run. -/
theorem C157_refresh_false : ¬ ∀ (c : Cfg Nat) (rf : Nat) (tr : List (Ev Nat Nat Nat Nat)) (ss : List (State Nat Nat Nat Nat)) (s : State Nat Nat Nat Nat)
    (i j k p q f a f' a' old : Nat), Exec c rf tr ss s → tr[k]? = some (.cleared i) → k < p → CallAt tr j p (.refresh f a) q → tr[q]? = some (.start j f' a' old) →
    Before (labels c rf tr ss) k q := by
  intro hall
  have hp : ∃ ss s, play (⟨0, 5, 0⟩ : Cfg Nat) exClear [] [] (init ⟨0, 5, 0⟩ 0) = some (exClearTrace, ss, s) ∧
      labels ⟨0, 5, 0⟩ 0 exClearTrace ss = [⟨0, none, none⟩, ⟨0, none, some .last⟩, ⟨0, none, none⟩, ⟨1, none, none⟩, ⟨1, some .lock, none⟩, ⟨1, some .data, none⟩] :=
    ⟨_, _, rfl, rfl⟩
  obtain ⟨ss, s, hp, hl⟩ := hp
  have h : Exec (⟨0, 5, 0⟩ : Cfg Nat) 0 exClearTrace ss s := play_exec _ _ _ _ _ _ _ .nil hp
  have hb := hall _ _ _ _ _ 0 1 1 3 5 0 0 0 0 0 h rfl (by omega) ⟨by omega, rfl, fun k op h1 h2 => by
    interval_cases k; nofun⟩ rfl
  rw [hl] at hb
  refine no_before (z := 3) (fun n m a b hn hm ha hb => ?_) (by omega) (by omega) hb
  have hm' : m < 6 := get_lt hb
  interval_cases n <;> interval_cases m <;> cases ha <;> cases hb <;> decide

/-- A `Refresh` by goroutine 0, then a `Get` by goroutine 1. -/
def exHandTrace : List (Ev Nat Nat Nat Nat) :=
  [.call 0 (.refresh 0 0), .locked 0, .start 0 0 0 0, .finish 0 (.ret 7 none), .tau 0, .clock 0 100, .tau 0, .tau 0, .tau 0, .ret 0 (.val 7 none),
    .call 1 (.get 0 0), .tau 1, .clock 1 104, .tau 1, .ret 1 (.val 7 none)]

/-- The `Get` returns what the function has returned (event 3), and so, by `C157_sources`, that happens before it returns (event 14). -/
example : ∃ (ss : List (State Nat Nat Nat Nat)) (s : State Nat Nat Nat Nat), Exec (⟨0, 5, 0⟩ : Cfg Nat) 0 exHandTrace ss s ∧
    exHandTrace[3]? = some (.finish 0 (.ret 7 none)) ∧ exHandTrace[14]? = some (.ret 1 (.val 7 none)) ∧ Before (labels ⟨0, 5, 0⟩ 0 exHandTrace ss) 3 14 := by
  have ht : trace ⟨0, 5, 0⟩ (refreshBy 0 (.ret 7 none) 100 ++ getBy 1 104) = some exHandTrace := by rfl
  obtain ⟨ss, s, h⟩ := play_trace ht
  refine ⟨ss, s, h, rfl, rfl, ?_⟩
  rcases C157_sources h (q := 14) rfl (x := .val 7) (by simp [shows, ofRes]) with h0 | ⟨n, e, h1, h2, h4⟩
  · cases h0
  · have hn : n < 14 := h4.lt
    interval_cases n <;> cases h1 <;> first | (simp [gives] at h2; done) | exact h4

end Verif.Refresh.HB
