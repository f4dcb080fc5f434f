import Verif.SyncCache.ProcReg
/-!
# An execution of a process (C162)
-/
namespace Verif.SyncCache.Proc
variable {K V : Type} [DecidableEq K]

/-- A step of thread `i` of cache `c`; of call `n` of its map; of call `n` of `caches`, made by thread `i` of `c` or by the trimmer `t`; of `runTrim`. -/
inductive PCmd (K V : Type) where
  | loc (c i : Nat) (inp : In K V)
  | map (c i n : Nat)
  | reg (c i n : Nat)
  | trim (t n : Nat)
  | back (t : Nat)
  | once (c i : Nat)

instance (w : Process K V) (c i : Nat) : Decidable (w.In c i) :=
  if h1 : i % 2 = 1 ∧ w.stage c i = .none then .isTrue (.inl h1)
  else if h2 : i % 2 = 0 then
    match ht : w.tpc (i / 2) with
    | .round n (some c') =>
      if hc : c' = c then .isTrue (.inr ⟨i / 2, n, by omega, hc ▸ ht⟩)
      else .isFalse fun h => by
        rcases h with h | ⟨t, n', rfl, h⟩
        · exact h1 h
        · rw [show 2 * t / 2 = t by omega, h] at ht
          cases ht
          exact hc rfl
    | .wait => .isFalse fun h => by
        rcases h with h | ⟨t, n', rfl, h⟩
        · exact h1 h
        · rw [show 2 * t / 2 = t by omega, h] at ht
          cases ht
    | .round n none => .isFalse fun h => by
        rcases h with h | ⟨t, n', rfl, h⟩
        · exact h1 h
        · rw [show 2 * t / 2 = t by omega, h] at ht
          cases ht
  else .isFalse fun h => by
    rcases h with h | ⟨t, n', rfl, h⟩
    · exact h1 h
    · omega

def isReg (c : Nat) (b : Bool) : RWMap.Op Nat Unit → Bool
  | .swap k () => b && k == c
  | .loadAndDelete k => !b && k == c
  | _ => false

theorem isReg_eq {c : Nat} {b : Bool} {op : RWMap.Op Nat Unit} (h : isReg c b op = true) : op = regOp c b := by
  cases op <;> first | cases h; done | skip
  all_goals cases b <;> simp [isReg] at h
  all_goals subst h; rfl

def isRange : RWMap.Op Nat Unit → Bool
  | .range => true
  | _ => false

theorem isRange_eq {op : RWMap.Op Nat Unit} (h : isRange op = true) : op = .range := by
  cases op <;> first | rfl | cases h

def pstep (cfg : Nat → Cfg V) (prog : Nat → Nat → RWMap.Op K Nat) (rprog : Nat → RWMap.Op Nat Unit) (w : Process K V) : PCmd K V → Option (GEv K V × Process K V)
  | .loc c i inp =>
    if w.In c i ∧ inp.isTick = false ∧ isCaches ((w.cl c).st.pc i) = false ∧ (i % 2 = 0 → isDone ((w.cl c).st.pc i) = false) then
      match (w.cl c).loc (cfg c) i inp with
      | some (s', e) => some (.item c (.loc e), w.setCl c s')
      | none => none
    else none
  | .map c i n =>
    match RWMap.next ptrEq (prog c) id true (w.mp c) n with
    | none => none
    | some m' =>
      match RWMap.event (prog c) (w.mp c) n with
      | [] => some (.tau c, { w with mp := Function.update w.mp c m' })
      | [e] =>
        if w.In c i then
          match (w.cl c).sync (cfg c) (prog c) i e with
          | some s' => some (.item c (.map e), { w.setCl c s' with mp := Function.update w.mp c m' })
          | none => none
        else none
      | _ => none
  | .reg c i n =>
    match RWMap.next uEq rprog id true w.rg n with
    | none => none
    | some m' =>
      match RWMap.event rprog w.rg n, (w.cl c).st.pc i with
      | [], _ => some (.rtau, { w with rg := m' })
      | [.inv n'], .regPut b =>
        if n' = n ∧ i % 2 = 1 ∧ (w.cl c).wait i = none ∧ w.rwait c i = none ∧ isReg c b (rprog n) = true then
          some (.reg (.inv n), { w with rg := m' }.setWait c i (some n))
        else none
      | [.ret n' r], .regPut b =>
        if n' = n ∧ w.rwait c i = some n then
          some (.reg (.ret n r),
            ((({ w with rg := m' }.setWait c i none).setCl c ⟨(w.cl c).st.go i (.done .unit), (w.cl c).wait⟩)).setStage c i (if b then .want else .none))
        else none
      | _, _ => none
  | .trim t n =>
    match RWMap.next uEq rprog id true w.rg n with
    | none => none
    | some m' =>
      match RWMap.event rprog w.rg n, w.tpc t with
      | [], _ => some (.rtau, { w with rg := m' })
      | [.inv n'], .wait =>
        if n' = n ∧ t < w.trims ∧ isRange (rprog n) = true then some (.reg (.inv n), { w with rg := m' }.setT t (.round n none)) else none
      | [.visit n' c ()], .round n'' none =>
        if n' = n ∧ n'' = n then
          some (.reg (.visit n c ()), ({ w with rg := m' }.setT t (.round n (some c))).setCl c ⟨(w.cl c).st.go (2 * t) .trNow, (w.cl c).wait⟩)
        else none
      | [.ret n' r], .round n'' none =>
        if n' = n ∧ n'' = n then some (.reg (.ret n r), { w with rg := m' }.setT t .wait) else none
      | _, _ => none
  | .back t =>
    match w.tpc t with
    | .round n (some c) =>
      match (w.cl c).st.pc (2 * t) with
      | .done .unit =>
        if (w.cl c).wait (2 * t) = none then
          some (.item c (.loc (.ret (2 * t) .unit)), (w.setT t (.round n none)).setCl c ⟨(w.cl c).st.go (2 * t) .idle, (w.cl c).wait⟩)
        else none
      | _ => none
    | _ => none
  | .once c i =>
    match w.stage c i, w.once with
    | .want, .fresh => some (.enter c i, { w with once := .busy }.setStage c i .inside)
    | .want, .done => some (.skip c i, w.setStage c i .none)
    | .inside, _ => some (.spawn c i w.trims, { w with trims := w.trims + 1 }.setStage c i .leaving)
    | .leaving, _ => some (.leave c i, { w with once := .done }.setStage c i .none)
    | _, _ => none

variable {cfg : Nat → Cfg V} {prog : Nat → Nat → RWMap.Op K Nat} {rprog : Nat → RWMap.Op Nat Unit} {w w' : Process K V} {g : GEv K V} {x : PCmd K V}

theorem pstep_PStep (h : pstep cfg prog rprog w x = some (g, w')) : PStep cfg prog rprog w g w' := by
  have ho : ∀ l : List (K × Nat), (id l).Perm l := fun l => .refl l
  have ho' : ∀ l : List (Nat × Nat), (id l).Perm l := fun l => .refl l
  cases x with
  | loc c i inp =>
    simp only [pstep] at h
    split at h
    · next hc =>
      split at h
      · next hl => cases h; exact .loc hc.1 hc.2.1 hc.2.2.1 hc.2.2.2 hl
      · cases h
    · cases h
  | map c i n =>
    simp only [pstep] at h
    split at h
    · cases h
    · next hn =>
      split at h
      · next he => cases h; exact .tau ho hn he
      · next he =>
        split at h
        · next hi =>
          split at h
          · next hs => cases h; exact .sync hi ho hn he hs
          · cases h
        · cases h
      · cases h
  | reg c i n =>
    simp only [pstep] at h
    split at h
    · cases h
    · next hn =>
      split at h
      · next he => cases h; exact .rtau ho' hn he
      · next he hp =>
        split at h
        · next hc =>
          obtain ⟨rfl, h1, h2, h3, h4⟩ := hc
          cases h; exact .rinv h1 hp h2 h3 (isReg_eq h4) ho' hn he
        · cases h
      · next he hp =>
        split at h
        · next hc =>
          obtain ⟨rfl, h1⟩ := hc
          cases h; exact .rret hp h1 ho' hn he
        · cases h
      · cases h
  | trim t n =>
    simp only [pstep] at h
    split at h
    · cases h
    · next hn =>
      split at h
      · next he => cases h; exact .rtau ho' hn he
      · next he hp =>
        split at h
        · next hc =>
          obtain ⟨rfl, h1, h2⟩ := hc
          cases h; exact .tick hp h1 (isRange_eq h2) ho' hn he
        · cases h
      · next he hp =>
        split at h
        · next hc =>
          obtain ⟨rfl, rfl⟩ := hc
          cases h; exact .visit hp ho' hn he
        · cases h
      · next he hp =>
        split at h
        · next hc =>
          obtain ⟨rfl, rfl⟩ := hc
          cases h; exact .fin hp ho' hn he
        · cases h
      · cases h
  | back t =>
    simp only [pstep] at h
    split at h
    · next ht =>
      split at h
      · next hp =>
        split at h
        · next hw => cases h; exact .back ht hp hw
        · cases h
      · cases h
    · cases h
  | once c i =>
    simp only [pstep] at h
    split at h
    · next h1 h2 => cases h; exact .enter h1 h2
    · next h1 h2 => cases h; exact .skip h1 h2
    · next h1 => cases h; exact .spawn h1
    · next h1 => cases h; exact .leave h1
    · cases h

/-! ## Two caches -/

/-- Cache 0: `Store`, then the trimmer's `Range` and `CompareAndDelete`. -/
def exMap : Nat → Nat → RWMap.Op Nat Nat
  | 0, 0 => .swap 7 0
  | 0, 1 => .range
  | 0, 2 => .compareAndDelete 7 0
  | _, _ => .len

/-- `Start` of both caches, `Close` of cache 1, and a round of the trimmer. -/
def exReg : Nat → RWMap.Op Nat Unit
  | 0 => .swap 0 ()
  | 1 => .swap 1 ()
  | 2 => .loadAndDelete 1
  | 3 => .range
  | _ => .len

def exCmds : List (PCmd Nat Nat) :=
  -- `Store(7, 5)` of cache 0 by thread 1, expires at 10 ms
  [.loc 0 1 (.call (.store 7 5 10000000)), .loc 0 1 (.time 0)] ++ List.replicate 40 (.map 0 1 0) ++ [.loc 0 1 .go] ++
  -- `Start` of cache 0 and of cache 1 by thread 1
  [.loc 0 1 (.call .start), .loc 1 1 (.call .start)] ++ List.replicate 40 (.reg 0 1 0) ++ List.replicate 40 (.reg 1 1 1) ++
  [.once 0 1, .once 0 1, .once 0 1, .once 1 1, .loc 1 1 .go, .loc 0 1 .go] ++
  -- `Close` of cache 1
  [.loc 1 1 (.call .close)] ++ List.replicate 40 (.reg 1 1 2) ++ [.loc 1 1 .go] ++
  -- a round
  List.replicate 40 (.trim 0 3) ++ [.loc 0 0 (.time 20000000)] ++ List.replicate 40 (.map 0 0 1) ++ [.loc 0 0 .go] ++ List.replicate 40 (.map 0 0 2) ++
  [.loc 0 0 .go, .loc 0 0 (.cbFin true)] ++ List.replicate 40 (.map 0 0 1) ++ [.back 0] ++ List.replicate 40 (.trim 0 3)

/-- Commands that cannot be obeyed are left out. -/
def pgo (cfg : Nat → Cfg V) (prog : Nat → Nat → RWMap.Op K Nat) (rprog : Nat → RWMap.Op Nat Unit) : List (PCmd K V) → Process K V → List (GEv K V) × Process K V
  | [], w => ([], w)
  | x :: l, w =>
    match pstep cfg prog rprog w x with
    | none => pgo cfg prog rprog l w
    | some (e, w') => let y := pgo cfg prog rprog l w'; (e :: y.1, y.2)

theorem pgo_path {l : List (PCmd K V)} : ∀ {w : Process K V}, Path cfg prog rprog w (pgo cfg prog rprog l w).1 (pgo cfg prog rprog l w).2 := by
  induction l with
  | nil => exact .nil
  | cons x l ih =>
    intro w
    simp only [pgo]
    split
    · exact ih
    · next hs => exact .cons (pstep_PStep hs) ih

def GEv.seen : GEv K V → Bool
  | .tau _ | .rtau => false
  | .item _ (.map _) => false
  | .item _ (.loc e) => e.visible
  | _ => true

abbrev exCfg : Nat → Cfg Nat := fun _ => ⟨true, fun a b => some (a == b)⟩

def exG : List (GEv Nat Nat) := (pgo exCfg exMap exReg exCmds .init).1

theorem exG_exec : PExec exCfg exMap exReg exG (pgo exCfg exMap exReg exCmds .init).2 := pgo_path

def exCode : GEv Nat Nat → List Nat
  | .item c (.loc (.call i .start)) => [1, c, i]
  | .item c (.loc (.call i .close)) => [2, c, i]
  | .item c (.loc (.call i _)) => [3, c, i]
  | .item c (.loc (.ret i _)) => [4, c, i]
  | .item c (.loc _) => [5, c]
  | .item c _ => [6, c]
  | .reg (.inv n) => [7, n]
  | .reg (.visit n c _) => [8, n, c]
  | .reg (.ret n _) => [9, n]
  | .enter c i => [10, c, i]
  | .skip c i => [11, c, i]
  | .spawn c i t => [12, c, i, t]
  | .leave c i => [13, c, i]
  | .tau c => [14, c]
  | .rtau => [15]

/-- `Start` of both caches; one of them makes the trimmer; `Close` of cache 1; the round calls the function for cache 0 only, whose entry has expired. -/
theorem exG_seen : (exG.zipIdx.filter fun x => x.1.seen).map (fun x => (x.2, exCode x.1)) =
    [(0, [3, 0, 1]), (1, [5, 0]), (12, [4, 0, 1]), (13, [1, 0, 1]), (14, [1, 1, 1]), (15, [7, 0]), (24, [9, 0]), (25, [7, 1]), (31, [9, 1]),
      (32, [10, 0, 1]), (33, [12, 0, 1, 0]), (34, [13, 0, 1]), (35, [11, 1, 1]), (36, [4, 1, 1]), (37, [4, 0, 1]), (38, [2, 1, 1]), (39, [7, 2]), (48, [9, 2]),
      (49, [4, 1, 1]), (50, [7, 3]), (52, [8, 3, 0]), (54, [5, 0]), (63, [5, 0]), (70, [5, 0]), (71, [5, 0]), (73, [4, 0, 0]), (74, [9, 3])] := by
  decide +kernel

theorem exG_get {n : Nat} {g : GEv Nat Nat} (h : exG[n]? = some g) (hs : g.seen = true) : (n, exCode g) ∈ (exG.zipIdx.filter fun x => x.1.seen).map (fun x => (x.2, exCode x.1)) :=
  List.mem_map.2 ⟨(g, n), List.mem_filter.2 ⟨List.mem_zipIdx_iff_getElem?.2 h, hs⟩, rfl⟩

theorem exG_at {k : Nat} {l : List Nat} (h : (exG[k]?).map exCode = some l) : ∃ g, exG[k]? = some g ∧ exCode g = l := by
  cases hg : exG[k]? with
  | none => rw [hg] at h; cases h
  | some g => rw [hg] at h; cases h; exact ⟨g, rfl, rfl⟩

/-- `Start` of cache 0 from 13 to 37. -/
theorem exG_start : Called exG 0 1 .start 13 37 := by
  refine ⟨by decide, ?_, ?_, ?_⟩
  · rfl
  · exact ⟨.unit, by rfl⟩
  · intro x op h1 h2 h3
    have := exG_get h3 rfl
    rw [exG_seen] at this
    cases op <;> simp [exCode] at this <;> omega

/-- The round has to visit cache 0. -/
example : ∃ x : Nat, 50 < x ∧ x < 74 ∧ exG[x]? = some (.reg (.visit 3 0 ())) := by
  refine C162_round exG_exec exG_start (by decide) rfl (r := .visited [(0, ())] false) (by rfl) (by rfl) ?_
  intro j p' h
  have := exG_get h rfl
  rw [exG_seen] at this
  simp [exCode] at this

/-- And it cannot visit cache 1: every `Start` of it is over before `Close` is called, which is over before the round. -/
example (x : Nat) : exG[x]? ≠ some (.reg (.visit 3 1 ())) := by
  intro h
  obtain ⟨i, p, h1, h2, h3⟩ := C162_registered (a := 50) exG_exec (by rfl) h
  have := exG_get h2 rfl
  rw [exG_seen] at this
  simp [exCode] at this
  obtain ⟨rfl, rfl⟩ := this
  have hc : Called exG 1 1 .close 38 49 := by
    refine ⟨by decide, by rfl, ⟨.unit, by rfl⟩, ?_⟩
    intro x op h1 h2 h3
    have := exG_get h3 rfl
    rw [exG_seen] at this
    cases op <;> simp [exCode] at this <;> omega
  have := h3 1 38 49 hc (by decide) 36 .unit (by decide) (by rfl)
  omega

/-- There is a trimmer when `Start` is over, and it is done with cache 0 before the round ends. -/
example : (∃ (x c i : Nat), x < 37 ∧ exG[x]? = some (.spawn c i 0)) ∧ ∃ z : Nat, 52 < z ∧ z < 74 ∧ exG[z]? = some (.item 0 (.loc (.ret 0 .unit))) :=
  ⟨C162_trimmer exG_exec exG_start,
    C162_in_turn (n := 3) (e := .ret 3 (.visited [(0, ())] false)) exG_exec (by rfl) (by rfl) (fun c b h => by cases b <;> cases h) (by decide)⟩

/-- What one sees of cache 0 is what one sees in an execution of it alone, over the steps of its map. -/
example : ∃ T s, Sys (exCfg 0) (exMap 0) T s ((pgo exCfg exMap exReg exCmds .init).2.mp 0) ∧ (log T).filter keep = log (items 0 exG) :=
  let ⟨T, s, h1, _, h3, _⟩ := C162_cache exG_exec 0
  ⟨T, s, h1, h3⟩

end Verif.SyncCache.Proc
