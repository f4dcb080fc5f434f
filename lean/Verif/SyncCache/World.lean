import Verif.SyncCache.Ends
/-!
# All caches of a process

`/repo/synccache/synccache.go` lines 12-34, 58-65: the set `caches`, `startOnce` and the goroutine that trims. The caches are those of `Model.lean`, each with
threads of its own; in each cache thread `2 * t` is the `t`-th goroutine made in line 23, and the odd threads are those of the user. The call `tick` of
`Model.lean` (a look-up in `caches`, then `trim`) is what a round of the trimmer does with one cache.

Simplified:
* `caches` is a `RWMap`; as in `Model.lean` an operation is one step, and its `Range` takes a snapshot of the keys, at least those in the map, in any
  order, looks each up at some time after that (`look`, at any time before the key's turn), and calls the function on the keys found.
* All caches have the same types of keys and values. (They share nothing but `caches`.)
* A panic in the deleted callback of a cache ends the trimmer (in fact the process).
-/
namespace Verif.SyncCache
open Verif.Refresh (get_snoc get_lt get_keep get_new)

/-- `sync.Once`: not called yet, in its function, done. -/
inductive Once where
  | fresh
  | busy
  | done
deriving DecidableEq

/-- Where `runTrim` is: not called, line 22, line 23, line 33. -/
inductive Stage where
  | none
  | want
  | inside
  | leaving
deriving DecidableEq

/-- The trimmer: waits for the ticker (line 26), or has yet to do with these caches in its round (lines 27-30). -/
inductive TPC where
  | wait
  | round (rest : List Nat)

/-- The caches, what their maps have held, the contents of `caches` (line 17), `startOnce` (line 18), the calls of `runTrim` by cache and thread, the
number of goroutines made in line 23, and where each is. -/
structure World (K V : Type) where
  st : Nat → State K V
  hist : Nat → List (Map K)
  regs : List Nat
  once : Once
  stage : Nat → Nat → Stage
  trims : Nat
  tpc : Nat → TPC

/-- * `ev c e`: an event of cache `c`;
* `enter c i`: thread `i` in `Start` of `c` comes to the function of `startOnce`; `spawn`: it makes the `t`-th goroutine;
* `tick t ks`: goroutine `t` begins a round, with the snapshot `ks` of `caches`; `fin t`: the round ends. -/
inductive WEv (K V : Type) where
  | ev (c : Nat) (e : Ev K V)
  | enter (c i : Nat)
  | skip (c i : Nat)
  | spawn (c i t : Nat)
  | leave (c i : Nat)
  | tick (t : Nat) (ks : List Nat)
  | fin (t : Nat)

/-- What decides a step. -/
inductive WIn (K V : Type) where
  | user (c i : Nat) (inp : In K V)
  | once (c i : Nat)
  | tick (t : Nat) (ks : List Nat)
  | look (t c : Nat)
  | run (t : Nat) (inp : In K V)
  | fin (t : Nat)

variable {K V : Type}

def World.init : World K V := ⟨fun _ => .init, fun _ => [[]], [], .fresh, fun _ _ => .none, 0, fun _ => .wait⟩

/-- Cache `c` makes a step. -/
def World.put (w : World K V) (c : Nat) (s : State K V) : World K V :=
  { w with st := Function.update w.st c s, hist := Function.update w.hist c (w.hist c ++ [s.m]) }

/-- `caches` and the calls of `runTrim` after an event of cache `c`: lines 59-60, 64. -/
def World.reg (w : World K V) (c : Nat) : Ev K V → World K V
  | .reg i true => { w with regs := c :: w.regs.filter (· ≠ c), stage := fun c' i' => if c' = c ∧ i' = i then .want else w.stage c' i' }
  | .reg _ false => { w with regs := w.regs.filter (· ≠ c) }
  | _ => w

def World.to (w : World K V) (c i : Nat) (g : Stage) : World K V :=
  { w with stage := fun c' i' => if c' = c ∧ i' = i then g else w.stage c' i' }

def In.isTick : In K V → Bool
  | .call .tick => true
  | _ => false

def Ev.isRet : Ev K V → Bool
  | .ret _ _ => true
  | _ => false

def PC.isPanic : PC K V → Bool
  | .done .panicked => true
  | _ => false

def PC.isReg : PC K V → Bool
  | .tkReg => true
  | _ => false

variable [DecidableEq K]

/-- One step of the process. -/
def wstep (cfg : Nat → Cfg V) (w : World K V) : WIn K V → Option (World K V × WEv K V)
  -- a thread of the user, in a method of a cache; after line 59 it is in `runTrim`
  | .user c i inp =>
    if i % 2 = 1 ∧ w.stage c i = .none ∧ inp.isTick = false then
      match step (cfg c) (w.hist c) (w.st c) i inp with
      | none => none
      | some (s, e) => some ((w.put c s).reg c e, .ev c e)
    else none
  -- `startOnce.Do`, lines 22, 23, 33
  | .once c i =>
    match w.stage c i, w.once with
    | .want, .fresh => some ({ w with once := .busy }.to c i .inside, .enter c i)
    | .want, .done => some (w.to c i .none, .skip c i)
    | .inside, _ => some ({ w with trims := w.trims + 1 }.to c i .leaving, .spawn c i w.trims)
    | .leaving, _ => some ({ w with once := .done }.to c i .none, .leave c i)
    | _, _ => none
  -- lines 26-27
  | .tick t ks =>
    match w.tpc t with
    | .wait =>
      if t < w.trims ∧ ks.Nodup ∧ ∀ c ∈ w.regs, c ∈ ks then
        some ({ w with st := fun c => if c ∈ ks then (w.st c).go (2 * t) (enter .tick) else w.st c,
                       hist := fun c => if c ∈ ks then w.hist c ++ [(w.st c).m] else w.hist c,
                       tpc := Function.update w.tpc t (.round ks) }, .tick t ks)
      else none
    | .round _ => none
  -- line 27, the look-up of a key
  | .look t c =>
    match w.tpc t with
    | .wait => none
    | .round ks =>
      if c ∈ ks ∧ ((w.st c).pc (2 * t)).isReg = true then
        match step (cfg c) (w.hist c) (w.st c) (2 * t) .go with
        | none => none
        | some (s, e) => some (w.put c s, .ev c e)
      else none
  -- line 28
  | .run t inp =>
    match w.tpc t with
    | .round (c :: ks) =>
      if ((w.st c).pc (2 * t)).isReg = true ∨ ((w.st c).pc (2 * t)).isPanic = true then none
      else
        match step (cfg c) (w.hist c) (w.st c) (2 * t) inp with
        | none => none
        | some (s, e) => some ({ w.put c s with tpc := if e.isRet then Function.update w.tpc t (.round ks) else w.tpc }, .ev c e)
    | _ => none
  -- line 31
  | .fin t =>
    match w.tpc t with
    | .round [] => some ({ w with tpc := Function.update w.tpc t .wait }, .fin t)
    | _ => none

/-- Executions of the process. -/
inductive WExec (cfg : Nat → Cfg V) : List (WEv K V) → World K V → Prop where
  | nil : WExec cfg [] .init
  | snoc {tr w inp w' e} : WExec cfg tr w → wstep cfg w inp = some (w', e) → WExec cfg (tr ++ [e]) w'

/-- What an event is for cache `c`. -/
def WEv.on (c : Nat) : WEv K V → Option (Ev K V)
  | .ev c' e => if c' = c then some e else none
  | .tick t ks => if c ∈ ks then some (.call (2 * t) .tick) else none
  | _ => none

/-- The execution of cache `c`. -/
def view (c : Nat) (tr : List (WEv K V)) : List (Ev K V) := tr.filterMap (WEv.on c)

variable {cfg : Nat → Cfg V} {tr : List (WEv K V)} {w w' : World K V} {e : WEv K V} {c c' i j t t' n m p q : Nat} {inp : WIn K V} {ks rest : List Nat}

theorem view_snoc : view c (tr ++ [e]) = view c tr ++ (e.on c).toList := by
  simp only [view, List.filterMap_append]
  cases h : e.on c <;> simp [h]

/-! ### Each cache by itself -/

/-- What holds between steps. -/
structure Good (w : World K V) : Prop where
  busy : ∀ t c, (w.st c).pc (2 * t) ≠ .idle ↔ ∃ ks, w.tpc t = .round ks ∧ c ∈ ks
  nodup : ∀ t ks, w.tpc t = .round ks → ks.Nodup
  regs : ∀ c, c ∈ w.regs ↔ (w.st c).reg = true
  noReg : ∀ t c b, (w.st c).pc (2 * t) ≠ .regPut b

theorem step_ret {s s' : State K V} {c : Cfg V} {hist : List (Map K)} {inp : In K V} {e : Ev K V} (h : step c hist s i inp = some (s', e)) :
    e.isRet = true ↔ s'.pc i = .idle := by
  have hs := step_Step h
  cases hs <;> simp only [Ev.isRet, State.go, Function.update_self, reduceCtorEq, Bool.false_eq_true, false_iff, true_iff, not_false_eq_true]
  all_goals first
    | (unfold afterDel; split <;> (try simp); unfold After.next; split <;> simp; done)
    | (unfold Site.live; split <;> (try simp); unfold afterDel; split <;> (try simp); unfold After.next; split <;> simp; done)
    | (unfold Site.dead; split <;> (try simp); unfold afterDel; split <;> (try simp); unfold After.next; split <;> simp; done)
    | (unfold enter; split <;> simp; done)
    | (unfold After.next; split <;> simp; done)
    | (unfold Iter.visit; split <;> simp; done)
    | ((repeat' split) <;> simp; done)
    | skip

theorem step_reg {s s' : State K V} {c : Cfg V} {hist : List (Map K)} {inp : In K V} {e : Ev K V} (h : step c hist s i inp = some (s', e)) :
    s'.reg = e.onReg s.reg := by
  have := step_Step h
  cases this <;> rfl

theorem step_regPut {s s' : State K V} {c : Cfg V} {hist : List (Map K)} {inp : In K V} {e : Ev K V} (h : step c hist s i inp = some (s', e)) (hi : s.pc i ≠ .idle)
    (hr : ∀ b, s.pc i ≠ .regPut b) : (∀ b, s'.pc i ≠ .regPut b) ∧ s'.reg = s.reg ∧ ∀ j b, e ≠ .reg j b := by
  have hs := step_Step h
  cases hs <;> (first | (rename_i hpc; exact absurd hpc hi) | (rename_i hpc; exact absurd hpc (hr _)) | refine ⟨fun b => ?_, rfl, nofun⟩) <;>
    simp only [State.go, Function.update_self, reduceCtorEq, ne_eq, not_false_eq_true]
  all_goals first
    | (unfold afterDel; split <;> (try simp); unfold After.next; split <;> simp; done)
    | (unfold Site.live; split <;> (try simp); unfold afterDel; split <;> (try simp); unfold After.next; split <;> simp; done)
    | (unfold Site.dead; split <;> (try simp); unfold afterDel; split <;> (try simp); unfold After.next; split <;> simp; done)
    | (unfold After.next; split <;> simp; done)
    | (unfold Iter.visit; split <;> simp; done)
    | ((repeat' split) <;> simp; done)
    | skip

/-- The steps as a relation. -/
inductive WStep (cfg : Nat → Cfg V) (w : World K V) : World K V → WEv K V → Prop where
  | user {c i : Nat} {inp : In K V} {s : State K V} {e : Ev K V} : i % 2 = 1 → w.stage c i = .none → inp.isTick = false → step (cfg c) (w.hist c) (w.st c) i inp = some (s, e) →
      WStep cfg w ((w.put c s).reg c e) (.ev c e)
  | enter {c i : Nat} : w.stage c i = .want → w.once = .fresh → WStep cfg w ({ w with once := .busy }.to c i .inside) (.enter c i)
  | skip {c i : Nat} : w.stage c i = .want → w.once = .done → WStep cfg w (w.to c i .none) (.skip c i)
  | spawn {c i : Nat} : w.stage c i = .inside → WStep cfg w ({ w with trims := w.trims + 1 }.to c i .leaving) (.spawn c i w.trims)
  | leave {c i : Nat} : w.stage c i = .leaving → WStep cfg w ({ w with once := .done }.to c i .none) (.leave c i)
  | tick {t : Nat} {ks : List Nat} : w.tpc t = .wait → t < w.trims → ks.Nodup → (∀ c ∈ w.regs, c ∈ ks) →
      WStep cfg w { w with st := fun c => if c ∈ ks then (w.st c).go (2 * t) (SyncCache.enter .tick) else w.st c,
                           hist := fun c => if c ∈ ks then w.hist c ++ [(w.st c).m] else w.hist c,
                           tpc := Function.update w.tpc t (.round ks) } (.tick t ks)
  | trim {t c : Nat} {ks : List Nat} {inp : In K V} {s : State K V} {e : Ev K V} : w.tpc t = .round ks → c ∈ ks → step (cfg c) (w.hist c) (w.st c) (2 * t) inp = some (s, e) → e.isRet = false →
      ((w.st c).pc (2 * t) = .tkReg ∨ ks.head? = some c ∧ (w.st c).pc (2 * t) ≠ .tkReg ∧ (w.st c).pc (2 * t) ≠ .done .panicked) →
      WStep cfg w (w.put c s) (.ev c e)
  | ret {t c : Nat} {ks : List Nat} {inp : In K V} {s : State K V} {e : Ev K V} : w.tpc t = .round (c :: ks) → step (cfg c) (w.hist c) (w.st c) (2 * t) inp = some (s, e) → e.isRet = true →
      (w.st c).pc (2 * t) ≠ .done .panicked →
      WStep cfg w { w.put c s with tpc := Function.update w.tpc t (.round ks) } (.ev c e)
  | fin {t : Nat} : w.tpc t = .round [] → WStep cfg w { w with tpc := Function.update w.tpc t .wait } (.fin t)

theorem isReg_iff {pc : PC K V} : pc.isReg = true ↔ pc = .tkReg := by cases pc <;> simp [PC.isReg]
theorem isPanic_iff {pc : PC K V} : pc.isPanic = true ↔ pc = .done .panicked := by
  cases pc with
  | done r => cases r <;> simp [PC.isPanic]
  | _ => simp [PC.isPanic]

theorem wstep_WStep (h : wstep cfg w inp = some (w', e)) : WStep cfg w w' e := by
  cases inp with
  | user c i inp =>
    simp only [wstep] at h
    split at h
    · next hc =>
      split at h
      · cases h
      · next he => cases h; exact .user hc.1 hc.2.1 hc.2.2 he
    · cases h
  | once c i =>
    simp only [wstep] at h
    split at h
    · next h1 h2 => cases h; exact .enter h1 h2
    · next h1 h2 => cases h; exact .skip h1 h2
    · next h1 => cases h; exact .spawn h1
    · next h1 => cases h; exact .leave h1
    · cases h
  | tick t ks =>
    simp only [wstep] at h
    split at h
    · next h1 =>
      split at h
      · next h2 => cases h; exact .tick h1 h2.1 h2.2.1 h2.2.2
      · cases h
    · cases h
  | look t c =>
    simp only [wstep] at h
    split at h
    · cases h
    · next ks h1 =>
      split at h
      · next h2 =>
        have h3 := isReg_iff.1 h2.2
        split at h
        · cases h
        · next s e' he =>
          cases h
          refine .trim h1 h2.1 he ?_ (.inl h3)
          simp only [step, h3, Option.some.injEq, Prod.mk.injEq] at he
          rw [← he.2]; rfl
      · cases h
  | run t inp =>
    simp only [wstep] at h
    split at h
    · next c ks h1 =>
      split at h
      · cases h
      · next h2 =>
        rw [isReg_iff, isPanic_iff, not_or] at h2
        split at h
        · cases h
        · next s e' he =>
          cases h
          cases hr : e'.isRet with
          | false => exact .trim (ks := c :: ks) h1 (List.mem_cons_self ..) he hr (.inr ⟨rfl, h2⟩)
          | true => exact .ret h1 he hr h2.2
    · cases h
  | fin t =>
    simp only [wstep] at h
    split at h
    · next h1 => cases h; exact .fin h1
    · cases h

theorem reg_st {e : Ev K V} : (w.reg c e).st = w.st ∧ (w.reg c e).hist = w.hist ∧ (w.reg c e).tpc = w.tpc ∧ (w.reg c e).once = w.once ∧
    (w.reg c e).trims = w.trims := by
  unfold World.reg; split <;> exact ⟨rfl, rfl, rfl, rfl, rfl⟩

theorem reg_mem {e : Ev K V} {x : Bool} (hx : c ∈ w.regs ↔ x = true) : c' ∈ (w.reg c e).regs ↔ if c' = c then e.onReg x = true else c' ∈ w.regs := by
  by_cases hc : c' = c
  · subst hc
    rw [if_pos rfl]
    unfold World.reg Ev.onReg
    split <;> simp [hx]
    split <;> simp_all
  · rw [if_neg hc]
    unfold World.reg
    split <;> simp [hc]

theorem Good.init : Good (.init : World K V) where
  busy := fun t c => ⟨fun h => absurd rfl h, fun ⟨_, h, _⟩ => nomatch h⟩
  nodup := fun _ _ h => nomatch h
  regs := fun c => by simp [World.init, State.init]
  noReg := fun _ _ _ => nofun

theorem WExec.good_view (h : WExec cfg tr w) : Good w ∧ ∀ c, Exec (cfg c) (view c tr) (w.hist c) (w.st c) := by
  induction h with
  | nil => exact ⟨.init, fun c => .nil⟩
  | @snoc tr w inp w' e h0 hs ih =>
    obtain ⟨hg, hv⟩ := ih
    have := wstep_WStep hs
    -- a step of one cache
    have view1 : ∀ {c : Nat} {s : State K V} {e : Ev K V} {i : Nat} {inp : In K V}, step (cfg c) (w.hist c) (w.st c) i inp = some (s, e) →
        ∀ c', Exec (cfg c') (view c' (tr ++ [.ev c e])) ((w.put c s).hist c') ((w.put c s).st c') := by
      intro c s e i inp he c'
      rw [view_snoc]
      by_cases hc : c = c'
      · subst hc
        simp only [WEv.on, if_true, Option.toList, World.put, Function.update_self]
        exact .snoc (hv c) he
      · simp only [WEv.on, if_neg hc, Option.toList, World.put, List.append_nil, Function.update_of_ne (Ne.symm hc)]
        exact hv c'
    -- a step of no cache
    have view0 : ∀ {e : WEv K V}, (∀ c, e.on c = none) → ∀ c, Exec (cfg c) (view c (tr ++ [e])) (w.hist c) (w.st c) := by
      intro e he c
      rw [view_snoc, he c]
      simpa using hv c
    have pcs : ∀ {c : Nat} {s : State K V} {e : Ev K V} {i : Nat} {inp : In K V}, step (cfg c) (w.hist c) (w.st c) i inp = some (s, e) →
        ∀ c' j, (c' ≠ c ∨ j ≠ i) → ((w.put c s).st c').pc j = (w.st c').pc j := by
      intro c s e i inp he c' j hne
      by_cases hc : c' = c
      · subst hc
        simp only [World.put, Function.update_self]
        exact (step_Step he).other (hne.resolve_left fun h => h rfl)
      · simp only [World.put, Function.update_of_ne hc]
    have noReg : ∀ {c t : Nat} {s : State K V} {e : Ev K V} {inp : In K V} {ks : List Nat}, w.tpc t = .round ks → c ∈ ks →
        step (cfg c) (w.hist c) (w.st c) (2 * t) inp = some (s, e) → (∀ b, s.pc (2 * t) ≠ .regPut b) ∧ s.reg = (w.st c).reg ∧ ∀ j b, e ≠ .reg j b :=
      fun h1 h2 he => step_regPut he ((hg.busy _ _).2 ⟨_, h1, h2⟩) (hg.noReg _ _)
    have noReg' : ∀ {c t : Nat} {s : State K V} {e : Ev K V} {inp : In K V} {ks : List Nat}, w.tpc t = .round ks → c ∈ ks →
        step (cfg c) (w.hist c) (w.st c) (2 * t) inp = some (s, e) → ∀ t' c' b, ((w.put c s).st c').pc (2 * t') ≠ .regPut b := by
      intro c t s e inp ks h1 h2 he t' c' b
      by_cases hc : c' = c ∧ t' = t
      · obtain ⟨rfl, rfl⟩ := hc
        simp only [World.put, Function.update_self]
        exact (noReg h1 h2 he).1 b
      · rw [pcs he c' _ (by omega)]; exact hg.noReg t' c' b
    cases this with
    | @user c i inp s e h1 h2 h3 he =>
      obtain ⟨r1, r2, r3, r4, r5⟩ := reg_st (w := w.put c s) (c := c) (e := e)
      refine ⟨⟨fun t c' => ?_, fun t ks => ?_, fun c' => ?_, fun t c' b => ?_⟩, fun c' => ?_⟩
      · rw [r1, r3, pcs he c' _ (.inr (by omega))]; exact hg.busy t c'
      · rw [r3]; exact hg.nodup t ks
      · rw [reg_mem (x := (w.st c).reg) (by exact hg.regs c), r1]
        by_cases hc : c' = c
        · subst hc; simp only [if_true, World.put, Function.update_self, step_reg he]
        · simp only [if_neg hc, World.put, Function.update_of_ne hc]; exact hg.regs c'
      · rw [r1, pcs he c' _ (.inr (by omega))]; exact hg.noReg t c' b
      · rw [r1, r2]; exact view1 he c'
    | enter h1 h2 => exact ⟨⟨hg.busy, hg.nodup, hg.regs, hg.noReg⟩, view0 fun _ => rfl⟩
    | skip h1 h2 => exact ⟨⟨hg.busy, hg.nodup, hg.regs, hg.noReg⟩, view0 fun _ => rfl⟩
    | spawn h1 => exact ⟨⟨hg.busy, hg.nodup, hg.regs, hg.noReg⟩, view0 fun _ => rfl⟩
    | leave h1 => exact ⟨⟨hg.busy, hg.nodup, hg.regs, hg.noReg⟩, view0 fun _ => rfl⟩
    | @tick t ks h1 h2 h3 h4 =>
      have idle : ∀ c, (w.st c).pc (2 * t) = .idle := fun c => Classical.byContradiction fun h => by
        obtain ⟨_, h5, _⟩ := (hg.busy t c).1 h
        rw [h1] at h5; cases h5
      refine ⟨⟨fun t' c => ?_, fun t' ks' => ?_, fun c => ?_, fun t' c b => ?_⟩, fun c => ?_⟩
      · by_cases ht : t' = t
        · subst ht
          simp only [Function.update_self]
          by_cases hc : c ∈ ks
          · simp only [if_pos hc, State.go_pc]; exact ⟨fun _ => ⟨ks, rfl, hc⟩, fun _ => nofun⟩
          · simp only [if_neg hc, idle c]
            exact ⟨fun h => absurd rfl h, fun ⟨_, h, h'⟩ => by cases h; exact absurd h' hc⟩
        · simp only [Function.update_of_ne ht]
          rw [← hg.busy t' c]
          by_cases hc : c ∈ ks
          · simp only [if_pos hc, State.go]; rw [Function.update_of_ne (by omega)]
          · simp only [if_neg hc]
      · by_cases ht : t' = t
        · subst ht
          simp only [Function.update_self]
          intro h; cases h; exact h3
        · simp only [Function.update_of_ne ht]; exact hg.nodup t' ks'
      · rw [hg.regs c]
        show _ ↔ (if c ∈ ks then (w.st c).go (2 * t) (SyncCache.enter .tick) else w.st c).reg = true
        split <;> rfl
      · show (if c ∈ ks then (w.st c).go (2 * t) (SyncCache.enter .tick) else w.st c).pc (2 * t') ≠ _
        split
        · by_cases ht : t' = t
          · subst ht; rw [State.go_pc]; nofun
          · simp only [State.go]; rw [Function.update_of_ne (by omega)]; exact hg.noReg t' c b
        · exact hg.noReg t' c b
      · rw [view_snoc]
        by_cases hc : c ∈ ks
        · simp only [WEv.on, if_pos hc, Option.toList]
          have : step (cfg c) (w.hist c) (w.st c) (2 * t) (.call .tick) = some ((w.st c).go (2 * t) (SyncCache.enter .tick), .call (2 * t) .tick) := by
            simp only [step, idle c]
          exact (hv c).snoc this
        · simp only [WEv.on, if_neg hc, Option.toList, List.append_nil]
          exact hv c
    | @trim t c ks inp s e h1 h2 he h3 h4 =>
      refine ⟨⟨fun t' c' => ?_, hg.nodup, fun c' => ?_, noReg' h1 h2 he⟩, view1 he⟩
      · by_cases hc : c' = c ∧ t' = t
        · obtain ⟨rfl, rfl⟩ := hc
          refine ⟨fun _ => ⟨ks, h1, h2⟩, fun _ => ?_⟩
          simp only [World.put, Function.update_self]
          exact fun h => by have := (step_ret he).2 h; rw [h3] at this; cases this
        · rw [pcs he c' _ (by omega)]
          exact hg.busy t' c'
      · have := hg.regs c'
        by_cases hc : c' = c
        · subst hc; simp only [World.put, Function.update_self, (noReg h1 h2 he).2.1]; exact this
        · simp only [World.put, Function.update_of_ne hc]; exact this
    | @ret t c ks inp s e h1 he h3 h4 =>
      have hn := hg.nodup t _ h1
      rw [List.nodup_cons] at hn
      refine ⟨⟨fun t' c' => ?_, fun t' ks' => ?_, fun c' => ?_, noReg' h1 (List.mem_cons_self ..) he⟩, view1 he⟩
      · by_cases ht : t' = t
        · subst ht
          simp only [Function.update_self]
          by_cases hc : c' = c
          · subst hc
            have : ((w.put c' s).st c').pc (2 * t') = .idle := by simp only [World.put, Function.update_self]; exact (step_ret he).1 h3
            constructor
            · intro h; exact absurd this h
            · rintro ⟨_, h, h'⟩; cases h; exact absurd h' hn.1
          · show ((w.put c s).st c').pc (2 * t') ≠ .idle ↔ _
            rw [pcs he c' _ (.inl hc), hg.busy t' c', h1]
            constructor
            · rintro ⟨_, h, h'⟩; cases h; exact ⟨_, rfl, (List.mem_cons.1 h').resolve_left hc⟩
            · rintro ⟨_, h, h'⟩; cases h; exact ⟨_, rfl, List.mem_cons_of_mem _ h'⟩
        · simp only [Function.update_of_ne ht]
          show ((w.put c s).st c').pc (2 * t') ≠ .idle ↔ _
          rw [pcs he c' _ (.inr (by omega))]; exact hg.busy t' c'
      · by_cases ht : t' = t
        · subst ht
          simp only [Function.update_self]
          intro h; cases h; exact hn.2
        · simp only [Function.update_of_ne ht]; exact hg.nodup t' ks'
      · have := hg.regs c'
        by_cases hc : c' = c
        · subst hc
          show _ ↔ ((w.put c' s).st c').reg = true
          simp only [World.put, Function.update_self, (noReg h1 (List.mem_cons_self ..) he).2.1]; exact this
        · show _ ↔ ((w.put c s).st c').reg = true
          simp only [World.put, Function.update_of_ne hc]; exact this
    | @fin t h1 =>
      refine ⟨⟨fun t' c => ?_, fun t' ks => ?_, hg.regs, hg.noReg⟩, view0 fun _ => rfl⟩
      · by_cases ht : t' = t
        · subst ht
          simp only [Function.update_self]
          rw [hg.busy t' c, h1]
          constructor
          · rintro ⟨_, h, h'⟩; cases h; cases h'
          · rintro ⟨_, h, _⟩; cases h
        · simp only [Function.update_of_ne ht]; exact hg.busy t' c
      · by_cases ht : t' = t
        · subst ht; simp only [Function.update_self]; intro h; cases h
        · simp only [Function.update_of_ne ht]; exact hg.nodup t' ks

/-- **C115**: several caches in a process: what cache `c` does is an execution of that cache alone. -/
theorem world_cache (h : WExec cfg tr w) (c : Nat) : Exec (cfg c) (view c tr) (w.hist c) (w.st c) := h.good_view.2 c

/-! ### `startOnce` -/

/-- Who is in the function of `startOnce`, and what has come of it. -/
structure Run1 (tr : List (WEv K V)) (w : World K V) : Prop where
  fresh : w.once = .fresh → w.trims = 0 ∧ ∀ c i, w.stage c i ≠ .inside ∧ w.stage c i ≠ .leaving
  busy : w.once = .busy → ∃ c i, (∀ c' i', (w.stage c' i' = .inside ∨ w.stage c' i' = .leaving) → c' = c ∧ i' = i) ∧
    (w.stage c i = .inside ∧ w.trims = 0 ∨ w.stage c i = .leaving ∧ w.trims = 1)
  done : w.once = .done → w.trims = 1 ∧ ∀ c i, w.stage c i ≠ .inside ∧ w.stage c i ≠ .leaving
  none : w.trims = 0 → ∀ (n c i t : Nat), tr[n]? ≠ some (.spawn c i t)
  one : w.trims = 1 → (∃ n c i : Nat, tr[n]? = some (.spawn c i 0)) ∧ ∀ (n c i t m c' i' t' : Nat), tr[n]? = some (.spawn c i t) → tr[m]? = some (.spawn c' i' t') → n = m
  asked : ∀ (c i n : Nat), tr[n]? = some (.ev c (.reg i true)) → w.stage c i ≠ .none ∨ w.once = .done

theorem Run1.keep (h : Run1 tr w) (he : ∀ c i t, e ≠ .spawn c i t) (h1 : w'.once = w.once) (h2 : w'.trims = w.trims)
    (h3 : ∀ c i, w.stage c i = w'.stage c i ∨ w'.stage c i = .want ∧ w.stage c i = .none)
    (h4 : ∀ c i, e = .ev c (.reg i true) → w'.stage c i = .want) : Run1 (tr ++ [e]) w' := by
  have out : ∀ c i, w.stage c i ≠ .inside ∧ w.stage c i ≠ .leaving → w'.stage c i ≠ .inside ∧ w'.stage c i ≠ .leaving := by
    intro c i hh
    rcases h3 c i with h | ⟨h, _⟩
    · rw [← h]; exact hh
    · rw [h]; exact ⟨nofun, nofun⟩
  have sp : ∀ (n c i t : Nat), (tr ++ [e])[n]? = some (.spawn c i t) → tr[n]? = some (.spawn c i t) := by
    intro n c i t hn
    rcases get_snoc.1 hn with hn | ⟨_, hn⟩
    · exact hn
    · exact absurd hn.symm (he c i t)
  refine ⟨fun h0 => ?_, fun h0 => ?_, fun h0 => ?_, fun h0 n c i t hn => ?_, fun h0 => ?_, fun c i n hn => ?_⟩
  · rw [h1] at h0; rw [h2]; exact ⟨(h.fresh h0).1, fun c i => out c i ((h.fresh h0).2 c i)⟩
  · rw [h1] at h0; rw [h2]
    obtain ⟨c, i, a, b⟩ := h.busy h0
    have same : ∀ c' i', (w'.stage c' i' = .inside ∨ w'.stage c' i' = .leaving) → w.stage c' i' = w'.stage c' i' := by
      intro c' i' hh
      rcases h3 c' i' with h | ⟨h, _⟩
      · exact h
      · rw [h] at hh; rcases hh with hh | hh <;> cases hh
    have same' : w.stage c i ≠ .none → w'.stage c i = w.stage c i := by
      intro hh
      rcases h3 c i with h | ⟨_, h⟩
      · exact h.symm
      · exact absurd h hh
    refine ⟨c, i, fun c' i' hh => a c' i' (by rw [same c' i' hh]; exact hh), ?_⟩
    rcases b with b | b <;> rw [same' (by rw [b.1]; nofun)]
    · exact .inl b
    · exact .inr b
  · rw [h1] at h0; rw [h2]; exact ⟨(h.done h0).1, fun c i => out c i ((h.done h0).2 c i)⟩
  · rw [h2] at h0; exact h.none h0 n c i t (sp n c i t hn)
  · rw [h2] at h0
    obtain ⟨⟨n, c, i, a⟩, b⟩ := h.one h0
    exact ⟨⟨n, c, i, get_keep a⟩, fun n c i t m c' i' t' hn hm => b n c i t m c' i' t' (sp _ _ _ _ hn) (sp _ _ _ _ hm)⟩
  · rw [h1]
    rcases get_snoc.1 hn with hn | ⟨_, hn⟩
    · rcases h.asked c i n hn with a | a
      · left
        rcases h3 c i with b | ⟨b, _⟩
        · rw [← b]; exact a
        · rw [b]; nofun
      · exact .inr a
    · left; rw [h4 c i hn.symm]; nofun

theorem WExec.run1 (h : WExec cfg tr w) : Run1 tr w := by
  induction h with
  | nil => exact ⟨fun _ => ⟨rfl, fun _ _ => ⟨nofun, nofun⟩⟩, nofun, nofun, fun _ _ _ _ _ => nofun, nofun, fun _ _ _ h => nomatch h⟩
  | @snoc tr w inp w' e h0 hs ih =>
    have hW := wstep_WStep hs
    cases hW with
    | @user c i inp s e h1 h2 h3 he =>
      obtain ⟨r1, r2, r3, r4, r5⟩ := reg_st (w := w.put c s) (c := c) (e := e)
      refine ih.keep nofun r4 r5 (fun c' i' => ?_) (fun c' i' h => ?_)
      · unfold World.reg
        split
        · have ht := (step_Step he).tid
          simp only [Ev.tid] at ht
          subst ht
          simp only
          split
          · next h => obtain ⟨rfl, rfl⟩ := h; exact .inr ⟨rfl, h2⟩
          · exact .inl rfl
        · exact .inl rfl
        · exact .inl rfl
      · cases h; simp [World.reg]
    | @enter c i h1 h2 =>
      have hf := ih.fresh h2
      refine ⟨nofun, fun _ => ⟨c, i, fun c' i' hh => ?_, .inl ⟨by simp [World.to], hf.1⟩⟩, nofun, fun _ n c' i' t hn => ?_, fun h => ?_, fun c' i' n hn => ?_⟩
      · simp only [World.to] at hh
        split at hh
        · next hc => exact hc
        · have := hf.2 c' i'
          rcases hh with hh | hh
          · exact absurd hh this.1
          · exact absurd hh this.2
      · rcases get_snoc.1 hn with hn | ⟨_, hn⟩
        · exact ih.none hf.1 n c' i' t hn
        · cases hn
      · have h : w.trims = 1 := h
        rw [hf.1] at h; cases h
      · left
        rcases get_snoc.1 hn with hn | ⟨_, hn⟩
        · simp only [World.to]
          split
          · nofun
          · rcases ih.asked c' i' n hn with a | a
            · exact a
            · rw [h2] at a; cases a
        · cases hn
    | @skip c i h1 h2 =>
      have hf := ih.done h2
      have hone := ih.one hf.1
      refine ⟨fun h => ?_, fun h => ?_, fun _ => ⟨hf.1, fun c' i' => ?_⟩, fun h => ?_, fun _ => ?_, fun c' i' n hn => .inr h2⟩
      · have h : w.once = .fresh := h
        rw [h2] at h; cases h
      · have h : w.once = .busy := h
        rw [h2] at h; cases h
      · simp only [World.to]
        split
        · exact ⟨nofun, nofun⟩
        · exact hf.2 c' i'
      · have h : w.trims = 0 := h
        rw [hf.1] at h; cases h
      · obtain ⟨⟨n, c, i, a⟩, b⟩ := hone
        refine ⟨⟨n, c, i, get_keep a⟩, fun n c i t m c' i' t' hn hm => b n c i t m c' i' t' ?_ ?_⟩
        · rcases get_snoc.1 hn with hn | ⟨_, hn⟩
          · exact hn
          · cases hn
        · rcases get_snoc.1 hm with hn | ⟨_, hn⟩
          · exact hn
          · cases hn
    | @spawn c i h1 =>
      have hb : w.once = .busy := by
        cases ho : w.once with
        | fresh => exact absurd h1 ((ih.fresh ho).2 c i).1
        | busy => rfl
        | done => exact absurd h1 ((ih.done ho).2 c i).1
      obtain ⟨c0, i0, a, b⟩ := ih.busy hb
      obtain ⟨rfl, rfl⟩ := a c i (.inl h1)
      have h0 : w.trims = 0 := by
        rcases b with b | b
        · exact b.2
        · rw [h1] at b; cases b.1
      refine ⟨fun h => ?_, fun _ => ⟨c, i, fun c' i' hh => ?_, .inr ⟨by simp [World.to], by simp [World.to, h0]⟩⟩, fun h => ?_, nofun, fun _ => ?_, fun c' i' n hn => ?_⟩
      · have h : w.once = .fresh := h
        rw [hb] at h; cases h
      · simp only [World.to] at hh
        split at hh
        · next hc => exact hc
        · exact a c' i' hh
      · have h : w.once = .done := h
        rw [hb] at h; cases h
      · rw [h0]
        refine ⟨⟨_, c, i, get_new⟩, fun n c i t m c' i' t' hn hm => ?_⟩
        rcases get_snoc.1 hn with hn | ⟨hn, _⟩
        · exact (ih.none h0 _ _ _ _ hn).elim
        · rcases get_snoc.1 hm with hm | ⟨hm, _⟩
          · exact (ih.none h0 _ _ _ _ hm).elim
          · rw [hn, hm]
      · left
        rcases get_snoc.1 hn with hn | ⟨_, hn⟩
        · simp only [World.to]
          split
          · nofun
          · rcases ih.asked c' i' n hn with a | a
            · exact a
            · rw [hb] at a; cases a
        · cases hn
    | @leave c i h1 =>
      have hb : w.once = .busy := by
        cases ho : w.once with
        | fresh => exact absurd h1 ((ih.fresh ho).2 c i).2
        | busy => rfl
        | done => exact absurd h1 ((ih.done ho).2 c i).2
      obtain ⟨c0, i0, a, b⟩ := ih.busy hb
      obtain ⟨rfl, rfl⟩ := a c i (.inr h1)
      have h0 : w.trims = 1 := by
        rcases b with b | b
        · rw [h1] at b; cases b.1
        · exact b.2
      refine ⟨nofun, nofun, fun _ => ⟨h0, fun c' i' => ?_⟩, fun h => ?_, fun _ => ?_, fun c' i' n hn => .inr rfl⟩
      · simp only [World.to]
        split
        · exact ⟨nofun, nofun⟩
        · next hc => exact ⟨fun h => hc (a c' i' (.inl h)), fun h => hc (a c' i' (.inr h))⟩
      · have h : w.trims = 0 := h
        rw [h0] at h; cases h
      · obtain ⟨⟨n, c, i, a⟩, b⟩ := ih.one h0
        refine ⟨⟨n, c, i, get_keep a⟩, fun n c i t m c' i' t' hn hm => b n c i t m c' i' t' ?_ ?_⟩
        · rcases get_snoc.1 hn with hn | ⟨_, hn⟩
          · exact hn
          · cases hn
        · rcases get_snoc.1 hm with hn | ⟨_, hn⟩
          · exact hn
          · cases hn
    | tick h1 h2 h3 h4 => exact ih.keep nofun rfl rfl (fun _ _ => .inl rfl) nofun
    | @trim t c ks inp s e h1 h2 he h3 h4 =>
      refine ih.keep nofun rfl rfl (fun _ _ => .inl rfl) fun c' i' h => ?_
      cases h
      have hg := h0.good_view.1
      have := (step_regPut he ((hg.busy _ _).2 ⟨_, h1, h2⟩) (hg.noReg _ _)).2.2
      exact absurd rfl (this _ _)
    | @ret t c ks inp s e h1 he h3 h4 =>
      refine ih.keep nofun rfl rfl (fun _ _ => .inl rfl) fun c' i' h => ?_
      cases h; cases h3
    | fin h1 => exact ih.keep nofun rfl rfl (fun _ _ => .inl rfl) nofun

theorem WExec.pre (h : WExec cfg tr w) (n : Nat) : ∃ w', WExec cfg (tr.take n) w' := by
  induction h with
  | nil => exact ⟨_, by simpa using .nil⟩
  | @snoc tr w inp w' e h0 hs ih =>
    by_cases hn : n ≤ tr.length
    · rw [List.take_append_of_le_length hn]; exact ih
    · rw [List.take_of_length_le (by simp; omega)]; exact ⟨_, h0.snoc hs⟩

theorem WExec.at (h : WExec cfg tr w) (hn : tr[n]? = some e) : ∃ w0 inp w1, WExec cfg (tr.take n) w0 ∧ wstep cfg w0 inp = some (w1, e) := by
  induction h with
  | nil => cases hn
  | @snoc tr w inp w' e' h0 hs ih =>
    rcases get_snoc.1 hn with hn | ⟨rfl, rfl⟩
    · obtain ⟨w0, inp, w1, h1, h2⟩ := ih hn
      refine ⟨w0, inp, w1, ?_, h2⟩
      rwa [List.take_append_of_le_length (Nat.le_of_lt (get_lt hn))]
    · refine ⟨w, inp, w', ?_, hs⟩
      rwa [List.take_append_of_le_length (Nat.le_refl _), List.take_length]

/-- **C116**: at most one goroutine that trims is ever made. -/
theorem world_one_trimmer (h : WExec cfg tr w) (hn : tr[n]? = some (.spawn c i t)) (hm : tr[m]? = some (.spawn c' j t')) : n = m ∧ t = 0 := by
  have h1 := h.run1
  have ht : w.trims = 1 := by
    cases ho : w.once with
    | fresh => exact (h1.none (h1.fresh ho).1 _ _ _ _ hn).elim
    | done => exact (h1.done ho).1
    | busy =>
      obtain ⟨_, _, _, b | b⟩ := h1.busy ho
      · exact (h1.none b.2 _ _ _ _ hn).elim
      · exact b.2
  have hnm := (h1.one ht).2 _ _ _ _ _ _ _ _ hn hm
  obtain ⟨x, c0, i0, hx⟩ := (h1.one ht).1
  have := (h1.one ht).2 _ _ _ _ _ _ _ _ hn hx
  subst this
  rw [hn] at hx
  cases hx
  exact ⟨hnm, rfl⟩

/-- All rounds are those of one goroutine. -/
theorem world_round_by (h : WExec cfg tr w) (hn : tr[n]? = some (.tick t ks)) : t = 0 ∧ ∃ m c i, m < n ∧ tr[m]? = some (.spawn c i 0) := by
  obtain ⟨w0, inp, w1, h1, h2⟩ := h.at hn
  have hW := wstep_WStep h2
  cases hW with
  | tick a b _ _ =>
    have hr := h1.run1
    have ht : w0.trims = 1 := by
      cases ho : w0.once with
      | fresh => rw [(hr.fresh ho).1] at b; cases b
      | done => exact (hr.done ho).1
      | busy =>
        obtain ⟨_, _, _, b' | b'⟩ := hr.busy ho
        · rw [b'.2] at b; cases b
        · exact b'.2
    obtain ⟨m, c, i, hm⟩ := (hr.one ht).1
    rw [List.getElem?_take] at hm
    split at hm
    · next hlt => exact ⟨by omega, m, c, i, hlt, hm⟩
    · cases hm

theorem view_take_get {e : Ev K V} (h : (view c tr)[n]? = some e) : ∃ m, view c (tr.take m) = (view c tr).take n ∧ ∃ x, tr[m]? = some x ∧ x.on c = some e := by
  induction tr using List.reverseRecOn with
  | nil => cases h
  | append_singleton tr x ih =>
    rw [view_snoc] at h
    by_cases hn : n < (view c tr).length
    · rw [List.getElem?_append_left hn] at h
      obtain ⟨m, h1, y, h2, h3⟩ := ih h
      refine ⟨m, ?_, y, get_keep h2, h3⟩
      rw [List.take_append_of_le_length (Nat.le_of_lt (get_lt h2)), h1, view_snoc, List.take_append_of_le_length (Nat.le_of_lt hn)]
    · rw [List.getElem?_append_right (by omega)] at h
      cases hx : x.on c with
      | none => rw [hx] at h; cases h
      | some e' =>
        rw [hx] at h
        have : n - (view c tr).length = 0 := by
          have := get_lt h
          simp at this; omega
        rw [this] at h
        cases h
        have : n = (view c tr).length := by omega
        subst this
        refine ⟨tr.length, ?_, x, get_new, hx⟩
        rw [view_snoc, List.take_append_of_le_length (Nat.le_refl _), List.take_append_of_le_length (Nat.le_refl _), List.take_length, List.take_length]

theorem view_mono (h : n ≤ m) : (view c (tr.take n)).length ≤ (view c (tr.take m)).length := by
  have : tr.take n = (tr.take m).take n := by rw [List.take_take, Nat.min_eq_left h]
  rw [this]
  exact ((List.take_sublist n (tr.take m)).filterMap _).length_le

theorem view_get (hn : tr[n]? = some e) {e' : Ev K V} (he : e.on c = some e') : (view c tr)[(view c (tr.take n)).length]? = some e' := by
  have : tr = tr.take n ++ e :: tr.drop (n + 1) := by
    have hd : tr.drop n = e :: tr.drop (n + 1) := by rw [List.drop_eq_getElem_cons (get_lt hn), (List.getElem?_eq_some_iff.1 hn).2]
    rw [← hd]
    exact (List.take_append_drop n tr).symm
  conv => lhs; arg 1; rw [this]
  simp only [view, List.filterMap_append, List.filterMap_cons, he]
  rw [List.getElem?_append_right (Nat.le_refl _)]
  simp

/-- **C116**: when `Start` of a cache returns, the goroutine has been made. -/
theorem world_started (h : WExec cfg tr w) (hq : tr[q]? = some (.ev c (.ret i .unit))) (hi : i % 2 = 1)
    (hc : CallAt (view c tr) i p .start (view c (tr.take q)).length) : ∃ n c' j, n < q ∧ tr[n]? = some (.spawn c' j 0) := by
  have hv := view_get (c := c) hq (e' := .ret i .unit) (by simp [WEv.on])
  obtain ⟨n, h1, h2⟩ := (world_cache h c).out hv hc
  have h2' := get_take.1 h2
  obtain ⟨m, a1, x, a2, a3⟩ := view_take_get h2'.2
  have hx : x = .ev c (.reg i true) := by
    cases x with
    | ev c' e =>
      simp only [WEv.on] at a3
      split at a3
      · next hc => cases a3; rw [hc]
      · cases a3
    | tick t ks =>
      simp only [WEv.on] at a3
      split at a3 <;> cases a3
    | _ => cases a3
  subst hx
  have hm : m < q := by
    by_contra hm
    have h5 := view_mono (c := c) (tr := tr) (show q ≤ m by omega)
    rw [a1, List.length_take] at h5
    omega
  obtain ⟨w0, inp, w1, b1, b2⟩ := h.at hq
  have hr := b1.run1
  have hW := wstep_WStep b2
  have hst : w0.stage c i = .none := by
    generalize hE : (WEv.ev c (Ev.ret i .unit) : WEv K V) = E at hW
    cases hW with
    | user c1 c2 c3 c4 =>
      cases hE
      have := (step_Step c4).tid
      simp only [Ev.tid] at this
      subst this; exact c2
    | trim c1 c2 c3 c4 c5 => cases hE; cases c4
    | ret c1 c2 c3 c4 =>
      cases hE
      have := (step_Step c2).tid
      simp only [Ev.tid] at this
      omega
    | _ => cases hE
  have hreg : (tr.take q)[m]? = some (.ev c (.reg i true)) := by rw [List.getElem?_take, if_pos hm]; exact a2
  have hdone := (hr.asked c i m hreg).resolve_left fun h => h hst
  obtain ⟨n, c', j, hn⟩ := (hr.one (hr.done hdone).1).1
  rw [List.getElem?_take] at hn
  split at hn
  · next hlt => exact ⟨n, c', j, hlt, hn⟩
  · cases hn

/-- **C116**: `Start` does not wait forever: while a thread is in `runTrim`, it or another one there can go on. -/
theorem world_start_goes_on (h : WExec cfg tr w) (hs : w.stage c i ≠ .none) : ∃ c' j w' e, w.stage c' j ≠ .none ∧ wstep cfg w (.once c' j) = some (w', e) := by
  have hr := h.run1
  cases ho : w.once with
  | fresh =>
    have hw : w.stage c i = .want := by
      have := (hr.fresh ho).2 c i
      cases hx : w.stage c i <;> simp_all
    exact ⟨c, i, _, _, hs, by simp only [wstep, hw, ho]; rfl⟩
  | done =>
    have hw : w.stage c i = .want := by
      have := (hr.done ho).2 c i
      cases hx : w.stage c i <;> simp_all
    exact ⟨c, i, _, _, hs, by simp only [wstep, hw, ho]; rfl⟩
  | busy =>
    obtain ⟨c', j, _, b | b⟩ := hr.busy ho
    · exact ⟨c', j, _, _, by rw [b.1]; nofun, by simp only [wstep, b.1]; rfl⟩
    · exact ⟨c', j, _, _, by rw [b.1]; nofun, by simp only [wstep, b.1]; rfl⟩

end Verif.SyncCache
